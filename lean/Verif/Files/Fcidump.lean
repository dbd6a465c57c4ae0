import Mathlib.Analysis.Complex.Basic
import Mathlib.Data.List.FinRange
import Mathlib.Data.List.Lex
import Mathlib.Data.Finset.Max
import Mathlib.Tactic.Linarith

/-!
# FCIDUMP files

Model of `write_fcidump`, `check_sym`, `fmt_integral`, `fcidump_header` and `read_fcidump`
(pauxy/utils/hamiltonian_converter.py 8-107, 248-353, 447-460).  A line of the file is modelled by its tokens.
Printing a number with nine digits and reading it again is an arbitrary odd function `rnd` of the number.  The text of
the header is not modelled, only the three numbers it carries; an orbital index zero in a one-electron line, which
would wrap around, counts as an error.
-/

namespace Verif.Files

/-- Orbital indices in the order `i k j l` of the file. -/
abbrev Quad := Nat × Nat × Nat × Nat

def toList (q : Quad) : List Nat := [q.1, q.2.1, q.2.2.1, q.2.2.2]

/-- `check_sym`, hamiltonian_converter.py 248-280; tuples compare lexicographically. -/
def checkSym (q : Quad) (nmo sym : Nat) : Bool :=
  match q with
  | (i, k, j, l) =>
    if sym = 1 then true
    else if sym = 4 then
      if toList (j, l, i, k) < toList q ∨ toList (k, i, l, j) < toList q ∨ toList (l, j, k, i) < toList q then false
      else true
    else decide (k ≤ i ∧ l ≤ j ∧ j + l * nmo ≤ i + k * nmo)

/-- A line of the file by its tokens: five or six numbers, or a number in parentheses. -/
inductive Line where
  | six (re im : ℝ) (q : Quad)
  | five (v : ℝ) (q : Quad)
  | paren

/-- `fmt_integral`, hamiltonian_converter.py 282-292, with indices already shifted by one. -/
def fmt (rnd : ℝ → ℝ) (z : ℂ) (q : Quad) (cplx paren : Bool) : Line :=
  if cplx then (if paren then .paren else .six (rnd z.re) (rnd z.im) q) else .five (rnd z.re) q

structure FFile where
  norb : Nat
  nelec : Int
  ms2 : Int
  lines : List Line

/-- `(ik|jl)` from the Cholesky vectors, `eris[i,k,l,j]`, hamiltonian_converter.py 333. -/
def eri {n m : Nat} (chol : Fin n → Fin n → Fin m → ℂ) (i k j l : Fin n) : ℂ :=
  ∑ x, chol i k x * star (chol l j x)

/-- All index quadruples in the order of the loops, 334-337. -/
def quads (n : Nat) : List (Fin n × Fin n × Fin n × Fin n) :=
  (List.finRange n).flatMap fun i => (List.finRange n).flatMap fun k => (List.finRange n).flatMap fun j =>
    (List.finRange n).map fun l => (i, k, j, l)

open Classical in
/-- The two-electron lines, hamiltonian_converter.py 334-346; `none` is the exit on a complex integral (which is only
noticed if its imaginary part is positive). -/
noncomputable def eriLines {n m : Nat} (rnd : ℝ → ℝ) (chol : Fin n → Fin n → Fin m → ℂ) (tol : ℝ) (sym : Nat)
    (cplx paren : Bool) : List (Fin n × Fin n × Fin n × Fin n) → Option (List Line)
  | [] => some []
  | (i, k, j, l) :: qs =>
    if tol < ‖eri chol i k j l‖ ∧ checkSym (i, k, j, l) n sym = true then
      if cplx = false ∧ 1 / 10 ^ 12 < (eri chol i k j l).im then none
      else (eriLines rnd chol tol sym cplx paren qs).map fun ls =>
        fmt rnd (eri chol i k j l) (i + 1, k + 1, j + 1, l + 1) cplx paren :: ls
    else eriLines rnd chol tol sym cplx paren qs

open Classical in
/-- The one-electron lines, hamiltonian_converter.py 347-352. -/
noncomputable def oneLines {n : Nat} (rnd : ℝ → ℝ) (hcore : Fin n → Fin n → ℂ) (tol : ℝ) (cplx paren : Bool) :
    List Line :=
  (List.finRange n).flatMap fun i => ((List.finRange n).filter fun j => decide (j ≤ i ∧ tol < ‖hcore i j‖)).map fun j =>
    fmt rnd (hcore i j) (i + 1, j + 1, 0, 0) cplx paren

/-- `write_fcidump`, hamiltonian_converter.py 295-353. -/
noncomputable def writeFcidump {n m : Nat} (rnd : ℝ → ℝ) (hcore : Fin n → Fin n → ℂ) (chol : Fin n → Fin n → Fin m → ℂ)
    (enuc : ℝ) (nelec : Nat × Nat) (tol : ℝ) (sym : Nat) (cplx paren : Bool) : Option FFile :=
  let cplx' := if cplx = true ∧ 4 < sym then false else cplx
  (eriLines rnd chol tol sym cplx' paren (quads n)).map fun ls =>
    { norb := n
      nelec := nelec.1 + nelec.2
      ms2 := nelec.1 - nelec.2
      lines := ls ++ oneLines rnd hcore tol cplx' paren ++ [fmt rnd enuc (0, 0, 0, 0) cplx' paren] }

/-! ### Reading -/

structure RSt where
  h1 : Nat → Nat → ℂ
  h2 : Quad → ℂ
  ecore : Option ℂ

def set1 (h : Nat → Nat → ℂ) (i k : Nat) (v : ℂ) : Nat → Nat → ℂ := fun a b => if a = i ∧ b = k then v else h a b

def set2 (h : Quad → ℂ) (q : Quad) (v : ℂ) : Quad → ℂ := fun p => if p = q then v else h p

/-- The assignments for one two-electron line, hamiltonian_converter.py 78-98 (zero-based indices). -/
def assigns (sym : Nat) (q : Quad) (v : ℂ) : List (Quad × ℂ) :=
  match q with
  | (i, k, j, l) =>
    [((i, k, j, l), v)] ++
      if sym = 1 then [] else
        [((j, l, i, k), v), ((k, i, l, j), star v), ((l, j, k, i), star v)] ++
          if sym = 4 then [] else
            [((k, i, j, l), v), ((l, j, i, k), v), ((i, k, l, j), v), ((j, l, k, i), v)]

def setAll (h : Quad → ℂ) (l : List (Quad × ℂ)) : Quad → ℂ := l.foldl (fun h a => set2 h a.1 a.2) h

/-- One line, hamiltonian_converter.py 52-98. -/
def readLine (n sym : Nat) (st : RSt) (ln : Line) : Option RSt :=
  let r := match ln with
    | .six re im q => some ((⟨re, im⟩ : ℂ), q)
    | .five v q => some ((v : ℂ), q)
    | .paren => none
  match r with
  | none => none
  | some (z, (i, k, j, l)) =>
    if i = 0 ∧ j = 0 ∧ k = 0 ∧ l = 0 then some { st with ecore := some z }
    else if j = 0 ∧ l = 0 then
      if 0 < i ∧ i ≤ n ∧ 0 < k ∧ k ≤ n then
        some { st with h1 := set1 (set1 st.h1 (i - 1) (k - 1) z) (k - 1) (i - 1) (star z) }
      else none
    else if 0 < i ∧ 0 < j ∧ 0 < k ∧ 0 < l then
      if i ≤ n ∧ j ≤ n ∧ k ≤ n ∧ l ≤ n then
        some { st with h2 := setAll st.h2 (assigns sym (i - 1, k - 1, j - 1, l - 1) z) }
      else none
    else some st

def readLines (n sym : Nat) : RSt → List Line → Option RSt
  | st, [] => some st
  | st, ln :: ls => (readLine n sym st ln).bind fun st' => readLines n sym st' ls

structure FRead where
  h1 : Nat → Nat → ℂ
  h2 : Quad → ℂ
  ecore : ℂ
  nelec : Int × Int

/-- `read_fcidump`, hamiltonian_converter.py 8-107; without a core-energy line `ecore` is unbound. -/
def readFcidump (f : FFile) (sym : Nat) : Option FRead :=
  if sym = 1 ∨ sym = 4 ∨ sym = 8 then
    (readLines f.norb sym ⟨fun _ _ => 0, fun _ => 0, none⟩ f.lines).bind fun st => st.ecore.map fun e =>
      { h1 := st.h1, h2 := st.h2, ecore := e, nelec := ((f.nelec + f.ms2) / 2, (f.nelec + f.ms2) / 2 - f.ms2) }
  else none

/-! ## Every orbit of the index symmetry has exactly one line -/

/-- The positions that a line restores. -/
def orbit (sym : Nat) (q : Quad) : List Quad := (assigns sym q 0).map Prod.fst

theorem toList_inj {p q : Quad} (h : toList p = toList q) : p = q := by
  obtain ⟨a, b, c, d⟩ := p
  obtain ⟨a', b', c', d'⟩ := q
  simpa [toList] using h

theorem orbit_four (q : Quad) : orbit 4 q =
    [q, (q.2.2.1, q.2.2.2, q.1, q.2.1), (q.2.1, q.1, q.2.2.2, q.2.2.1), (q.2.2.2, q.2.2.1, q.2.1, q.1)] := by
  obtain ⟨i, k, j, l⟩ := q
  simp [orbit, assigns]

theorem check_four (q : Quad) (nmo : Nat) : checkSym q nmo 4 = true ↔ ∀ p ∈ orbit 4 q, toList q ≤ toList p := by
  obtain ⟨i, k, j, l⟩ := q
  rw [orbit_four]
  simp only [checkSym, show ¬ (4 : Nat) = 1 by omega, if_false, if_true]
  split_ifs with h
  · simp only [Bool.false_eq_true, false_iff]
    intro hc
    rcases h with h | h | h
    · exact absurd h (not_lt.2 (hc _ (by simp)))
    · exact absurd h (not_lt.2 (hc _ (by simp)))
    · exact absurd h (not_lt.2 (hc _ (by simp)))
  · simp only [true_iff]
    push Not at h
    intro p hp
    simp only [List.mem_cons, List.not_mem_nil, or_false] at hp
    rcases hp with rfl | rfl | rfl | rfl
    · exact le_refl _
    · exact h.1
    · exact h.2.1
    · exact h.2.2

theorem orbit_four_mem {p q : Quad} (h : p ∈ orbit 4 q) (r : Quad) : r ∈ orbit 4 p ↔ r ∈ orbit 4 q := by
  obtain ⟨i, k, j, l⟩ := q
  rw [orbit_four] at h
  simp only [List.mem_cons, List.not_mem_nil, or_false] at h
  rw [orbit_four, orbit_four]
  rcases h with rfl | rfl | rfl | rfl <;> simp only [List.mem_cons, List.not_mem_nil, or_false] <;> tauto

/-- Symmetry 4: the orbit of every quadruple has a line, and only one. -/
theorem four_exists_unique (p : Quad) (nmo : Nat) : ∃! q, checkSym q nmo 4 = true ∧ p ∈ orbit 4 q := by
  have hself : ∀ q, q ∈ orbit 4 q := fun q => by rw [orbit_four]; simp
  obtain ⟨q, hq, hmin⟩ := Finset.exists_min_image (orbit 4 p).toFinset toList ⟨p, by simpa using hself p⟩
  rw [List.mem_toFinset] at hq
  have hm : ∀ r, r ∈ orbit 4 q ↔ r ∈ orbit 4 p := orbit_four_mem hq
  refine ⟨q, ⟨(check_four q nmo).2 fun r hr => hmin r (by simpa using (hm r).1 hr), (hm p).2 (hself p)⟩, ?_⟩
  rintro q' ⟨hc, hp⟩
  have h1 : ∀ r, r ∈ orbit 4 p ↔ r ∈ orbit 4 q' := orbit_four_mem hp
  apply toList_inj
  apply le_antisymm
  · exact (check_four q' nmo).1 hc q ((h1 q).1 hq)
  · exact hmin q' (by simpa using (h1 q').2 (hself q'))

theorem pair_inj {n i k j l : Nat} (hi : i < n) (hj : j < n) (h : i + k * n = j + l * n) : i = j ∧ k = l := by
  have h1 : (i + k * n) % n = i := by rw [Nat.add_mul_mod_self_right, Nat.mod_eq_of_lt hi]
  have h2 : (j + l * n) % n = j := by rw [Nat.add_mul_mod_self_right, Nat.mod_eq_of_lt hj]
  have hij : i = j := by rw [← h1, ← h2, h]
  refine ⟨hij, ?_⟩
  subst hij
  have : k * n = l * n := by omega
  exact Nat.eq_of_mul_eq_mul_right (by omega) this

/-- All indices are orbitals. -/
def inside (n : Nat) (q : Quad) : Prop := q.1 < n ∧ q.2.1 < n ∧ q.2.2.1 < n ∧ q.2.2.2 < n

theorem check_eight (q : Quad) (nmo : Nat) : checkSym q nmo 8 = true ↔
    q.2.1 ≤ q.1 ∧ q.2.2.2 ≤ q.2.2.1 ∧ q.2.2.1 + q.2.2.2 * nmo ≤ q.1 + q.2.1 * nmo := by
  obtain ⟨i, k, j, l⟩ := q
  simp [checkSym]

theorem orbit_eight (i k j l : Nat) : orbit 8 (i, k, j, l) =
    [(i, k, j, l), (j, l, i, k), (k, i, l, j), (l, j, k, i), (k, i, j, l), (l, j, i, k), (i, k, l, j), (j, l, k, i)] := by
  simp [orbit, assigns]

/-- Symmetry 8: the orbit of every quadruple of orbitals has a line, and only one. -/
theorem eight_exists_unique (p : Quad) (n : Nat) (hp : inside n p) :
    ∃! q, inside n q ∧ checkSym q n 8 = true ∧ p ∈ orbit 8 q := by
  obtain ⟨i, k, j, l⟩ := p
  simp only [inside] at hp
  obtain ⟨hi, hk, hj, hl⟩ := hp
  have ex : ∃ q, inside n q ∧ checkSym q n 8 = true ∧ (i, k, j, l) ∈ orbit 8 q := by
    -- order each pair, then the two pairs
    rcases le_total k i with h1 | h1 <;> rcases le_total l j with h2 | h2
    · rcases le_total (j + l * n) (i + k * n) with h3 | h3
      · exact ⟨(i, k, j, l), ⟨hi, hk, hj, hl⟩, (check_eight _ _).2 ⟨h1, h2, h3⟩, by simp [orbit_eight]⟩
      · exact ⟨(j, l, i, k), ⟨hj, hl, hi, hk⟩, (check_eight _ _).2 ⟨h2, h1, h3⟩, by simp [orbit_eight]⟩
    · rcases le_total (l + j * n) (i + k * n) with h3 | h3
      · exact ⟨(i, k, l, j), ⟨hi, hk, hl, hj⟩, (check_eight _ _).2 ⟨h1, h2, h3⟩, by simp [orbit_eight]⟩
      · exact ⟨(l, j, i, k), ⟨hl, hj, hi, hk⟩, (check_eight _ _).2 ⟨h2, h1, h3⟩, by simp [orbit_eight]⟩
    · rcases le_total (j + l * n) (k + i * n) with h3 | h3
      · exact ⟨(k, i, j, l), ⟨hk, hi, hj, hl⟩, (check_eight _ _).2 ⟨h1, h2, h3⟩, by simp [orbit_eight]⟩
      · exact ⟨(j, l, k, i), ⟨hj, hl, hk, hi⟩, (check_eight _ _).2 ⟨h2, h1, h3⟩, by simp [orbit_eight]⟩
    · rcases le_total (l + j * n) (k + i * n) with h3 | h3
      · exact ⟨(k, i, l, j), ⟨hk, hi, hl, hj⟩, (check_eight _ _).2 ⟨h1, h2, h3⟩, by simp [orbit_eight]⟩
      · exact ⟨(l, j, k, i), ⟨hl, hj, hk, hi⟩, (check_eight _ _).2 ⟨h2, h1, h3⟩, by simp [orbit_eight]⟩
  obtain ⟨q, hq⟩ := ex
  refine ⟨q, hq, ?_⟩
  rintro q' ⟨hin', hc', hm'⟩
  obtain ⟨hin, hc, hm⟩ := hq
  obtain ⟨a, b, c, d⟩ := q
  obtain ⟨a', b', c', d'⟩ := q'
  rw [check_eight] at hc hc'
  rw [orbit_eight] at hm hm'
  simp only [inside] at hin hin'
  simp only [List.mem_cons, Prod.mk.injEq, List.not_mem_nil, or_false] at hm hm'
  simp only at hc hc'
  obtain ⟨c1, c2, c3⟩ := hc
  obtain ⟨c1', c2', c3'⟩ := hc'
  -- both lines contain the same two unordered pairs
  have key : (a = a' ∧ b = b' ∧ c = c' ∧ d = d') ∨ (a = c' ∧ b = d' ∧ c = a' ∧ d = b') := by
    rcases hm with h | h | h | h | h | h | h | h <;> obtain ⟨rfl, rfl, rfl, rfl⟩ := h <;>
    rcases hm' with h | h | h | h | h | h | h | h <;> obtain ⟨h1, h2, h3, h4⟩ := h <;> omega
  rcases key with ⟨rfl, rfl, rfl, rfl⟩ | ⟨rfl, rfl, rfl, rfl⟩
  · rfl
  · obtain ⟨e1, e2⟩ := pair_inj hin.1 hin.2.2.1 (le_antisymm c3' c3)
    subst e1; subst e2
    rfl

end Verif.Files
