import Verif.Files.Fcidump
import Mathlib.Analysis.SpecialFunctions.Sqrt
import Mathlib.Algebra.BigOperators.Fin

/-!
# FCIDUMP round trip (C46) and the writer's options (C78)
-/

namespace Verif.Files

/-- The value that arrives after printing and reading: both parts rounded, the imaginary part missing in the real
format. -/
def arrives (rnd : ℝ → ℝ) (cplx : Bool) (z : ℂ) : ℂ := if cplx then ⟨rnd z.re, rnd z.im⟩ else ((rnd z.re : ℝ) : ℂ)

/-- The complex format is used. -/
def usesCplx (cplx : Bool) (sym : Nat) : Bool := if cplx = true ∧ 4 < sym then false else cplx

/-! ### Assignments -/

theorem setAll_spec (p : Quad) (v : ℂ) : ∀ (l : List (Quad × ℂ)) (h : Quad → ℂ), (∀ a ∈ l, a.1 = p → a.2 = v) →
    setAll h l p = if p ∈ l.map Prod.fst then v else h p
  | [], h, _ => by simp [setAll]
  | a :: l, h, hl => by
    have ih := setAll_spec p v l (set2 h a.1 a.2) fun b hb => hl b (List.mem_cons_of_mem _ hb)
    have : setAll h (a :: l) p = setAll (set2 h a.1 a.2) l p := rfl
    rw [this, ih]
    by_cases h1 : p ∈ l.map Prod.fst
    · rw [if_pos h1, if_pos (by simp only [List.map_cons, List.mem_cons]; exact Or.inr h1)]
    · rw [if_neg h1]
      by_cases h2 : p = a.1
      · rw [if_pos (by simp [h2])]
        simp only [set2, h2, if_true]
        exact hl a (by simp) h2.symm
      · rw [if_neg (by simp only [List.map_cons, List.mem_cons, not_or]; exact ⟨h2, h1⟩)]
        simp [set2, h2]

theorem setAll_append (h : Quad → ℂ) (l l' : List (Quad × ℂ)) : setAll h (l ++ l') = setAll (setAll h l) l' := by
  simp [setAll, List.foldl_append]

theorem readLines_append (n sym : Nat) : ∀ (l l' : List Line) (st : RSt),
    readLines n sym st (l ++ l') = (readLines n sym st l).bind fun st' => readLines n sym st' l'
  | [], l', st => rfl
  | a :: l, l', st => by
    simp only [List.cons_append, readLines]
    cases h : readLine n sym st a with
    | none => rfl
    | some st' => simp [readLines_append n sym l l' st']

/-! ### Two-electron lines -/

abbrev FQuad (n : Nat) := Fin n × Fin n × Fin n × Fin n

/-- Zero-based indices as numbers. -/
def nat {n : Nat} (q : FQuad n) : Quad := (q.1, q.2.1, q.2.2.1, q.2.2.2)

def at4 {n : Nat} (V : Fin n → Fin n → Fin n → Fin n → ℂ) (q : FQuad n) : ℂ := V q.1 q.2.1 q.2.2.1 q.2.2.2

def up (q : Quad) : Quad := (q.1 + 1, q.2.1 + 1, q.2.2.1 + 1, q.2.2.2 + 1)

theorem nat_inj {n : Nat} {p q : FQuad n} (h : nat p = nat q) : p = q := by
  obtain ⟨a, b, c, d⟩ := p
  obtain ⟨a', b', c', d'⟩ := q
  simp only [nat, Prod.mk.injEq] at h
  simp only [Prod.mk.injEq]
  exact ⟨Fin.ext h.1, Fin.ext h.2.1, Fin.ext h.2.2.1, Fin.ext h.2.2.2⟩

theorem mem_quads {n : Nat} (q : FQuad n) : q ∈ quads n := by
  obtain ⟨a, b, c, d⟩ := q
  simp [quads]

open Classical in
theorem eriLines_eq {n m : Nat} (rnd : ℝ → ℝ) (chol : Fin n → Fin n → Fin m → ℂ) (tol : ℝ) (sym : Nat)
    (cplx paren : Bool) : ∀ (qs : List (FQuad n)),
    (∀ q ∈ qs, cplx = false → checkSym (nat q) n sym = true → (at4 (eri chol) q).im ≤ 1 / 10 ^ 12) →
    eriLines rnd chol tol sym cplx paren qs = some
      ((qs.filter fun q => decide (tol < ‖at4 (eri chol) q‖ ∧ checkSym (nat q) n sym = true)).map fun q =>
        fmt rnd (at4 (eri chol) q) (up (nat q)) cplx paren)
  | [], _ => rfl
  | (i, k, j, l) :: qs, h => by
    have ih := eriLines_eq rnd chol tol sym cplx paren qs fun q hq => h q (List.mem_cons_of_mem _ hq)
    have h0 := h (i, k, j, l) (by simp)
    rw [eriLines, ih]
    by_cases hc : tol < ‖eri chol i k j l‖ ∧ checkSym (i, k, j, l) n sym = true
    · rw [if_pos hc, if_neg, List.filter_cons_of_pos]
      · rfl
      · exact decide_eq_true hc
      · rintro ⟨h1, h2⟩
        exact absurd h2 (not_lt.2 (h0 h1 hc.2))
    · rw [if_neg hc, List.filter_cons_of_neg]
      exact fun h1 => hc (of_decide_eq_true h1)

theorem readLine_eri (n sym : Nat) (st : RSt) (rnd : ℝ → ℝ) (z : ℂ) (q : FQuad n) (cplx : Bool) :
    readLine n sym st (fmt rnd z (up (nat q)) cplx false) =
      some { st with h2 := setAll st.h2 (assigns sym (nat q) (arrives rnd cplx z)) } := by
  obtain ⟨i, k, j, l⟩ := q
  have hi := i.2
  have hk := k.2
  have hj := j.2
  have hl := l.2
  cases cplx <;>
    simp [readLine, fmt, up, nat, arrives, Nat.succ_le_of_lt]

theorem readLines_eri (n sym : Nat) (rnd : ℝ → ℝ) (V : FQuad n → ℂ) (cplx : Bool) : ∀ (qs : List (FQuad n)) (st : RSt),
    readLines n sym st (qs.map fun q => fmt rnd (V q) (up (nat q)) cplx false) =
      some { st with h2 := setAll st.h2 (qs.flatMap fun q => assigns sym (nat q) (arrives rnd cplx (V q))) }
  | [], st => rfl
  | q :: qs, st => by
    rw [List.map_cons, readLines, readLine_eri, Option.bind_some, readLines_eri n sym rnd V cplx qs]
    simp [setAll_append]

/-! ### One-electron lines -/

def set1All (h : Nat → Nat → ℂ) : List (Nat × Nat × ℂ) → Nat → Nat → ℂ
  | [] => h
  | (i, j, v) :: l => set1All (set1 (set1 h i j v) j i (star v)) l

theorem set1All_append (h : Nat → Nat → ℂ) : ∀ (l l' : List (Nat × Nat × ℂ)),
    set1All h (l ++ l') = set1All (set1All h l) l'
  | [], _ => rfl
  | (i, j, v) :: l, l' => by simp only [List.cons_append, set1All]; exact set1All_append _ l l'

theorem set1All_spec (a b : Nat) (v : ℂ) : ∀ (l : List (Nat × Nat × ℂ)) (h : Nat → Nat → ℂ),
    (∀ x ∈ l, (x.1 = a ∧ x.2.1 = b → x.2.2 = v) ∧ (x.2.1 = a ∧ x.1 = b → star x.2.2 = v)) →
    ((∃ x ∈ l, (x.1 = a ∧ x.2.1 = b) ∨ (x.2.1 = a ∧ x.1 = b)) → set1All h l a b = v) ∧
      ((¬ ∃ x ∈ l, (x.1 = a ∧ x.2.1 = b) ∨ (x.2.1 = a ∧ x.1 = b)) → set1All h l a b = h a b)
  | [], h, _ => by simp [set1All]
  | (i, j, w) :: l, h, hl => by
    have ih := set1All_spec a b v l (set1 (set1 h i j w) j i (star w)) fun x hx => hl x (List.mem_cons_of_mem _ hx)
    have h0 := hl (i, j, w) (by simp)
    by_cases hr : ∃ x ∈ l, (x.1 = a ∧ x.2.1 = b) ∨ (x.2.1 = a ∧ x.1 = b)
    · refine ⟨fun _ => ih.1 hr, fun hn => ?_⟩
      obtain ⟨x, hx, h1⟩ := hr
      exact absurd ⟨x, List.mem_cons_of_mem _ hx, h1⟩ hn
    · refine ⟨?_, fun hn => ?_⟩
      · rintro ⟨x, hx, h1⟩
        rw [List.mem_cons] at hx
        rcases hx with rfl | hx
        · rw [set1All, ih.2 hr]
          simp only [set1]
          simp only at h1 h0
          by_cases h2 : a = j ∧ b = i
          · rw [if_pos h2]; exact h0.2 ⟨h2.1.symm, h2.2.symm⟩
          · rw [if_neg h2]
            rcases h1 with h1 | h1
            · rw [if_pos ⟨h1.1.symm, h1.2.symm⟩]; exact h0.1 h1
            · exact absurd ⟨h1.1.symm, h1.2.symm⟩ h2
        · exact absurd ⟨x, hx, h1⟩ hr
      · rw [set1All, ih.2 hr]
        have h3 : ¬ ((i = a ∧ j = b) ∨ (j = a ∧ i = b)) := fun h4 => hn ⟨(i, j, w), by simp, h4⟩
        simp only [set1]
        rw [if_neg (show ¬ (a = j ∧ b = i) from fun h4 => h3 (Or.inr ⟨h4.1.symm, h4.2.symm⟩)),
          if_neg (show ¬ (a = i ∧ b = j) from fun h4 => h3 (Or.inl ⟨h4.1.symm, h4.2.symm⟩))]

open Classical in
/-- The index pairs with a line. -/
noncomputable def pairs1 {n : Nat} (hcore : Fin n → Fin n → ℂ) (tol : ℝ) : List (Fin n × Fin n) :=
  (List.finRange n).flatMap fun i => ((List.finRange n).filter fun j => decide (j ≤ i ∧ tol < ‖hcore i j‖)).map fun j =>
    (i, j)

theorem mem_pairs1 {n : Nat} (hcore : Fin n → Fin n → ℂ) (tol : ℝ) (i j : Fin n) :
    (i, j) ∈ pairs1 hcore tol ↔ j ≤ i ∧ tol < ‖hcore i j‖ := by
  simp [pairs1]

theorem oneLines_eq {n : Nat} (rnd : ℝ → ℝ) (hcore : Fin n → Fin n → ℂ) (tol : ℝ) (cplx paren : Bool) :
    oneLines rnd hcore tol cplx paren = (pairs1 hcore tol).map fun p =>
      fmt rnd (hcore p.1 p.2) (p.1 + 1, p.2 + 1, 0, 0) cplx paren := by
  simp [oneLines, pairs1, List.map_flatMap, Function.comp_def]

theorem readLines_one (n sym : Nat) (rnd : ℝ → ℝ) (hcore : Fin n → Fin n → ℂ) (cplx : Bool) :
    ∀ (l : List (Fin n × Fin n)) (st : RSt),
    readLines n sym st (l.map fun p => fmt rnd (hcore p.1 p.2) (p.1 + 1, p.2 + 1, 0, 0) cplx false) =
      some { st with h1 := set1All st.h1 (l.map fun p => ((p.1 : Nat), (p.2 : Nat), arrives rnd cplx (hcore p.1 p.2))) }
  | [], st => rfl
  | (i, j) :: l, st => by
    rw [List.map_cons, readLines]
    have : readLine n sym st (fmt rnd (hcore i j) ((i : Nat) + 1, (j : Nat) + 1, 0, 0) cplx false) =
        some { st with
          h1 := set1 (set1 st.h1 i j (arrives rnd cplx (hcore i j))) j i (star (arrives rnd cplx (hcore i j))) } := by
      have hi := i.2
      have hj := j.2
      cases cplx <;> simp [readLine, fmt, arrives, Nat.succ_le_of_lt]
    simp only [this, Option.bind_some]
    rw [readLines_one n sym rnd hcore cplx l]
    simp [set1All]

/-! ### Symmetry of the integrals -/

/-- The permutational symmetry that the caller promises: exchange of the two electrons for 4 and 8, and for 8 also
exchange of the orbitals of one electron. -/
def HasSym {n : Nat} (sym : Nat) (V : Fin n → Fin n → Fin n → Fin n → ℂ) : Prop :=
  (sym ≠ 1 → ∀ i k j l, V j l i k = V i k j l) ∧ (sym = 8 → ∀ i k j l, V k i j l = V i k j l)

theorem eri_star {n m : Nat} (chol : Fin n → Fin n → Fin m → ℂ) (i k j l : Fin n) :
    eri chol l j k i = star (eri chol i k j l) := by
  simp [eri, mul_comm]

theorem arrives_star (rnd : ℝ → ℝ) (hodd : ∀ x, rnd (-x) = - rnd x) (cplx : Bool) (z : ℂ) :
    arrives rnd cplx (star z) = star (arrives rnd cplx z) := by
  cases cplx
  · simp [arrives]
  · apply Complex.ext <;> simp [arrives, hodd]

theorem assigns_keys (sym : Nat) (q : Quad) (v : ℂ) : (assigns sym q v).map Prod.fst = orbit sym q := by
  obtain ⟨i, k, j, l⟩ := q
  simp only [orbit, assigns]
  split_ifs <;> simp

theorem rnd_zero (rnd : ℝ → ℝ) (hodd : ∀ x, rnd (-x) = - rnd x) : rnd 0 = 0 := by
  have := hodd 0
  simp at this
  linarith

/-- With the promised symmetry every assignment of a line is the value that belongs to its position. -/
theorem assigns_value {n m : Nat} (rnd : ℝ → ℝ) (hodd : ∀ x, rnd (-x) = - rnd x) (cplx : Bool)
    (chol : Fin n → Fin n → Fin m → ℂ) (sym : Nat) (hsym : HasSym sym (eri chol)) (hs : sym = 1 ∨ sym = 4 ∨ sym = 8)
    (q p : FQuad n) (v : ℂ) (h : (nat p, v) ∈ assigns sym (nat q) (arrives rnd cplx (at4 (eri chol) q))) :
    v = arrives rnd cplx (at4 (eri chol) p) ∧ ‖at4 (eri chol) q‖ = ‖at4 (eri chol) p‖ := by
  obtain ⟨i, k, j, l⟩ := q
  set V := eri chol with hV
  have hst : ∀ i k j l, V l j k i = star (V i k j l) := eri_star chol
  have key : ∀ (r : FQuad n) (w : ℂ), nat p = nat r → v = arrives rnd cplx w → at4 V r = w → ‖w‖ = ‖V i k j l‖ →
      v = arrives rnd cplx (at4 V p) ∧ ‖V i k j l‖ = ‖at4 V p‖ := by
    intro r w h1 h2 h3 h4
    rw [nat_inj h1, h3]
    exact ⟨h2, h4.symm⟩
  show _ ∧ ‖V i k j l‖ = _
  change (nat p, v) ∈ assigns sym (nat (i, k, j, l)) (arrives rnd cplx (V i k j l)) at h
  have hn : ∀ z : ℂ, ‖star z‖ = ‖z‖ := norm_star
  rcases hs with rfl | rfl | rfl
  · simp only [assigns, nat, if_true, List.append_nil, List.mem_singleton, Prod.mk.injEq] at h
    exact key (i, k, j, l) _ (by simp [nat, h.1]) h.2 rfl rfl
  · have hx := hsym.1 (by omega)
    simp only [assigns, nat, show ¬ (4 : Nat) = 1 by omega, if_true, if_false, List.append_nil, List.mem_append,
      List.mem_singleton, List.mem_cons, List.not_mem_nil, or_false, Prod.mk.injEq] at h
    rcases h with h | h | h | h
    · exact key (i, k, j, l) _ (by simp [nat, h.1]) h.2 rfl rfl
    · exact key (j, l, i, k) _ (by simp [nat, h.1]) h.2 (hx i k j l) rfl
    · rw [← arrives_star rnd hodd] at h
      exact key (k, i, l, j) _ (by simp [nat, h.1]) h.2 ((hx l j k i).trans (hst i k j l)) (hn _)
    · rw [← arrives_star rnd hodd] at h
      exact key (l, j, k, i) _ (by simp [nat, h.1]) h.2 (hst i k j l) (hn _)
  · have hx := hsym.1 (by omega)
    have hy := hsym.2 rfl
    have hz : ∀ i k j l, V i k l j = V i k j l := fun i k j l => by rw [hx l j i k, hy j l i k, hx i k j l]
    simp only [assigns, nat, show ¬ (8 : Nat) = 1 by omega, show ¬ (8 : Nat) = 4 by omega, if_false, List.mem_append,
      List.mem_singleton, List.mem_cons, List.not_mem_nil, or_false, Prod.mk.injEq] at h
    rcases h with h | (h | h | h) | h | h | h | h
    · exact key (i, k, j, l) _ (by simp [nat, h.1]) h.2 rfl rfl
    · exact key (j, l, i, k) _ (by simp [nat, h.1]) h.2 (hx i k j l) rfl
    · rw [← arrives_star rnd hodd] at h
      exact key (k, i, l, j) _ (by simp [nat, h.1]) h.2 ((hx l j k i).trans (hst i k j l)) (hn _)
    · rw [← arrives_star rnd hodd] at h
      exact key (l, j, k, i) _ (by simp [nat, h.1]) h.2 (hst i k j l) (hn _)
    · exact key (k, i, j, l) _ (by simp [nat, h.1]) h.2 (hy i k j l) rfl
    · exact key (l, j, i, k) _ (by simp [nat, h.1]) h.2 ((hx i k l j).trans (hz i k j l)) rfl
    · exact key (i, k, l, j) _ (by simp [nat, h.1]) h.2 (hz i k j l) rfl
    · exact key (j, l, k, i) _ (by simp [nat, h.1]) h.2 ((hz j l i k).trans (hx i k j l)) rfl

/-- Every position is restored by some line that passes the symmetry check. -/
theorem covered {n : Nat} (sym : Nat) (hs : sym = 1 ∨ sym = 4 ∨ sym = 8) (p : FQuad n) :
    ∃ q : FQuad n, checkSym (nat q) n sym = true ∧ nat p ∈ orbit sym (nat q) := by
  have lift : ∀ q : Quad, inside n q → ∃ q' : FQuad n, nat q' = q := fun q hq =>
    ⟨(⟨q.1, hq.1⟩, ⟨q.2.1, hq.2.1⟩, ⟨q.2.2.1, hq.2.2.1⟩, ⟨q.2.2.2, hq.2.2.2⟩), rfl⟩
  have hp : inside n (nat p) := ⟨p.1.2, p.2.1.2, p.2.2.1.2, p.2.2.2.2⟩
  rcases hs with rfl | rfl | rfl
  · obtain ⟨i, k, j, l⟩ := p
    exact ⟨(i, k, j, l), by simp [checkSym, nat], by simp [orbit, assigns, nat]⟩
  · obtain ⟨q, ⟨h1, h2⟩, -⟩ := four_exists_unique (nat p) n
    have hq : inside n q := by
      rw [orbit_four] at h2
      simp only [List.mem_cons, List.not_mem_nil, or_false] at h2
      obtain ⟨a, b, c, d⟩ := q
      obtain ⟨p1, p2, p3, p4⟩ := hp
      simp only [inside]
      rcases h2 with h2 | h2 | h2 | h2 <;> rw [h2] at p1 p2 p3 p4 <;> simp only at p1 p2 p3 p4 <;>
        exact ⟨by assumption, by assumption, by assumption, by assumption⟩
    obtain ⟨q', rfl⟩ := lift q hq
    exact ⟨q', h1, h2⟩
  · obtain ⟨q, ⟨h0, h1, h2⟩, -⟩ := eight_exists_unique (nat p) n hp
    obtain ⟨q', rfl⟩ := lift q h0
    exact ⟨q', h1, h2⟩

/-! ### The round trip -/

open Classical in
/-- What reading gives after writing without parentheses, provided the writer does not stop. -/
theorem read_write {n m : Nat} (rnd : ℝ → ℝ) (hodd : ∀ x, rnd (-x) = - rnd x) (hcore : Fin n → Fin n → ℂ)
    (hherm : ∀ i j, hcore j i = star (hcore i j)) (chol : Fin n → Fin n → Fin m → ℂ) (enuc : ℝ) (nelec : Nat × Nat)
    (tol : ℝ) (sym : Nat) (hs : sym = 1 ∨ sym = 4 ∨ sym = 8) (hsym : HasSym sym (eri chol)) (cplx : Bool)
    (him : ∀ q : FQuad n, usesCplx cplx sym = false → checkSym (nat q) n sym = true →
      (at4 (eri chol) q).im ≤ 1 / 10 ^ 12) :
    ∃ f r, writeFcidump rnd hcore chol enuc nelec tol sym cplx false = some f ∧ readFcidump f sym = some r ∧
      (∀ i k j l : Fin n, r.h2 (i, k, j, l) =
        if tol < ‖eri chol i k j l‖ then arrives rnd (usesCplx cplx sym) (eri chol i k j l) else 0) ∧
      (∀ i j : Fin n, r.h1 i j = if tol < ‖hcore i j‖ then arrives rnd (usesCplx cplx sym) (hcore i j) else 0) ∧
      r.ecore = (rnd enuc : ℂ) ∧ r.nelec = ((nelec.1 : ℤ), (nelec.2 : ℤ)) := by
  set c := usesCplx cplx sym with hc
  have hw := eriLines_eq rnd chol tol sym c false (quads n) fun q _ => him q
  set qs := (quads n).filter fun q => decide (tol < ‖at4 (eri chol) q‖ ∧ checkSym (nat q) n sym = true) with hqs
  have hmem : ∀ q, q ∈ qs ↔ tol < ‖at4 (eri chol) q‖ ∧ checkSym (nat q) n sym = true := fun q => by
    rw [hqs, List.mem_filter]
    exact ⟨fun h => of_decide_eq_true h.2, fun h => ⟨mem_quads q, decide_eq_true h⟩⟩
  let as2 := qs.flatMap fun q => assigns sym (nat q) (arrives rnd c (at4 (eri chol) q))
  let as1 := (pairs1 hcore tol).map fun p => ((p.1 : Nat), (p.2 : Nat), arrives rnd c (hcore p.1 p.2))
  have he : arrives rnd c (enuc : ℂ) = (rnd enuc : ℂ) := by
    cases c
    · simp [arrives]
    · apply Complex.ext <;> simp [arrives, rnd_zero rnd hodd]
  refine ⟨⟨n, nelec.1 + nelec.2, nelec.1 - nelec.2,
      (qs.map fun q => fmt rnd (at4 (eri chol) q) (up (nat q)) c false) ++ oneLines rnd hcore tol c false ++
        [fmt rnd enuc (0, 0, 0, 0) c false]⟩,
    ⟨set1All (fun _ _ => 0) as1, setAll (fun _ => 0) as2, arrives rnd c (enuc : ℂ), ((nelec.1 : ℤ), (nelec.2 : ℤ))⟩,
    ?_, ?_, ?_, ?_, he, rfl⟩
  · show (eriLines rnd chol tol sym c false (quads n)).map _ = _
    rw [hw]
    rfl
  · unfold readFcidump
    rw [if_pos hs]
    simp only
    rw [readLines_append, readLines_append, readLines_eri, Option.bind_some, oneLines_eq, readLines_one,
      Option.bind_some]
    have hl : ∀ st : RSt, readLines n sym st [fmt rnd enuc (0, 0, 0, 0) c false] =
        some { st with ecore := some (arrives rnd c (enuc : ℂ)) } := by
      intro st
      cases c <;> simp [readLines, readLine, fmt, arrives]
    rw [hl]
    simp only [Option.bind_some, Option.map_some]
    congr 2
    refine Prod.ext ?_ ?_ <;> simp only <;> omega
  · intro i k j l
    have hall : ∀ a ∈ as2, a.1 = nat (i, k, j, l) → a.2 = arrives rnd c (eri chol i k j l) := by
      intro a ha h1
      obtain ⟨q, -, h2⟩ := List.mem_flatMap.1 ha
      refine (assigns_value rnd hodd c chol sym hsym hs q (i, k, j, l) a.2 ?_).1
      rw [← h1]
      exact h2
    have := setAll_spec (nat (i, k, j, l)) _ as2 (fun _ => 0) hall
    show setAll _ as2 (nat (i, k, j, l)) = _
    rw [this]
    refine if_congr ?_ rfl rfl
    constructor
    · intro h
      obtain ⟨a, ha, h1⟩ := List.mem_map.1 h
      obtain ⟨q, hq, h2⟩ := List.mem_flatMap.1 ha
      have := (assigns_value rnd hodd c chol sym hsym hs q (i, k, j, l) a.2 (by rw [← h1]; exact h2)).2
      rw [show eri chol i k j l = at4 (eri chol) (i, k, j, l) from rfl, ← this]
      exact ((hmem q).1 hq).1
    · intro h
      obtain ⟨q, h1, h2⟩ := covered sym hs (i, k, j, l)
      have h3 := h2
      rw [← assigns_keys sym (nat q) (arrives rnd c (at4 (eri chol) q))] at h3
      obtain ⟨a, ha, h4⟩ := List.mem_map.1 h3
      have h5 := (assigns_value rnd hodd c chol sym hsym hs q (i, k, j, l) a.2 (by rw [← h4]; exact ha)).2
      refine List.mem_map.2 ⟨a, List.mem_flatMap.2 ⟨q, (hmem q).2 ⟨?_, h1⟩, ha⟩, h4⟩
      rw [h5]
      exact h
  · intro i j
    have hstar : ∀ i j, arrives rnd c (hcore j i) = star (arrives rnd c (hcore i j)) := fun i j => by
      rw [hherm i j, arrives_star rnd hodd]
    have hnorm : ‖hcore j i‖ = ‖hcore i j‖ := by rw [hherm i j, norm_star]
    have hall : ∀ x ∈ as1, (x.1 = i ∧ x.2.1 = j → x.2.2 = arrives rnd c (hcore i j)) ∧
        (x.2.1 = i ∧ x.1 = j → star x.2.2 = arrives rnd c (hcore i j)) := by
      intro x hx
      obtain ⟨⟨a, b⟩, -, rfl⟩ := List.mem_map.1 hx
      refine ⟨fun h => ?_, fun h => ?_⟩
      · rw [Fin.ext h.1, Fin.ext h.2]
      · rw [Fin.ext h.1, Fin.ext h.2, hstar j i]
    have hsp := set1All_spec i j (arrives rnd c (hcore i j)) as1 (fun _ _ => 0) hall
    have hex : (∃ x ∈ as1, (x.1 = i ∧ x.2.1 = j) ∨ (x.2.1 = i ∧ x.1 = j)) ↔ tol < ‖hcore i j‖ := by
      constructor
      · rintro ⟨x, hx, h⟩
        obtain ⟨⟨a, b⟩, hab, rfl⟩ := List.mem_map.1 hx
        have := ((mem_pairs1 hcore tol a b).1 hab).2
        rcases h with h | h
        · have e1 : a = i := Fin.ext h.1
          have e2 : b = j := Fin.ext h.2
          rw [e1, e2] at this; exact this
        · have e1 : b = i := Fin.ext h.1
          have e2 : a = j := Fin.ext h.2
          rw [e1, e2, hnorm] at this; exact this
      · intro h
        rcases le_total j i with h1 | h1
        · exact ⟨_, List.mem_map.2 ⟨(i, j), (mem_pairs1 hcore tol i j).2 ⟨h1, h⟩, rfl⟩, Or.inl ⟨rfl, rfl⟩⟩
        · exact ⟨_, List.mem_map.2 ⟨(j, i), (mem_pairs1 hcore tol j i).2 ⟨h1, by rw [hnorm]; exact h⟩, rfl⟩,
            Or.inr ⟨rfl, rfl⟩⟩
    show set1All _ as1 i j = _
    by_cases h : tol < ‖hcore i j‖
    · rw [if_pos h]; exact hsp.1 (hex.2 h)
    · rw [if_neg h]; exact hsp.2 fun h1 => h (hex.1 h1)

/-- Integrals that the chosen format can hold. -/
theorem arrives_real (rnd : ℝ → ℝ) (hodd : ∀ x, rnd (-x) = - rnd x) (c : Bool) (z : ℂ) (hz : c = false → z.im = 0) :
    (arrives rnd c z).re = rnd z.re ∧ (arrives rnd c z).im = rnd z.im := by
  cases c
  · simp [arrives, hz rfl, rnd_zero rnd hodd]
  · simp [arrives]

theorem arrives_error (rnd : ℝ → ℝ) (hodd : ∀ x, rnd (-x) = - rnd x) (ε : ℝ) (hε : 0 ≤ ε)
    (hr : ∀ x, |rnd x - x| ≤ ε * |x|) (c : Bool) (z : ℂ) (hz : c = false → z.im = 0) :
    ‖arrives rnd c z - z‖ ≤ ε * ‖z‖ := by
  obtain ⟨h1, h2⟩ := arrives_real rnd hodd c z hz
  have a1 := hr z.re
  have a2 := hr z.im
  apply le_of_sq_le_sq _ (by positivity)
  rw [mul_pow, ← Complex.normSq_eq_norm_sq, ← Complex.normSq_eq_norm_sq, Complex.normSq_apply, Complex.normSq_apply,
    Complex.sub_re, Complex.sub_im, h1, h2]
  have b1 := mul_self_le_mul_self (abs_nonneg _) a1
  have b2 := mul_self_le_mul_self (abs_nonneg _) a2
  rw [abs_mul_abs_self] at b1 b2
  have c1 := abs_mul_abs_self z.re
  have c2 := abs_mul_abs_self z.im
  nlinarith

theorem herm_im {n : Nat} {sym : Nat} {m : Nat} (chol : Fin n → Fin n → Fin m → ℂ) (h : HasSym sym (eri chol))
    (h8 : sym = 8) (i k j l : Fin n) : (eri chol i k j l).im = 0 := by
  have hx := h.1 (by omega)
  have hy := h.2 h8
  have : star (eri chol i k j l) = eri chol i k j l := by
    rw [← eri_star, hx k i l j, hy i k l j, hx l j i k, hy j l i k, hx]
  have h2 := congrArg Complex.im this
  simp at h2
  linarith

/-- **C46**: writing with symmetry 1, 4 or 8 and reading with the same symmetry restores the core energy, the electron
numbers and every integral: up to the printed precision above the tolerance, as zero below. -/
theorem fcidump_roundtrip {n m : Nat} (rnd : ℝ → ℝ) (hodd : ∀ x, rnd (-x) = - rnd x) (ε : ℝ) (hε : 0 ≤ ε)
    (hr : ∀ x, |rnd x - x| ≤ ε * |x|) (hcore : Fin n → Fin n → ℂ)
    (hherm : ∀ i j, hcore j i = star (hcore i j)) (chol : Fin n → Fin n → Fin m → ℂ) (enuc : ℝ) (nelec : Nat × Nat)
    (tol : ℝ) (sym : Nat) (hs : sym = 1 ∨ sym = 4 ∨ sym = 8) (hsym : HasSym sym (eri chol)) (cplx : Bool)
    (hre : cplx = false → ∀ i k j l, (eri chol i k j l).im = 0)
    (hre1 : cplx = false ∨ sym = 8 → ∀ i j, (hcore i j).im = 0) :
    ∃ f r, writeFcidump rnd hcore chol enuc nelec tol sym cplx false = some f ∧ readFcidump f sym = some r ∧
      (∀ i k j l : Fin n,
        (tol < ‖eri chol i k j l‖ → ‖r.h2 (i, k, j, l) - eri chol i k j l‖ ≤ ε * ‖eri chol i k j l‖) ∧
        (‖eri chol i k j l‖ ≤ tol → r.h2 (i, k, j, l) = 0)) ∧
      (∀ i j : Fin n, (tol < ‖hcore i j‖ → ‖r.h1 i j - hcore i j‖ ≤ ε * ‖hcore i j‖) ∧
        (‖hcore i j‖ ≤ tol → r.h1 i j = 0)) ∧
      r.ecore = (rnd enuc : ℂ) ∧ r.nelec = ((nelec.1 : ℤ), (nelec.2 : ℤ)) := by
  have hu : usesCplx cplx sym = false → cplx = false ∨ sym = 8 := by
    intro h
    unfold usesCplx at h
    split_ifs at h with h1
    · right; omega
    · left; exact h
  have hz : usesCplx cplx sym = false → ∀ i k j l, (eri chol i k j l).im = 0 := by
    intro h
    rcases hu h with h1 | h1
    · exact hre h1
    · exact herm_im chol hsym h1
  obtain ⟨f, r, h1, h2, h3, h4, h5, h6⟩ := read_write rnd hodd hcore hherm chol enuc nelec tol sym hs hsym cplx
    fun q h _ => by
      have : (at4 (eri chol) q).im = 0 := hz h q.1 q.2.1 q.2.2.1 q.2.2.2
      rw [this]
      positivity
  refine ⟨f, r, h1, h2, fun i k j l => ⟨fun h => ?_, fun h => ?_⟩, fun i j => ⟨fun h => ?_, fun h => ?_⟩, h5, h6⟩
  · rw [h3, if_pos h]
    exact arrives_error rnd hodd ε hε hr _ _ fun h => hz h i k j l
  · rw [h3, if_neg (not_lt.2 h)]
  · rw [h4, if_pos h]
    exact arrives_error rnd hodd ε hε hr _ _ fun h => hre1 (hu h) i j
  · rw [h4, if_neg (not_lt.2 h)]

/-! ## C78: the writer's options -/

/-- The property: whatever the options, either the writer refuses or reading restores both integral tables. -/
def NothingLost : Prop :=
  ∀ (n m : Nat) (hcore : Fin n → Fin n → ℂ) (_ : ∀ i j, hcore j i = star (hcore i j)) (chol : Fin n → Fin n → Fin m → ℂ)
    (enuc : ℝ) (nelec : Nat × Nat) (sym : Nat) (_ : sym = 1 ∨ sym = 4 ∨ sym = 8) (_ : HasSym sym (eri chol))
    (cplx paren : Bool) (f : FFile), writeFcidump id hcore chol enuc nelec 0 sym cplx paren = some f →
    ∃ r, readFcidump f sym = some r ∧ (∀ i k j l : Fin n, r.h2 (i, k, j, l) = eri chol i k j l) ∧
      ∀ i j : Fin n, r.h1 i j = hcore i j

/-- A file with parentheses is written without complaint and can never be read. -/
theorem paren_unreadable {n m : Nat} (rnd : ℝ → ℝ) (hcore : Fin n → Fin n → ℂ) (chol : Fin n → Fin n → Fin m → ℂ)
    (enuc : ℝ) (nelec : Nat × Nat) (tol : ℝ) (sym : Nat) (cplx : Bool) (hc : usesCplx cplx sym = true) :
    ∃ f, writeFcidump rnd hcore chol enuc nelec tol sym cplx true = some f ∧ ∀ s, readFcidump f s = none := by
  have hw := eriLines_eq rnd chol tol sym (usesCplx cplx sym) true (quads n) fun q _ h => by rw [hc] at h; cases h
  obtain ⟨ls, hls⟩ : ∃ ls, eriLines rnd chol tol sym (usesCplx cplx sym) true (quads n) = some ls := ⟨_, hw⟩
  refine ⟨⟨n, nelec.1 + nelec.2, nelec.1 - nelec.2, ls ++ oneLines rnd hcore tol (usesCplx cplx sym) true ++
    [fmt rnd enuc (0, 0, 0, 0) (usesCplx cplx sym) true]⟩, ?_, ?_⟩
  · show (eriLines rnd chol tol sym (usesCplx cplx sym) true (quads n)).map _ = _
    rw [hls]
    rfl
  · intro s
    unfold readFcidump
    split_ifs with h
    · simp only
      rw [readLines_append]
      have : ∀ st : RSt, readLines n s st [fmt rnd enuc (0, 0, 0, 0) (usesCplx cplx sym) true] = none := by
        intro st
        rw [hc]
        simp [readLines, readLine, fmt]
      cases h1 : readLines n s ⟨fun _ _ => 0, fun _ => 0, none⟩ _ with
      | none => rfl
      | some st => simp [this]
    · rfl

/-- A Hermitian Cholesky vector with imaginary off-diagonal elements. -/
def lostChol : Fin 2 → Fin 2 → Fin 1 → ℂ := fun i k _ =>
  if i = k then 1 else if i = 0 then -Complex.I else Complex.I

theorem lostChol_star (i k : Fin 2) (x : Fin 1) : star (lostChol k i x) = lostChol i k x := by
  fin_cases i <;> fin_cases k <;> simp [lostChol]

theorem lostChol_eri (i k j l : Fin 2) : eri lostChol i k j l = lostChol i k 0 * lostChol j l 0 := by
  simp [eri, ← lostChol_star j l]

theorem lostChol_sym : HasSym 4 (eri lostChol) := by
  refine ⟨fun _ i k j l => ?_, fun h => absurd h (by omega)⟩
  rw [lostChol_eri, lostChol_eri, mul_comm]

/-- Complex two-electron integrals in the real format: here the imaginary part of every integral that represents its
orbit is negative or zero; the writer does not notice and the integral `-i` is read back as zero. -/
theorem eri_imag_lost (enuc : ℝ) (nelec : Nat × Nat) : ∃ f r,
    writeFcidump id (fun _ _ : Fin 2 => 0) lostChol enuc nelec 0 4 false false = some f ∧ readFcidump f 4 = some r ∧
      eri lostChol 0 0 0 1 = -Complex.I ∧ r.h2 (0, 0, 0, 1) = 0 := by
  obtain ⟨f, r, h1, h2, h3, -⟩ := read_write id (fun _ => rfl) (fun _ _ : Fin 2 => (0 : ℂ)) (by simp) lostChol enuc nelec
    0 4 (by simp) lostChol_sym false (by
      rintro ⟨i, k, j, l⟩ - hc
      have hv : at4 (eri lostChol) (i, k, j, l) = lostChol i k 0 * lostChol j l 0 := lostChol_eri i k j l
      rw [hv]
      revert hc
      fin_cases i <;> fin_cases k <;> fin_cases j <;> fin_cases l <;>
        first
        | (intro hc; exact absurd hc (by decide +kernel))
        | (intro _; simp [lostChol]; try norm_num))
  have he : eri lostChol 0 0 0 1 = -Complex.I := by rw [lostChol_eri]; simp [lostChol]
  refine ⟨f, r, h1, h2, he, ?_⟩
  have := h3 0 0 0 1
  rw [he] at this
  rw [show ((0, 0, 0, 1) : Quad) = (((0 : Fin 2) : Nat), ((0 : Fin 2) : Nat), ((0 : Fin 2) : Nat), ((1 : Fin 2) : Nat))
    from rfl, this]
  simp [arrives, usesCplx]

theorem nothing_lost_wrong : ¬ NothingLost := by
  intro h
  obtain ⟨f, r, h1, h2, h3, h4⟩ := eri_imag_lost 0 (1, 1)
  obtain ⟨r', h5, h6, -⟩ := h 2 1 _ (by simp) lostChol 0 (1, 1) 4 (by simp) lostChol_sym false false f h1
  rw [h2] at h5
  cases h5
  have := h6 0 0 0 1
  rw [h3] at this
  have h7 : r.h2 (0, 0, 0, 1) = -Complex.I := this
  rw [h4] at h7
  simpa using congrArg Complex.im h7

/-- The one-electron integrals are not checked at all: in the real format every Hermitian matrix is written and read
back as its rounded real part. -/
theorem hcore_imag_lost {n : Nat} (hcore : Fin n → Fin n → ℂ) (hherm : ∀ i j, hcore j i = star (hcore i j)) (enuc : ℝ)
    (nelec : Nat × Nat) (sym : Nat) (hs : sym = 1 ∨ sym = 4 ∨ sym = 8) : ∃ f r,
    writeFcidump id hcore (fun _ _ (_ : Fin 0) => 0) enuc nelec 0 sym false false = some f ∧
      readFcidump f sym = some r ∧ ∀ i j : Fin n, r.h1 i j = ((hcore i j).re : ℂ) := by
  have h0 : ∀ i k j l : Fin n, eri (fun _ _ (_ : Fin 0) => (0 : ℂ)) i k j l = 0 := fun _ _ _ _ => by simp [eri]
  obtain ⟨f, r, h1, h2, -, h4, -⟩ := read_write id (fun _ => rfl) hcore hherm (fun _ _ (_ : Fin 0) => 0) enuc nelec 0 sym
    hs ⟨fun _ i k j l => by rw [h0, h0], fun _ i k j l => by rw [h0, h0]⟩ false (by
      rintro ⟨i, k, j, l⟩ - -
      show (eri _ i k j l).im ≤ _
      rw [h0]
      simp)
  refine ⟨f, r, h1, h2, fun i j => ?_⟩
  rw [h4]
  split_ifs with h
  · simp [arrives, usesCplx]
  · have : hcore i j = 0 := by simpa using h
    simp [this]

/-- What is guaranteed (partial): without parentheses, and with real integrals in the real format, nothing is lost. -/
theorem nothing_lost_partial {n m : Nat} (hcore : Fin n → Fin n → ℂ) (hherm : ∀ i j, hcore j i = star (hcore i j))
    (chol : Fin n → Fin n → Fin m → ℂ) (enuc : ℝ) (nelec : Nat × Nat) (sym : Nat) (hs : sym = 1 ∨ sym = 4 ∨ sym = 8)
    (hsym : HasSym sym (eri chol)) (cplx : Bool) (hre : cplx = false → ∀ i k j l, (eri chol i k j l).im = 0)
    (hre1 : cplx = false ∨ sym = 8 → ∀ i j, (hcore i j).im = 0) :
    ∃ f r, writeFcidump id hcore chol enuc nelec 0 sym cplx false = some f ∧ readFcidump f sym = some r ∧
      (∀ i k j l : Fin n, r.h2 (i, k, j, l) = eri chol i k j l) ∧ ∀ i j : Fin n, r.h1 i j = hcore i j := by
  obtain ⟨f, r, h1, h2, h3, h4, -⟩ := fcidump_roundtrip id (fun _ => rfl) 0 le_rfl (by simp) hcore hherm chol enuc nelec
    0 sym hs hsym cplx hre hre1
  refine ⟨f, r, h1, h2, fun i k j l => ?_, fun i j => ?_⟩
  · by_cases h : 0 < ‖eri chol i k j l‖
    · have := (h3 i k j l).1 h
      rw [zero_mul, norm_le_zero_iff, sub_eq_zero] at this
      exact this
    · rw [(h3 i k j l).2 (not_lt.1 h)]
      exact (norm_le_zero_iff.1 (not_lt.1 h)).symm
  · by_cases h : 0 < ‖hcore i j‖
    · have := (h4 i j).1 h
      rw [zero_mul, norm_le_zero_iff, sub_eq_zero] at this
      exact this
    · rw [(h4 i j).2 (not_lt.1 h)]
      exact (norm_le_zero_iff.1 (not_lt.1 h)).symm

/-- In the real format with symmetry 1 the check does work: the integrals with exchanged indices are conjugate, so one of
the two has a positive imaginary part. -/
theorem full_real_refused {n m : Nat} (rnd : ℝ → ℝ) (hcore : Fin n → Fin n → ℂ) (chol : Fin n → Fin n → Fin m → ℂ)
    (enuc : ℝ) (nelec : Nat × Nat) (tol : ℝ) (paren : Bool) (i k j l : Fin n) (ht : tol < ‖eri chol i k j l‖)
    (him : 1 / 10 ^ 12 < |(eri chol i k j l).im|) :
    writeFcidump rnd hcore chol enuc nelec tol 1 false paren = none := by
  have hex : ∃ q : FQuad n, tol < ‖at4 (eri chol) q‖ ∧ 1 / 10 ^ 12 < (at4 (eri chol) q).im := by
    rcases le_total 0 (eri chol i k j l).im with h | h
    · rw [abs_of_nonneg h] at him
      exact ⟨(i, k, j, l), ht, him⟩
    · rw [abs_of_nonpos h] at him
      refine ⟨(l, j, k, i), ?_, ?_⟩
      · show tol < ‖eri chol l j k i‖
        rw [eri_star, norm_star]
        exact ht
      · show _ < (eri chol l j k i).im
        rw [eri_star]
        simpa using him
  obtain ⟨q, h1, h2⟩ := hex
  have : ∀ qs : List (FQuad n), q ∈ qs → eriLines rnd chol tol 1 false paren qs = none := by
    intro qs
    induction qs with
    | nil => simp
    | cons a qs ih =>
      obtain ⟨i, k, j, l⟩ := a
      intro hq
      rw [List.mem_cons] at hq
      rw [eriLines]
      rcases hq with hq | hq
      · subst hq
        rw [if_pos ⟨h1, by simp [checkSym]⟩, if_pos ⟨rfl, h2⟩]
      · rw [ih hq]
        split_ifs <;> rfl
  show (eriLines rnd chol tol 1 false paren (quads n)).map _ = none
  rw [this (quads n) (mem_quads q)]
  rfl

/-! ### Examples -/

/-- The round trip holds for the complex example with symmetry 4 and in the complex format. -/
example (enuc : ℝ) : ∃ f r,
    writeFcidump id (fun i k => lostChol i k 0) lostChol enuc (1, 1) 0 4 true false = some f ∧
      readFcidump f 4 = some r ∧ (∀ i k j l : Fin 2, r.h2 (i, k, j, l) = eri lostChol i k j l) ∧
      ∀ i j : Fin 2, r.h1 i j = lostChol i j 0 :=
  nothing_lost_partial _ (fun i j => (lostChol_star j i 0).symm) lostChol enuc (1, 1) 4 (by simp) lostChol_sym true
    (by simp) (by simp)

/-- Integrals with eight-fold symmetry: a real symmetric vector. -/
example : HasSym 8 (eri (fun (i k : Fin 3) (_ : Fin 1) => ((i.1 + k.1 : ℕ) : ℂ))) := by
  refine ⟨fun _ i k j l => ?_, fun _ i k j l => ?_⟩
  · simp [eri]; ring
  · simp [eri, add_comm]

/-- Rounding to even multiples is an odd function, e.g. rounding to nothing. -/
example : ∃ rnd : ℝ → ℝ, (∀ x, rnd (-x) = - rnd x) ∧ (∀ x, |rnd x - x| ≤ 1 / 10 * |x|) ∧ rnd ≠ id := by
  refine ⟨fun x => x * (11 / 10), fun x => by ring, fun x => ?_, fun h => ?_⟩
  · have : x * (11 / 10) - x = 1 / 10 * x := by ring
    rw [this, abs_mul]
    norm_num
  · have := congrFun h 1
    norm_num at this

end Verif.Files
