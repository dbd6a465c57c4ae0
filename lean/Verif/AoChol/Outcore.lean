import Verif.AoChol.Props
import Mathlib.Algebra.BigOperators.Intervals

/-!
# The out-of-core Cholesky decomposition loses its last chunk (C89)
-/

namespace Verif.AoChol

open Finset

variable {sh : List Shell} {eri : Eri} {amax : (Fin (nao sh * nao sh) → ℝ) → Fin (nao sh * nao sh)} {tol : ℝ} {c nmax : Nat}

/-- The loop with a file follows the loop in memory. -/
structure Rel {n : Nat} (c : Nat) (s : State n) (o : Out n) : Prop where
  nchol : o.nchol = s.vecs.length
  ichunk : o.ichunk = o.nchol / c
  file : ∀ x, o.file x = if x < o.ichunk * c then s.vecs.getD x 0 else 0
  buf : ∀ k, k ≤ o.nchol % c → o.buf k = (s.vecs ++ [s.next]).getD (o.ichunk * c + k) 0
  approx : o.approx = s.approx
  dmax : o.dmax = s.dmax

theorem sum_chunks (f : Nat → ℝ) (n c : Nat) : ∑ i ∈ range n, ∑ k ∈ range c, f (i * c + k) = ∑ x ∈ range (n * c), f x := by
  induction n with
  | zero => simp
  | succ n ih => rw [sum_range_succ, ih, Nat.succ_mul, sum_range_add]

theorem sum_getD {α : Type*} (l : List α) (d : α) (f : α → ℝ) : (l.map f).sum = ∑ x ∈ range l.length, f (l.getD x d) := by
  induction l with
  | nil => simp
  | cons a l ih =>
    rw [List.map_cons, List.sum_cons, ih, List.length_cons, sum_range_succ', add_comm]
    simp

theorem Rel.last {n : Nat} {s : State n} {o : Out n} (h : Rel c s o) : o.buf (o.nchol % c) = s.next := by
  rw [h.buf _ le_rfl, h.ichunk, Nat.div_add_mod', h.nchol]
  rw [List.getD_append_right _ _ _ _ le_rfl]
  simp

theorem Rel.residual {n : Nat} {s : State n} {o : Out n} (h : Rel c s o) (nu p : Fin n) :
    residual c o nu p = ((s.vecs ++ [s.next]).map fun v => v nu * v p).sum := by
  rw [AoChol.residual, sum_chunks fun x => o.file x nu * o.file x p, sum_getD _ 0, List.length_append, List.length_singleton,
    ← h.nchol]
  have e : o.nchol + 1 = o.ichunk * c + (o.nchol % c + 1) := by
    rw [h.ichunk, ← add_assoc, Nat.div_add_mod']
  rw [e, sum_range_add _ (o.ichunk * c)]
  congr 1
  · refine sum_congr rfl fun x hx => ?_
    have hx' := mem_range.1 hx
    have : x < s.vecs.length := by
      rw [← h.nchol]
      refine lt_of_lt_of_le hx' ?_
      rw [h.ichunk]
      exact Nat.div_mul_le_self _ _
    rw [h.file, if_pos hx', List.getD_append _ _ _ _ this]
  · refine sum_congr rfl fun k hk => ?_
    rw [h.buf k (Nat.lt_succ_iff.1 (mem_range.1 hk))]

theorem out_step (hs : ∀ s ∈ sh, 0 < s.nctr) (hc : 2 ≤ c) {s s' : State (nao sh * nao sh)} {o : Out (nao sh * nao sh)}
    (h : Rel c s o) (hst : step sh eri amax s = some s') (hn : s'.vecs.length < nmax) :
    ∃ o', outStep sh eri amax c nmax o = some o' ∧ Rel c s' o' := by
  rw [step, column_eq hs, Option.map_some, Option.some.injEq] at hst
  rw [outStep, column_eq hs]
  simp only [Option.bind_some, h.residual, h.last, h.approx]
  have hlen : s'.vecs = s.vecs ++ [s.next] := by rw [← hst]
  have hnc : o.nchol + 1 = s'.vecs.length := by rw [hlen, h.nchol]; simp
  by_cases hw : 0 < o.nchol ∧ (o.nchol + 1) % c = 0
  · have hd := Nat.div_add_mod' o.nchol c
    have hm : o.nchol % c = c - 1 := by
      have := Nat.mod_lt o.nchol (show 0 < c by omega)
      by_contra hne
      have : (o.nchol + 1) % c = o.nchol % c + 1 := by
        rw [Nat.add_mod, Nat.mod_eq_of_lt (show 1 < c by omega), Nat.mod_eq_of_lt (by omega)]
      omega
    have hich : (o.nchol + 1) / c = o.ichunk + 1 := by
      rw [h.ichunk]
      refine Nat.div_eq_of_lt_le ?_ ?_
      · rw [add_mul]; omega
      · rw [add_mul, add_mul]; omega
    have hfull : (o.ichunk + 1) * c = o.nchol + 1 := by
      rw [h.ichunk, add_mul]; omega
    rw [if_pos hw, if_pos (by rw [hfull, hnc]; omega)]
    refine ⟨_, rfl, ?_⟩
    constructor
    · exact hnc
    · exact hich.symm
    · intro x
      show (if o.ichunk * c ≤ x ∧ x < (o.ichunk + 1) * c then o.buf (x - o.ichunk * c) else o.file x) =
        if x < (o.ichunk + 1) * c then s'.vecs.getD x 0 else 0
      by_cases h1 : x < o.ichunk * c
      · have h2 : x < (o.ichunk + 1) * c := by rw [add_mul]; omega
        rw [if_neg (by omega), if_pos h2, h.file, if_pos h1, hlen, List.getD_append _ _ _ _ ?_]
        rw [← h.nchol]; rw [hfull] at h2; rw [add_mul] at hfull; omega
      · by_cases h2 : x < (o.ichunk + 1) * c
        · rw [if_pos ⟨by omega, h2⟩, if_pos h2, h.buf _ ?_, hlen, Nat.add_sub_cancel' (by omega)]
          rw [hm]; rw [add_mul] at h2; omega
        · rw [if_neg (by omega), if_neg h2, h.file, if_neg h1]
    · intro k hk
      have hk0 : k = (o.nchol + 1) % c := by
        have : k ≤ (o.nchol + 1) % c := hk
        omega
      show (if k = (o.nchol + 1) % c then _ else _) = (s'.vecs ++ [s'.next]).getD ((o.ichunk + 1) * c + k) 0
      rw [if_pos hk0, hk0, hw.2, hfull, add_zero, hnc, List.getD_append_right _ _ _ _ le_rfl]
      simp [← hst]
    · rw [← hst]
    · rw [← hst]
  · rw [if_neg hw]
    refine ⟨_, rfl, ?_⟩
    have hne : (o.nchol + 1) % c ≠ 0 := by
      intro h0
      refine hw ⟨?_, h0⟩
      by_contra hz
      have : o.nchol = 0 := by omega
      rw [this, Nat.mod_eq_of_lt (by omega)] at h0
      omega
    have hlt := Nat.mod_lt o.nchol (show 0 < c by omega)
    have hmod : (o.nchol + 1) % c = o.nchol % c + 1 := by
      rw [Nat.add_mod, Nat.mod_eq_of_lt (show 1 < c by omega)] at hne ⊢
      refine Nat.mod_eq_of_lt ?_
      by_contra h'
      exact hne (by rw [show o.nchol % c + 1 = c by omega, Nat.mod_self])
    have hdiv : (o.nchol + 1) / c = o.nchol / c := by
      have h1 := Nat.div_add_mod (o.nchol + 1) c
      have h2 := Nat.div_add_mod o.nchol c
      rw [hmod] at h1
      have : c * ((o.nchol + 1) / c) = c * (o.nchol / c) := by omega
      exact Nat.eq_of_mul_eq_mul_left (by omega) this
    have hle : o.ichunk * c ≤ s.vecs.length := by rw [← h.nchol, h.ichunk]; exact Nat.div_mul_le_self _ _
    constructor
    · exact hnc
    · exact h.ichunk.trans hdiv.symm
    · intro x
      show o.file x = if x < o.ichunk * c then s'.vecs.getD x 0 else 0
      rw [h.file]
      split_ifs with hx
      · rw [hlen, List.getD_append _ _ _ _ (by omega)]
      · rfl
    · intro k hk
      have hk' : k ≤ o.nchol % c + 1 := by rw [← hmod]; exact hk
      show (if k = (o.nchol + 1) % c then _ else o.buf k) = (s'.vecs ++ [s'.next]).getD (o.ichunk * c + k) 0
      split_ifs with hkk
      · have : o.ichunk * c + k = s'.vecs.length := by
          rw [hkk, hmod, ← hnc, h.ichunk, ← add_assoc, Nat.div_add_mod']
        rw [this, List.getD_append_right _ _ _ _ le_rfl]
        simp [← hst]
      · have hk2 : k ≤ o.nchol % c := by omega
        have : o.ichunk * c + k < s'.vecs.length := by
          rw [← hnc]
          have := Nat.div_add_mod' o.nchol c
          rw [← h.ichunk] at this
          omega
        rw [h.buf k hk2, List.getD_append _ _ _ _ this, hlen]
    · rw [← hst]
    · rw [← hst]

theorem loop_length (hs : ∀ s ∈ sh, 0 < s.nctr) (k : Nat) {s : State (nao sh * nao sh)}
    {vs : List (Fin (nao sh * nao sh) → ℝ)} (hl : loop sh eri amax tol k s = some vs) : s.vecs.length ≤ vs.length := by
  induction k generalizing s with
  | zero =>
    rw [loop] at hl
    split_ifs at hl with hd
    rw [Option.some.inj hl]
  | succ k ih =>
    rw [loop] at hl
    split_ifs at hl with hd
    · obtain ⟨s', e1, e2⟩ := Option.bind_eq_some_iff.1 hl
      have := ih e2
      rw [step, column_eq hs, Option.map_some, Option.some.injEq] at e1
      rw [← e1, List.length_append] at this
      omega
    · rw [Option.some.inj hl]

theorem out_loop (hs : ∀ s ∈ sh, 0 < s.nctr) (hc : 2 ≤ c) (k : Nat) {s : State (nao sh * nao sh)} {o : Out (nao sh * nao sh)}
    (h : Rel c s o) {vs : List (Fin (nao sh * nao sh) → ℝ)} (hl : loop sh eri amax tol k s = some vs) (hn : vs.length < nmax) :
    ∃ f, Run sh eri amax tol c nmax o f vs.length ∧
      ∀ x, f x = if x < vs.length / c * c then vs.getD x 0 else 0 := by
  have stop : ∀ {s : State (nao sh * nao sh)} {o : Out (nao sh * nao sh)}, Rel c s o → ¬|s.dmax| > tol → s.vecs = vs → ∃ f, Run sh eri amax tol c nmax o f vs.length ∧
      ∀ x, f x = if x < vs.length / c * c then vs.getD x 0 else 0 := by
    intro s o h hd he
    subst he
    refine ⟨o.file, ?_, fun x => ?_⟩
    · rw [← h.nchol]
      exact Run.stop (by rwa [h.dmax])
    · rw [h.file, h.ichunk, h.nchol]
  induction k generalizing s o with
  | zero =>
    rw [loop] at hl
    split_ifs at hl with hd
    exact stop h hd (Option.some.inj hl)
  | succ k ih =>
    rw [loop] at hl
    split_ifs at hl with hd
    · obtain ⟨s', e1, e2⟩ := Option.bind_eq_some_iff.1 hl
      obtain ⟨o', e3, e4⟩ := out_step (nmax := nmax) hs hc h e1 (lt_of_le_of_lt (loop_length hs k e2) hn)
      obtain ⟨f, h1, h2⟩ := ih e4 e2
      exact ⟨f, Run.next (by rwa [h.dmax]) e3 h1, h2⟩
    · exact stop h hd (Option.some.inj hl)

theorem run_unique {o : Out (nao sh * nao sh)} {f g : Nat → Fin (nao sh * nao sh) → ℝ} {m n : Nat}
    (h1 : Run sh eri amax tol c nmax o f m) (h2 : Run sh eri amax tol c nmax o g n) : f = g ∧ m = n := by
  induction h1 with
  | stop hd =>
    cases h2 with
    | stop => exact ⟨rfl, rfl⟩
    | next hd' => exact absurd hd' hd
  | next hd e _ ih =>
    cases h2 with
    | stop hd' => exact absurd hd hd'
    | next hd' e' h' =>
      rw [e] at e'
      cases e'
      exact ih h'

/-- **C89 (out of core)**: with chunks of two or more vectors, the run ends with the number of vectors of the decomposition in
memory, and the file holds its vectors in whole chunks; the vectors of the last incomplete chunk are missing (zero). -/
theorem outcore_rows (hs : ∀ s ∈ sh, 0 < s.nctr) (hc : 2 ≤ c) {vs : List (Fin (nao sh * nao sh) → ℝ)}
    (h : chunked sh eri amax tol nmax = some vs) (hn : vs.length < nmax) {f : Nat → Fin (nao sh * nao sh) → ℝ} {n : Nat} :
    Outcore sh eri amax tol c nmax f n ↔ n = vs.length ∧ ∀ x, f x = if x < vs.length / c * c then vs.getD x 0 else 0 := by
  cases nmax with
  | zero => omega
  | succ k =>
    rw [chunked, start, column_eq hs, Option.map_some, Option.bind_some] at h
    have hrel : ∀ {d : ℝ} {v : Fin (nao sh * nao sh) → ℝ}, Rel c ⟨[], v, fun _ => 0, d⟩
        ⟨fun k => if k = 0 then v else 0, fun _ => 0, 0, 0, fun _ => 0, d⟩ := by
      intro d v
      refine ⟨rfl, by simp, fun x => by simp, fun k hk => ?_, rfl, rfl⟩
      have : k = 0 := by simpa using hk
      simp [this]
    obtain ⟨g, h1, h2⟩ := out_loop (nmax := k + 1) hs hc k hrel h hn
    have hstart : outStart sh eri amax = some
        ⟨fun k => if k = 0 then fun p => pairs (nao sh) eri p (amax (diag sh eri)) / √(diag sh eri (amax (diag sh eri))) else 0,
          fun _ => 0, 0, 0, fun _ => 0, diag sh eri (amax (diag sh eri))⟩ := by rw [outStart, column_eq hs, Option.map_some]
    constructor
    · rintro ⟨s, e1, e2⟩
      rw [hstart] at e1
      cases e1
      obtain ⟨rfl, rfl⟩ := run_unique e2 h1
      exact ⟨rfl, h2⟩
    · rintro ⟨rfl, e⟩
      have : f = g := funext fun x => by rw [e, h2]
      subst this
      exact ⟨_, hstart, h1⟩

open scoped ComplexOrder in
/-- **C89 fails out of core**: if fewer vectors are needed than one chunk holds, the file is left with zeros. -/
theorem outcore_empty (ham : ∀ (x : Fin (nao sh * nao sh) → ℝ) i, x i ≤ x (amax x)) (hs : ∀ s ∈ sh, 0 < s.nctr)
    (hM : (cpairs (nao sh) eri).PosSemidef) (ht : 0 ≤ tol) (hc : 2 ≤ c) (h : nao sh * nao sh < c) (hcn : c ≤ nmax) :
    ∃ n f, Outcore sh eri amax tol c nmax f n ∧ ∀ x, f x = 0 := by
  obtain ⟨vs, h1, h2⟩ := chunked_exists (amax := amax) (tol := tol) ham hs hM ht
  have hl : vs.length < nmax := by omega
  refine ⟨vs.length, _, (outcore_rows hs hc ((h2 nmax).trans (if_pos hl)) hl).2 ⟨rfl, fun x => rfl⟩, fun x => ?_⟩
  rw [Nat.div_eq_of_lt (by omega), zero_mul, if_neg (Nat.not_lt_zero _)]

/-! ## A molecule with an s shell and a p shell with two contractions -/

def exShells : List Shell := [⟨0, 1⟩, ⟨1, 2⟩, ⟨0, 3⟩]

def exEri : Eri := fun p q r s => if p = r ∧ q = s then 1 else 0

example : nao exShells = 10 ∧ dims exShells = [0, 1, 7, 10] ∧
    (List.range 10).map (shellOf (dims exShells)) = [0, 1, 1, 1, 1, 1, 1, 2, 2, 2] := by decide

open scoped ComplexOrder in
theorem ex_psd : (cpairs (nao exShells) exEri).PosSemidef := by
  have : cpairs (nao exShells) exEri = 1 := by
    ext p q
    rw [cpairs, Matrix.map_apply, pairs, Matrix.of_apply, exEri, Matrix.one_apply]
    by_cases h : p = q
    · subst h; simp
    · rw [if_neg h, if_neg]
      · simp
      · rintro ⟨h1, h2⟩
        refine h (Fin.ext ?_)
        rw [← Nat.div_add_mod (p : Nat) (nao exShells), h1, h2, Nat.div_add_mod]
  rw [this]
  exact Matrix.PosSemidef.one

/-- The hypotheses are met: the decomposition succeeds in memory, and leaves an empty file out of core. -/
example : ∃ amax : (Fin (nao exShells * nao exShells) → ℝ) → Fin (nao exShells * nao exShells),
    (∃ vs, chunked exShells exEri amax (1 / 10) 101 = some vs ∧ vs ≠ [] ∧
      ∀ p q : Fin (nao exShells * nao exShells), |exEri (p / nao exShells) (p % nao exShells) (q / nao exShells) (q % nao exShells) -
        (vs.map fun v => v p * v q).sum| ≤ 1 / 10) ∧
    ∃ n f, Outcore exShells exEri amax (1 / 10) 101 200 f n ∧ ∀ x, f x = 0 := by
  obtain ⟨amax, ham⟩ := Chol.exists_argmax (n := nao exShells * nao exShells) (by decide)
  have hs : ∀ s ∈ exShells, 0 < s.nctr := by decide
  refine ⟨amax, ?_, outcore_empty ham hs ex_psd (by norm_num) (by norm_num) (by decide) (by norm_num)⟩
  obtain ⟨vs, h1, h2⟩ := chunked_exists (tol := 1 / 10) ham hs ex_psd (by norm_num)
  have hl : vs.length < 101 := lt_of_le_of_lt h1 (by decide)
  have hc := (h2 101).trans (if_pos hl)
  have he := (chunked_error ham hs ex_psd (by norm_num) hc).1
  refine ⟨vs, hc, ?_, he⟩
  rintro rfl
  have := he ⟨0, by decide⟩ ⟨0, by decide⟩
  norm_num [exEri] at this

end Verif.AoChol
