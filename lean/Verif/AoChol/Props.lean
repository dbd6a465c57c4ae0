import Verif.AoChol.Model
import Verif.Chol.Props
import Mathlib.Data.List.GetD

/-!
# Cholesky decomposition of integrals of atomic orbitals (C89)
-/

namespace Verif.AoChol

open Finset

/-! ## Shells -/

/-- The search in the sums from `n`. -/
theorem search_from {sh : List Shell} (hs : ∀ s ∈ sh, 0 < s.nctr) (n j : Nat) (h1 : n ≤ j) (h2 : j < n + nao sh) :
    ∃ s t a, searchsorted (n :: dimsFrom n sh) j = s ∧ t = (if (n :: dimsFrom n sh).getD s 0 ≠ j then s - 1 else s) ∧
      sh[t]? = some a ∧ (n :: dimsFrom n sh).getD t 0 ≤ j ∧ j < (n :: dimsFrom n sh).getD t 0 + a.size := by
  induction sh generalizing n with
  | nil => simp [nao] at h2; omega
  | cons a ss ih =>
    have ha : 0 < a.size := by
      have := hs a (by simp)
      simp only [Shell.size]
      positivity
    have hn : nao (a :: ss) = a.size + nao ss := by simp [nao]
    rcases eq_or_lt_of_le h1 with h | h
    · subst h
      exact ⟨0, 0, a, by simp [searchsorted, List.findIdx_cons], by simp, by simp, by simp, by simpa using ha⟩
    · have hf : searchsorted (n :: dimsFrom n (a :: ss)) j = searchsorted (dimsFrom n (a :: ss)) j + 1 := by
        have : ¬j ≤ n := by omega
        simp [searchsorted, List.findIdx_cons, this]
      rcases lt_or_ge j (n + a.size) with h3 | h3
      · refine ⟨1, 0, a, ?_, ?_, by simp, by simpa using h1, by simpa using h3⟩
        · rw [hf]
          simp [searchsorted, dimsFrom, List.findIdx_cons, h3.le]
        · simp [dimsFrom]; omega
      · obtain ⟨s, t, b, e1, e2, e3, e4, e5⟩ := ih (fun s hm => hs s (by simp [hm])) (n + a.size) h3 (by omega)
        have hd : dimsFrom n (a :: ss) = (n + a.size) :: dimsFrom (n + a.size) ss := rfl
        refine ⟨s + 1, t + 1, b, by rw [hf, hd, e1], ?_, by simpa using e3, by simpa [hd] using e4, by simpa [hd] using e5⟩
        rw [e2]
        rcases Nat.eq_zero_or_pos s with h0 | h0
        · subst h0
          have : j = n + a.size := by
            rw [searchsorted, List.findIdx_cons] at e1
            by_contra hne
            have : ¬j ≤ n + a.size := by omega
            simp [this] at e1
          simp [hd, this]
        · have : (n :: dimsFrom n (a :: ss)).getD (s + 1) 0 = ((n + a.size) :: dimsFrom (n + a.size) ss).getD s 0 := by
            rw [hd, List.getD_cons_succ]
          rw [this]
          split_ifs <;> omega

/-- **C89 (shells)**: the lookup finds the shell that holds the orbital. -/
theorem shellOf_spec {sh : List Shell} (hs : ∀ s ∈ sh, 0 < s.nctr) {j : Nat} (h : j < nao sh) :
    ∃ a, sh[shellOf (dims sh) j]? = some a ∧ (dims sh).getD (shellOf (dims sh) j) 0 ≤ j ∧
      j < (dims sh).getD (shellOf (dims sh) j) 0 + a.size := by
  obtain ⟨s, t, a, e1, e2, e3, e4, e5⟩ := search_from hs 0 j (Nat.zero_le _) (by simpa using h)
  have : shellOf (dims sh) j = t := by
    rw [e2, shellOf, dims, e1]
    rcases Nat.eq_zero_or_pos j with h0 | h0
    · subst h0
      have : s = 0 := by rw [← e1]; simp [searchsorted, List.findIdx_cons]
      simp [this]
    · simp only [h0.ne', ne_eq, not_false_eq_true, and_true]
  rw [this]
  exact ⟨a, e3, e4, e5⟩

/-- The matrix of integrals over pairs of orbitals. -/
def pairs (n : Nat) (eri : Eri) : Matrix (Fin (n * n)) (Fin (n * n)) ℝ :=
  Matrix.of fun p q => eri (p / n) (p % n) (q / n) (q % n)

theorem pair_lt {n : Nat} (p : Fin (n * n)) : (p : Nat) / n < n ∧ (p : Nat) % n < n := by
  have h := p.2
  have hn : 0 < n := by
    rcases Nat.eq_zero_or_pos n with h0 | h0
    · subst h0; omega
    · exact h0
  exact ⟨Nat.div_lt_of_lt_mul h, Nat.mod_lt _ hn⟩

/-- **C89 (columns)**: the column taken from the block of shells is that of the pair. -/
theorem column_eq {sh : List Shell} (hs : ∀ s ∈ sh, 0 < s.nctr) (eri : Eri) (nu : Fin (nao sh * nao sh)) :
    column sh eri nu = some fun p => pairs (nao sh) eri p nu := by
  obtain ⟨h1, h2⟩ := pair_lt nu
  obtain ⟨a, ea, la, ua⟩ := shellOf_spec hs h1
  obtain ⟨b, eb, lb, ub⟩ := shellOf_spec hs h2
  simp only [column, ea, eb]
  rw [if_pos ⟨by omega, by omega⟩, Nat.add_sub_cancel' la, Nat.add_sub_cancel' lb]
  rfl

theorem diagFrom_get (n : Nat) (eri : Eri) (sh : List Shell) (off a b : Nat) (hb : b < n) (ha : a < nao sh) :
    (diagFrom n eri off sh).getD (a * n + b) 0 = eri (off + a) b (off + a) b := by
  induction sh generalizing off a with
  | nil => simp [nao] at ha
  | cons s ss ih =>
    have hn : nao (s :: ss) = s.size + nao ss := by simp [nao]
    have hlen : ∀ m, ((List.range m).flatMap fun a => (List.range n).map fun b => eri (off + a) b (off + a) b).length = m * n := by
      intro m
      induction m with
      | zero => simp
      | succ m ihm => rw [List.range_succ, List.flatMap_append, List.length_append, ihm]; simp; ring
    have hget : ∀ m a, a < m → ((List.range m).flatMap fun a => (List.range n).map fun b => eri (off + a) b (off + a) b).getD
        (a * n + b) 0 = eri (off + a) b (off + a) b := by
      intro m
      induction m with
      | zero => intro a h; omega
      | succ m ihm =>
        intro a h
        rw [List.range_succ, List.flatMap_append]
        rcases lt_or_eq_of_le (Nat.lt_succ_iff.1 h) with h' | h'
        · rw [List.getD_append _ _ _ _ (by rw [hlen]; nlinarith), ihm a h']
        · subst h'
          rw [List.getD_append_right _ _ _ _ (by rw [hlen]; omega), hlen]
          simp [hb]
    rw [diagFrom]
    rcases lt_or_ge a s.size with h | h
    · rw [List.getD_append _ _ _ _ (by rw [hlen]; nlinarith), hget _ _ h]
    · obtain ⟨d, rfl⟩ := Nat.exists_eq_add_of_le h
      have e : (s.size + d) * n + b = s.size * n + (d * n + b) := by ring
      rw [List.getD_append_right _ _ _ _ (by rw [hlen, e]; omega), hlen, e, Nat.add_sub_cancel_left, ih (off + s.size) d (by omega)]
      congr 1 <;> omega

/-- **C89 (diagonal)** -/
theorem diag_eq (sh : List Shell) (eri : Eri) (p : Fin (nao sh * nao sh)) : diag sh eri p = pairs (nao sh) eri p p := by
  obtain ⟨h1, h2⟩ := pair_lt p
  have h := diagFrom_get (nao sh) eri sh 0 _ _ h2 h1
  rw [Nat.div_add_mod', Nat.zero_add] at h
  exact h

/-! ## In memory -/

variable {sh : List Shell} {eri : Eri} {amax : (Fin (nao sh * nao sh) → ℝ) → Fin (nao sh * nao sh)} {tol : ℝ}

/-- The integrals as a complex matrix. -/
def cpairs (n : Nat) (eri : Eri) : Matrix (Fin (n * n)) (Fin (n * n)) ℂ := (pairs n eri).map Complex.ofReal

/-- Real vectors as complex ones. -/
def cvec {n : Nat} (v : Fin n → ℝ) : Fin n → ℂ := fun p => (v p : ℂ)

/-- A state as one of `modified_cholesky`. -/
def cstate {n : Nat} (s : State n) : Chol.State n :=
  { vecs := s.vecs.map cvec, next := cvec s.next, approx := cvec s.approx, dmax := s.dmax }

open scoped ComplexOrder in
theorem start_eq (hs : ∀ s ∈ sh, 0 < s.nctr) (hM : (cpairs (nao sh) eri).PosSemidef) :
    (start sh eri amax).map cstate = some (Chol.start amax (cpairs (nao sh) eri)) := by
  have hd : ∀ p, ‖cpairs (nao sh) eri p p‖ = diag sh eri p := by
    intro p
    rw [(Chol.norm_diag hM p).1, diag_eq]
    rfl
  rw [start, column_eq hs, Chol.start]
  simp only [Option.map_some, hd]
  congr 1
  simp only [cstate]
  congr 1
  · funext p
    rw [cvec]
    show ((pairs (nao sh) eri p _ / Real.sqrt (diag sh eri _) : ℝ) : ℂ) = _
    rw [Complex.ofReal_div, diag_eq]
    rfl

theorem step_eq (hs : ∀ s ∈ sh, 0 < s.nctr) (s : State (nao sh * nao sh)) :
    (step sh eri amax s).map cstate = some (Chol.step amax (cpairs (nao sh) eri) (cstate s)) := by
  rw [step, column_eq hs, Chol.step]
  have happ : ∀ p, (cstate s).approx p + (cstate s).next p * star ((cstate s).next p) =
      ((s.approx p + s.next p * s.next p : ℝ) : ℂ) := by
    intro p
    simp [cstate, cvec]
  have hdel : ∀ p, ‖cpairs (nao sh) eri p p - ((cstate s).approx p + (cstate s).next p * star ((cstate s).next p))‖ =
      |diag sh eri p - (s.approx p + s.next p * s.next p)| := by
    intro p
    rw [happ, diag_eq, ← Real.norm_eq_abs, ← Complex.norm_real, Complex.ofReal_sub]
    rfl
  simp only [Option.map_some, hdel]
  congr 1
  simp only [cstate]
  congr 1
  · simp
  · funext p
    rw [cvec, Complex.ofReal_div, Complex.ofReal_sub]
    congr 1
    congr 1
    generalize (amax fun p => |diag sh eri p - (s.approx p + s.next p * s.next p)|) = nu
    have : ∀ l : List (Fin (nao sh * nao sh) → ℝ), ((l.map fun v => v nu * v p).sum : ℝ) =
        ((l.map cvec).map fun v => star (v nu) * v p).sum := by
      intro l
      induction l with
      | nil => simp
      | cons v l ih => simp only [List.map_cons, List.sum_cons, Complex.ofReal_add, ih]; simp [cvec]
    rw [this]
    simp
  · funext p
    exact (happ p).symm

theorem loop_eq (hs : ∀ s ∈ sh, 0 < s.nctr) (k : Nat) (s : State (nao sh * nao sh)) (h0 : 0 ≤ s.dmax) :
    (loop sh eri amax tol k s).map (List.map cvec) = Chol.loop amax (cpairs (nao sh) eri) tol k (cstate s) := by
  induction k generalizing s with
  | zero =>
    rw [Chol.loop_zero, loop]
    show _ = if s.dmax > tol then _ else _
    rw [abs_of_nonneg h0]
    split_ifs <;> simp [cstate]
  | succ k ih =>
    rw [Chol.loop_succ, loop]
    show _ = if s.dmax > tol then _ else _
    rw [abs_of_nonneg h0]
    split_ifs
    · have h := step_eq (amax := amax) (eri := eri) hs s
      obtain ⟨s', e1, e2⟩ := Option.map_eq_some_iff.1 h
      rw [e1, Option.bind_some, ih s' ?_, e2]
      rw [step, column_eq hs] at e1
      simp only [Option.map_some, Option.some.injEq] at e1
      rw [← e1]
      exact abs_nonneg _
    · simp [cstate]

open scoped ComplexOrder in
/-- The decomposition is the one of C26 for the matrix over pairs of orbitals. -/
theorem chunked_eq (hs : ∀ s ∈ sh, 0 < s.nctr) (hM : (cpairs (nao sh) eri).PosSemidef) (nmax : Nat) :
    (chunked sh eri amax tol nmax).map (List.map cvec) = Chol.modifiedCholesky amax (cpairs (nao sh) eri) tol nmax := by
  cases nmax with
  | zero => rfl
  | succ k =>
    rw [chunked, Chol.modifiedCholesky]
    obtain ⟨s, e1, e2⟩ := Option.map_eq_some_iff.1 (start_eq (amax := amax) hs hM)
    rw [e1, Option.bind_some, loop_eq hs _ _ ?_, e2]
    rw [start, column_eq hs] at e1
    simp only [Option.map_some, Option.some.injEq] at e1
    rw [← e1]
    show 0 ≤ diag sh eri _
    rw [diag_eq]
    exact (Chol.diag_nonneg hM _).1

open scoped ComplexOrder in
/-- **C89 (error)**: the vectors reproduce every integral up to the threshold, and there are fewer than the buffer has rows. -/
theorem chunked_error (ham : ∀ (x : Fin (nao sh * nao sh) → ℝ) i, x i ≤ x (amax x)) (hs : ∀ s ∈ sh, 0 < s.nctr)
    (hM : (cpairs (nao sh) eri).PosSemidef) (ht : 0 ≤ tol) {nmax : Nat} {vs : List (Fin (nao sh * nao sh) → ℝ)}
    (h : chunked sh eri amax tol nmax = some vs) :
    (∀ p q : Fin (nao sh * nao sh), |eri (p / nao sh) (p % nao sh) (q / nao sh) (q % nao sh) -
      (vs.map fun v => v p * v q).sum| ≤ tol) ∧ vs.length ≤ nao sh * nao sh ∧ vs.length < nmax := by
  have e := chunked_eq (amax := amax) (tol := tol) hs hM nmax
  rw [h, Option.map_some] at e
  obtain ⟨h1, h2, h3⟩ := Chol.modifiedCholesky_spec amax ham _ hM tol ht nmax _ e.symm
  rw [List.length_map] at h2 h3
  refine ⟨fun p q => ?_, h2, h3⟩
  have := h1 p q
  rw [List.map_map] at this
  have e2 : (vs.map ((fun v => v p * star (v q)) ∘ cvec)).sum = (((vs.map fun v => v p * v q).sum : ℝ) : ℂ) := by
    clear this e h h1 h2 h3
    induction vs with
    | nil => simp
    | cons v l ih => rw [List.map_cons, List.sum_cons, ih, List.map_cons, List.sum_cons]; simp [cvec]
  rw [e2] at this
  rw [← Real.norm_eq_abs, ← Complex.norm_real, Complex.ofReal_sub]
  exact this

open scoped ComplexOrder in
/-- **C89 (termination)**: the decomposition ends without an error if the buffer has more rows than there are pairs; in
general exactly if it has more rows than vectors are needed. -/
theorem chunked_exists (ham : ∀ (x : Fin (nao sh * nao sh) → ℝ) i, x i ≤ x (amax x)) (hs : ∀ s ∈ sh, 0 < s.nctr)
    (hM : (cpairs (nao sh) eri).PosSemidef) (ht : 0 ≤ tol) :
    ∃ vs : List (Fin (nao sh * nao sh) → ℝ), vs.length ≤ nao sh * nao sh ∧
      ∀ nmax, chunked sh eri amax tol nmax = if vs.length < nmax then some vs else none := by
  obtain ⟨ws, hw⟩ := Chol.modifiedCholesky_exists amax ham _ hM tol ht (nao sh * nao sh + 1) (Nat.lt_succ_self _)
  have e := chunked_eq (amax := amax) (tol := tol) hs hM (nao sh * nao sh + 1)
  rw [hw] at e
  obtain ⟨vs, e1, e2⟩ := Option.map_eq_some_iff.1 e
  refine ⟨vs, (chunked_error ham hs hM ht e1).2.1, fun nmax => ?_⟩
  have e3 := chunked_eq (amax := amax) (tol := tol) hs hM nmax
  rw [Chol.modifiedCholesky_limit amax _ tol _ nmax ws hw, ← e2, List.length_map] at e3
  split_ifs at e3 ⊢ with hl
  · obtain ⟨us, e4, e5⟩ := Option.map_eq_some_iff.1 e3
    rw [e4]
    congr 1
    refine List.map_injective_iff.2 (fun a b hab => ?_) e5
    funext p
    exact Complex.ofReal_injective (congrFun hab p)
  · simpa using e3

end Verif.AoChol
