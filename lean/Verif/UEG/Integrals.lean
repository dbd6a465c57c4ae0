import Verif.UEG.Props
import Mathlib.Algebra.Algebra.Basic
import Mathlib.Algebra.BigOperators.Group.Finset.Basic
import Mathlib.LinearAlgebra.Matrix.Symmetric
import Mathlib.LinearAlgebra.Matrix.Hermitian

/-! # Uniform electron gas: Coulomb integrals, Hamiltonian, local energy and Fock matrix (C73 - C75) -/

namespace Verif.UEG

open Finset

/-! ## Momentum transfers -/

theorem sorted_head_zero (I : Inp) (hk : 0 < I.kfac) (ht : I.twist = 0) (e : ℝ) (a : Vec) (l : List Vec)
    (h : sorted I e = a :: l) : a = 0 := by
  have hp := sorted_pairwise I e
  have h0 : (0 : Vec) ∈ sorted I e := by
    rw [mem_sorted, nsq_zero]
    have : a ∈ sorted I e := by rw [h]; exact List.mem_cons_self
    rw [mem_sorted] at this
    have h1 : (0 : ℝ) ≤ nsq a := by exact_mod_cast nsq_nonneg a
    simp only [Int.cast_zero, mul_zero]
    linarith
  rw [h] at hp h0
  rcases List.mem_cons.mp h0 with h1 | h1
  · exact h1.symm
  · have h2 := (List.pairwise_cons.mp hp).1 0 h1
    rw [energy_untwisted I ht, energy_untwisted I ht, nsq_zero] at h2
    have hk2 : 0 < I.kfac ^ 2 * (1 / 2) := by positivity
    have h3 : (nsq a : ℝ) ≤ 0 := by
      by_contra hc
      push Not at hc
      have := mul_pos hk2 hc
      simp only [Int.cast_zero, mul_zero] at h2
      linarith
    exact nsq_eq_zero (le_antisymm (by exact_mod_cast h3) (nsq_nonneg a))

theorem nodup_qvecs (I : Inp) : (qvecs I).Nodup := (nodup_sorted I _).tail

/-- Without twist the momentum transfers are all non-zero vectors within four times the cutoff. -/
theorem mem_qvecs (I : Inp) (hk : 0 < I.kfac) (ht : I.twist = 0) (q : Vec) :
    q ∈ qvecs I ↔ q ≠ 0 ∧ (1 / 2 : ℝ) * (nsq q : ℝ) ≤ 4 * I.ecut := by
  rw [← mem_sorted I, qvecs]
  cases h : sorted I (4 * I.ecut) with
  | nil => simp
  | cons a l =>
    have ha := sorted_head_zero I hk ht _ _ _ h
    subst ha
    have hn := nodup_sorted I (4 * I.ecut)
    rw [h, List.nodup_cons] at hn
    rw [List.tail_cons, List.mem_cons]
    constructor
    · intro hq
      exact ⟨fun h0 => hn.1 (h0 ▸ hq), Or.inr hq⟩
    · rintro ⟨h0, h1 | h1⟩
      · exact absurd h1 h0
      · exact h1

/-- **C73 (finding)**: the zero vector is kept among the momentum transfers as soon as a twist gives
some other vector a lower energy; the Coulomb kernel then divides by zero. -/
theorem zero_mem_qvecs (I : Inp) (q : Vec) (he : (1 / 2 : ℝ) * (nsq q : ℝ) ≤ 4 * I.ecut)
    (hlt : energy I q < energy I 0) : (0 : Vec) ∈ qvecs I := by
  have hq : q ∈ sorted I (4 * I.ecut) := (mem_sorted _ _ _).mpr he
  have h0 : (0 : Vec) ∈ sorted I (4 * I.ecut) := by
    rw [mem_sorted, nsq_zero]
    have h1 : (0 : ℝ) ≤ nsq q := by exact_mod_cast nsq_nonneg q
    simp only [Int.cast_zero, mul_zero]
    linarith
  have hp := sorted_pairwise I (4 * I.ecut)
  rw [qvecs]
  cases h : sorted I (4 * I.ecut) with
  | nil => rw [h] at h0; cases h0
  | cons a l =>
    rw [h] at h0 hq hp
    rw [List.tail_cons]
    rcases List.mem_cons.mp h0 with h1 | h1
    · subst h1
      rcases List.mem_cons.mp hq with h2 | h2
      · subst h2; exact absurd hlt (lt_irrefl _)
      · exact absurd ((List.pairwise_cons.mp hp).1 q h2) (not_le.mpr hlt)
    · exact h1

example : (0 : Vec) ∈ qvecs ⟨1 / 2, 1, 1, (3 / 5, 0, 0)⟩ := by
  refine zero_mem_qvecs _ (-1, 0, 0) ?_ ?_
  · norm_num [nsq]
  · norm_num [energy]

theorem bv_mem (I : Inp) (i : Fin (nb I)) : bv I i ∈ basis I := List.getElem_mem _

theorem bv_inj (I : Inp) {i j : Fin (nb I)} : bv I i = bv I j ↔ i = j := by
  unfold bv
  rw [Fin.getElem_fin, Fin.getElem_fin, (nodup_basis I).getElem_inj_iff]
  exact Fin.ext_iff.symm

theorem lookup_bv (I : Inp) (hs : SetupOk I) (v : Vec) (a : Fin (nb I)) :
    lookup I v = some a.val ↔ v = bv I a := by
  rw [(lookup_exact I hs v).1 a.val, List.getElem?_eq_getElem a.isLt]
  unfold bv
  rw [Fin.getElem_fin]
  constructor
  · intro h; exact (Option.some.inj h).symm
  · intro h; rw [h]

theorem nsq_sub_le (a b : Vec) : nsq (a - b) ≤ 2 * (nsq a + nsq b) := by
  unfold nsq
  simp only [Prod.fst_sub, Prod.snd_sub]
  nlinarith [sq_nonneg (a.1 + b.1), sq_nonneg (a.2.1 + b.2.1), sq_nonneg (a.2.2 + b.2.2)]

/-- The difference of two plane waves is a momentum transfer unless it vanishes. -/
theorem sub_mem_qvecs (I : Inp) (hk : 0 < I.kfac) (ht : I.twist = 0) (i j : Fin (nb I)) :
    bv I i - bv I j ∈ qvecs I ↔ i ≠ j := by
  rw [mem_qvecs I hk ht, ne_eq, sub_eq_zero, bv_inj]
  refine ⟨fun h => h.1, fun h => ⟨h, ?_⟩⟩
  have h1 := (mem_basis I _).mp (bv_mem I i)
  have h2 := (mem_basis I _).mp (bv_mem I j)
  have h3 : (nsq (bv I i - bv I j) : ℝ) ≤ 2 * (nsq (bv I i) + nsq (bv I j)) := by
    exact_mod_cast nsq_sub_le _ _
  linarith

open Classical in
theorem list_sum_single {M : Type} [AddCommMonoid M] (l : List Vec) (hl : l.Nodup) (f : Vec → M) (q : Vec)
    (hf : ∀ k, k ≠ q → f k = 0) : (l.map f).sum = if q ∈ l then f q else 0 := by
  induction l with
  | nil => simp
  | cons a l ih =>
    rw [List.nodup_cons] at hl
    rw [List.map_cons, List.sum_cons, ih hl.2]
    by_cases ha : a = q
    · subst ha
      rw [if_neg hl.1, if_pos List.mem_cons_self, add_zero]
    · rw [hf a ha, zero_add]
      have : (q ∈ a :: l) ↔ q ∈ l := by
        rw [List.mem_cons]
        constructor
        · rintro (h | h)
          · exact absurd h.symm ha
          · exact h
        · exact Or.inr
      simp only [this]

/-- Sum over the momentum transfers of a function carried by pairs of plane waves with this
difference. -/
theorem qsum (I : Inp) (hk : 0 < I.kfac) (ht : I.twist = 0) {M : Type} [AddCommMonoid M]
    (p r q u : Fin (nb I)) (f : Vec → M) :
    ((qvecs I).map fun k => if bv I p + k = bv I r ∧ bv I q - k = bv I u then f k else 0).sum =
      if r ≠ p ∧ bv I r - bv I p = bv I q - bv I u then f (bv I r - bv I p) else 0 := by
  classical
  rw [list_sum_single (qvecs I) (nodup_qvecs I) _ (bv I r - bv I p)]
  · simp only [sub_mem_qvecs I hk ht]
    by_cases h1 : r = p
    · simp [h1]
    · rw [if_pos h1]
      have : (bv I p + (bv I r - bv I p) = bv I r ∧ bv I q - (bv I r - bv I p) = bv I u) ↔
          bv I r - bv I p = bv I q - bv I u := by
        constructor
        · rintro ⟨_, h2⟩; rw [← h2]; abel
        · intro h2; exact ⟨by abel, by rw [h2]; abel⟩
      simp only [this, ne_eq, h1, not_false_eq_true, true_and]
  · intro k hne
    refine if_neg ?_
    rintro ⟨h1, _⟩
    exact hne (by rw [← h1]; abel)

/-! ## Integrals -/

/-- The Coulomb integral in closed form. -/
theorem hijkl_eq (I : Inp) (i j k l : Fin (nb I)) :
    hijkl I i j k l = if k ≠ i ∧ bv I k - bv I i = bv I j - bv I l then
      1 / I.vol * vq I (bv I k - bv I i) else 0 := by
  unfold hijkl
  dsimp only
  refine if_congr ?_ rfl rfl
  refine and_congr ?_ ?_
  · constructor
    · intro h h0; rw [h0, sub_self, nsq_zero] at h; exact lt_irrefl _ h
    · intro h
      refine lt_of_le_of_ne (nsq_nonneg _) fun h0 => h ?_
      exact (bv_inj I).mp (sub_eq_zero.mp (nsq_eq_zero h0.symm))
  · constructor
    · intro h; exact sub_eq_zero.mp (nsq_eq_zero h)
    · intro h; rw [h, sub_self, nsq_zero]

theorem vq_neg (I : Inp) (q : Vec) : vq I (-q) = vq I q := by rw [vq, vq, nsq_neg]

theorem vq_sub (I : Inp) (a b : Vec) : vq I (a - b) = vq I (b - a) := by
  rw [← vq_neg, neg_sub]

/-- The integrals are unchanged if both pairs are reversed. -/
theorem hijkl_swap (I : Inp) (i j k l : Fin (nb I)) : hijkl I k l i j = hijkl I i j k l := by
  rw [hijkl_eq, hijkl_eq, vq_sub]
  refine if_congr ?_ rfl rfl
  refine and_congr ne_comm ?_
  rw [← neg_sub (bv I k), ← neg_sub (bv I j), neg_inj]

theorem rho_mul_rho (I : Inp) (hs : SetupOk I) (hv : 0 < I.vol) (k : Vec) (p r q s : Fin (nb I)) :
    rho I k p r * rho I k s q = if bv I p + -k = bv I r ∧ bv I q - -k = bv I s then
      (1 / 4) * (1 / I.vol * vq I k) else 0 := by
  unfold rho
  rw [Matrix.of_apply, Matrix.of_apply]
  simp only [lookup_bv I hs]
  have h1 : (bv I r + k = bv I p) ↔ (bv I p + -k = bv I r) := by
    constructor
    · intro h; rw [← h]; abel
    · intro h; rw [← h]; abel
  have h2 : (bv I q + k = bv I s) ↔ (bv I q - -k = bv I s) := by rw [sub_neg_eq_add]
  rw [if_congr h1 rfl rfl, if_congr h2 rfl rfl]
  by_cases ha : bv I p + -k = bv I r
  · by_cases hb : bv I q - -k = bv I s
    · rw [if_pos ha, if_pos hb, if_pos ⟨ha, hb⟩, Real.mul_self_sqrt]
      · unfold vq; field_simp
      · have : (0 : ℝ) ≤ nsq k := by exact_mod_cast nsq_nonneg k
        have := Real.pi_pos
        positivity
    · rw [if_neg hb, mul_zero, if_neg]
      exact fun h => hb h.2
  · rw [if_neg ha, zero_mul, if_neg]
    exact fun h => ha h.1

/-- **C73**: the density operators reproduce the Coulomb integrals `(pr|qs) = <pq|rs>`. -/
theorem eri4_eq (I : Inp) (hk : 0 < I.kfac) (hv : 0 < I.vol) (ht : I.twist = 0)
    (p r q s : Fin (nb I)) : eri4 I p r q s = hijkl I p q r s := by
  have hs := setupOk_untwisted I hk ht
  unfold eri4
  simp only [rho_mul_rho I hs hv]
  have hf : (fun k => if bv I p + -k = bv I r ∧ bv I q - -k = bv I s then
      (1 / 4) * (1 / I.vol * vq I k) else 0) =
      fun k => if bv I r + k = bv I p ∧ bv I s - k = bv I q then
        (1 / 4) * (1 / I.vol * vq I k) else (0 : ℝ) := by
    funext k
    refine if_congr (and_congr ?_ ?_) rfl rfl
    · constructor
      · intro h; rw [← h]; abel
      · intro h; rw [← h]; abel
    · constructor
      · intro h; rw [← h]; abel
      · intro h; rw [← h]; abel
  rw [hf, qsum I hk ht r p s q, hijkl_eq, vq_sub]
  have hiff : (p ≠ r ∧ bv I p - bv I r = bv I s - bv I q) ↔ (r ≠ p ∧ bv I r - bv I p = bv I q - bv I s) := by
    refine and_congr ne_comm ?_
    rw [← neg_sub (bv I r), ← neg_sub (bv I q), neg_inj]
  rw [if_congr hiff rfl rfl]
  split_ifs
  · ring
  · ring

/-- The Coulomb repulsion of the modified one-body term is minus half the exchange-like contraction of
the integrals. -/
theorem modOneBody_eq (I : Inp) (i : Fin (nb I)) :
    modOneBody I i = energy I (bv I i) - (1 / 2) * ∑ r, hijkl I i r r i := by
  unfold modOneBody
  rw [mul_sum]
  congr 1
  refine sum_congr rfl fun r _ => ?_
  rw [hijkl_eq]
  by_cases h : i = r
  · subst h; simp
  · rw [if_pos h, if_pos ⟨Ne.symm h, rfl⟩, vq_sub]; rw [one_div, mul_inv]; ring

theorem rhoH_eq (I : Inp) (q : Vec) (a b : Fin (nb I)) : rhoH I q a b = rho I q b a := rfl

/-! ## The Hamiltonian -/

/-- The one-body operator of a matrix: `sum_ab M_ab E_ab`. -/
noncomputable def oneBody {A : Type} [Ring A] [Algebra ℂ A] {n : Nat} (E : Fin n → Fin n → A)
    (M : Matrix (Fin n) (Fin n) ℂ) : A := ∑ a, ∑ b, M a b • E a b

theorem list_sum_smul {A : Type} [Ring A] [Algebra ℂ A] (l : List Vec) (f : Vec → ℂ) (x : A) :
    (l.map fun k => f k • x).sum = (l.map f).sum • x := by
  induction l with
  | nil => simp
  | cons a l ih => simp only [List.map_cons, List.sum_cons, add_smul, ih]

theorem list_sum_finset {A ι : Type} [AddCommMonoid A] (s : Finset ι) (l : List Vec) (f : Vec → ι → A) :
    (l.map fun k => ∑ i ∈ s, f k i).sum = ∑ i ∈ s, (l.map fun k => f k i).sum := by
  induction l with
  | nil => simp
  | cons a l ih => simp only [List.map_cons, List.sum_cons, sum_add_distrib, ih]

theorem list_sum_add {A : Type} [AddCommMonoid A] (l : List Vec) (f g : Vec → A) :
    (l.map fun k => f k + g k).sum = (l.map f).sum + (l.map g).sum := by
  induction l with
  | nil => simp
  | cons a l ih => simp only [List.map_cons, List.sum_cons, ih]; abel

theorem list_sum_ofReal (l : List Vec) (f : Vec → ℝ) :
    (((l.map f).sum : ℝ) : ℂ) = (l.map fun k => (f k : ℂ)).sum := by
  induction l with
  | nil => simp
  | cons a l ih => simp only [List.map_cons, List.sum_cons, Complex.ofReal_add, ih]

/-- Product of two one-body operators, summed over the momentum transfers. -/
theorem sum_oneBody_mul {A : Type} [Ring A] [Algebra ℂ A] {n : Nat} (E : Fin n → Fin n → A) (l : List Vec)
    (X Y : Vec → Matrix (Fin n) (Fin n) ℂ) :
    (l.map fun k => oneBody E (X k) * oneBody E (Y k)).sum =
      ∑ p, ∑ r, ∑ q, ∑ s, (l.map fun k => X k p r * Y k q s).sum • (E p r * E q s) := by
  have h : ∀ k, oneBody E (X k) * oneBody E (Y k) =
      ∑ p, ∑ r, ∑ q, ∑ s, (X k p r * Y k q s) • (E p r * E q s) := by
    intro k
    unfold oneBody
    rw [sum_mul]
    refine sum_congr rfl fun p _ => ?_
    rw [sum_mul]
    refine sum_congr rfl fun r _ => ?_
    rw [mul_sum]
    refine sum_congr rfl fun q _ => ?_
    rw [mul_sum]
    refine sum_congr rfl fun s _ => ?_
    rw [smul_mul_smul_comm]
  simp only [h, list_sum_finset, list_sum_smul]

/-- **C73 (Hamiltonian)**: for any operators `E_pr` (for instance the sum over both spins of
`c†_p c_r`), the normal-ordered Hamiltonian with the Coulomb integrals equals the modified one-body term
minus half the sum of the squares of the operators `iA_q` and `iB_q` used in the propagator. -/
theorem hamiltonian_eq (I : Inp) (hk : 0 < I.kfac) (hv : 0 < I.vol) (ht : I.twist = 0)
    {A : Type} [Ring A] [Algebra ℂ A] (E : Fin (nb I) → Fin (nb I) → A) :
    ∑ i, (energy I (bv I i) : ℂ) • E i i + (1 / 2 : ℂ) • ∑ p, ∑ r, ∑ q, ∑ s,
        (hijkl I p q r s : ℂ) • (E p r * E q s - if r = q then E p s else 0) =
      ∑ i, (modOneBody I i : ℂ) • E i i - (1 / 2 : ℂ) •
        ((qvecs I).map fun q => oneBody E (iA I q) ^ 2 + oneBody E (iB I q) ^ 2).sum := by
  have hs := setupOk_untwisted I hk ht
  -- squares
  have hX : ∀ q, oneBody E (iA I q) ^ 2 + oneBody E (iB I q) ^ 2 = (-2 : ℂ) •
      (oneBody E ((rho I q).map (fun x : ℝ => (x : ℂ))) * oneBody E ((rhoH I q).map (fun x : ℝ => (x : ℂ))) +
        oneBody E ((rhoH I q).map (fun x : ℝ => (x : ℂ))) * oneBody E ((rho I q).map (fun x : ℝ => (x : ℂ)))) := by
    intro q
    have hA : oneBody E (iA I q) = Complex.I • (oneBody E ((rho I q).map (fun x : ℝ => (x : ℂ))) +
        oneBody E ((rhoH I q).map (fun x : ℝ => (x : ℂ)))) := by
      unfold oneBody
      rw [← sum_add_distrib, smul_sum]
      refine sum_congr rfl fun a _ => ?_
      rw [← sum_add_distrib, smul_sum]
      refine sum_congr rfl fun b _ => ?_
      rw [← add_smul, smul_smul]
      rfl
    have hB : oneBody E (iB I q) = (-1 : ℂ) • (oneBody E ((rho I q).map (fun x : ℝ => (x : ℂ))) -
        oneBody E ((rhoH I q).map (fun x : ℝ => (x : ℂ)))) := by
      unfold oneBody
      rw [← sum_sub_distrib, smul_sum]
      refine sum_congr rfl fun a _ => ?_
      rw [← sum_sub_distrib, smul_sum]
      refine sum_congr rfl fun b _ => ?_
      rw [← sub_smul, smul_smul, neg_one_mul]
      rfl
    rw [hA, hB]
    generalize oneBody E ((rho I q).map (fun x : ℝ => (x : ℂ))) = X
    generalize oneBody E ((rhoH I q).map (fun x : ℝ => (x : ℂ))) = Y
    rw [smul_pow, smul_pow, Complex.I_sq]
    norm_num
    rw [pow_two, pow_two, two_smul ℂ, two_smul ℂ]
    noncomm_ring
  have hsum : ((qvecs I).map fun q => oneBody E (iA I q) ^ 2 + oneBody E (iB I q) ^ 2).sum =
      -∑ p, ∑ r, ∑ q, ∑ s, (hijkl I p q r s : ℂ) • (E p r * E q s) := by
    have h1 : ((qvecs I).map fun q => oneBody E (iA I q) ^ 2 + oneBody E (iB I q) ^ 2).sum =
        (-2 : ℂ) • (((qvecs I).map fun q => oneBody E ((rho I q).map (fun x : ℝ => (x : ℂ))) *
            oneBody E ((rhoH I q).map (fun x : ℝ => (x : ℂ)))).sum +
          ((qvecs I).map fun q => oneBody E ((rhoH I q).map (fun x : ℝ => (x : ℂ))) *
            oneBody E ((rho I q).map (fun x : ℝ => (x : ℂ)))).sum) := by
      simp only [hX]
      rw [← list_sum_add]
      induction (qvecs I) with
      | nil => simp
      | cons a l ih => rw [List.map_cons, List.sum_cons, ih, List.map_cons, List.sum_cons]
                       exact (smul_add (-2 : ℂ) _ _).symm
    rw [h1, sum_oneBody_mul, sum_oneBody_mul, ← sum_add_distrib, smul_sum, ← sum_neg_distrib]
    refine sum_congr rfl fun p _ => ?_
    rw [← sum_add_distrib, smul_sum, ← sum_neg_distrib]
    refine sum_congr rfl fun r _ => ?_
    rw [← sum_add_distrib, smul_sum, ← sum_neg_distrib]
    refine sum_congr rfl fun q _ => ?_
    rw [← sum_add_distrib, smul_sum, ← sum_neg_distrib]
    refine sum_congr rfl fun s _ => ?_
    rw [← add_smul, smul_smul, ← neg_smul]
    congr 1
    have e1 := eri4_eq I hk hv ht p r q s
    have e2 := eri4_eq I hk hv ht r p s q
    rw [hijkl_swap] at e2
    unfold eri4 at e1 e2
    have c1 : ((qvecs I).map fun k => (rho I k).map (fun x : ℝ => (x : ℂ)) p r *
        (rhoH I k).map (fun x : ℝ => (x : ℂ)) q s).sum = ((1 / 4 * hijkl I p q r s : ℝ) : ℂ) := by
      rw [← e1, ← mul_assoc, show (1 / 4 * 4 : ℝ) = 1 by norm_num, one_mul, list_sum_ofReal]
      refine congrArg List.sum (List.map_congr_left fun k _ => ?_)
      rw [Matrix.map_apply, Matrix.map_apply, rhoH_eq, Complex.ofReal_mul]
    have c2 : ((qvecs I).map fun k => (rhoH I k).map (fun x : ℝ => (x : ℂ)) p r *
        (rho I k).map (fun x : ℝ => (x : ℂ)) q s).sum = ((1 / 4 * hijkl I p q r s : ℝ) : ℂ) := by
      rw [← e2, ← mul_assoc, show (1 / 4 * 4 : ℝ) = 1 by norm_num, one_mul, list_sum_ofReal]
      refine congrArg List.sum (List.map_congr_left fun k _ => ?_)
      rw [Matrix.map_apply, Matrix.map_apply, rhoH_eq, Complex.ofReal_mul]
    rw [c1, c2]
    push_cast
    ring
  have hone : ∑ p, ∑ r, ∑ q, ∑ s, (hijkl I p q r s : ℂ) • (if r = q then E p s else 0) =
      ∑ p, ((∑ r, hijkl I p r r p : ℝ) : ℂ) • E p p := by
    refine sum_congr rfl fun p _ => ?_
    rw [Complex.ofReal_sum, sum_smul]
    refine sum_congr rfl fun r _ => ?_
    rw [sum_eq_single r]
    · rw [sum_eq_single p]
      · rw [if_pos rfl]
      · intro s _ hsp
        rw [if_pos rfl, hijkl_eq, if_neg, Complex.ofReal_zero, zero_smul]
        rintro ⟨_, h2⟩
        exact hsp ((bv_inj I).mp (sub_right_injective h2).symm)
      · intro h; exact absurd (mem_univ _) h
    · intro q _ hq
      refine sum_eq_zero fun s _ => ?_
      rw [if_neg (Ne.symm hq), smul_zero]
    · intro h; exact absurd (mem_univ _) h
  rw [hsum]
  simp only [smul_sub, sum_sub_distrib, hone, modOneBody_eq]
  simp only [Complex.ofReal_sub, sub_smul, sum_sub_distrib, smul_neg]
  have : ∑ x, ((1 / 2 * ∑ r, hijkl I x r r x : ℝ) : ℂ) • E x x =
      (1 / 2 : ℂ) • ∑ p, ((∑ r, hijkl I p r r p : ℝ) : ℂ) • E p p := by
    rw [smul_sum]
    refine sum_congr rfl fun p _ => ?_
    rw [smul_smul]
    push_cast
    rfl
  rw [this]
  abel

/-! ## Local energy -/

theorem ent_fin {n : Nat} (G : Matrix (Fin n) (Fin n) ℂ) (i j : Fin n) : ent G i.val j.val = G i j := by
  unfold ent
  rw [dif_pos ⟨i.isLt, j.isLt⟩]

theorem sum_filterMap {α M : Type} [AddCommMonoid M] (l : List α) (g : α → Option M) :
    (l.filterMap g).sum = (l.map fun x => (g x).getD 0).sum := by
  induction l with
  | nil => rfl
  | cons a l ih =>
    rw [List.map_cons, List.sum_cons, ← ih]
    cases h : g a with
    | none => rw [List.filterMap_cons_none h]; simp
    | some b => rw [List.filterMap_cons_some h, List.sum_cons]; rfl

theorem sum_zipIdx_take {M : Type} [AddCommMonoid M] (l : List Vec) (nl : Nat) (f : Vec → Nat → M) :
    ((l.take nl).zipIdx.map fun x => f x.1 x.2).sum =
      ∑ i : Fin l.length, if i.val < nl then f l[i] i.val else 0 := by
  have gen : ∀ (l : List Vec) (s : Nat), ((l.take nl).zipIdx s |>.map fun x => f x.1 x.2).sum =
      ((l.zipIdx s).map fun x => if x.2 < nl + s then f x.1 x.2 else 0).sum := by
    clear l
    induction nl with
    | zero =>
      intro l s
      rw [List.take_zero]
      symm
      refine List.sum_eq_zero fun y hy => ?_
      obtain ⟨x, hx, rfl⟩ := List.mem_map.mp hy
      have := List.le_snd_of_mem_zipIdx hx
      rw [if_neg (by omega)]
    | succ nl ih =>
      intro l s
      cases l with
      | nil => simp
      | cons a l =>
        simp only [List.take_succ_cons, List.zipIdx_cons, List.map_cons, List.sum_cons]
        rw [ih, if_pos (by omega)]
        congr 2
        refine List.map_congr_left fun x _ => ?_
        refine if_congr (by omega) rfl rfl
  have h := gen l 0
  rw [h]
  clear h gen
  have h2 : (l.zipIdx 0).map (fun x => if x.2 < nl + 0 then f x.1 x.2 else 0) =
      List.ofFn (fun i : Fin l.length => if i.val < nl then f l[i] i.val else 0) := by
    apply List.ext_getElem
    · simp
    · intro i h1 h2
      simp
  rw [h2, List.sum_ofFn]

/-- A sum over the list of pairs as a sum over pairs of plane waves. -/
theorem pairs_sum (I : Inp) (hs : SetupOk I) (nl : Nat) (q : Vec) {M : Type} [AddCommMonoid M]
    (f : Nat → Nat → M) :
    ((pairs I nl q).map fun x => f x.1 x.2).sum =
      ∑ i : Fin (nb I), ∑ j : Fin (nb I), if i.val < nl ∧ bv I i + q = bv I j then f i j else 0 := by
  unfold pairs
  rw [List.map_filterMap, sum_filterMap]
  have h := sum_zipIdx_take (basis I) nl
    (fun k i => (((lookup I (k + q)).map fun j => (i, j)).map fun x => f x.1 x.2).getD 0)
  rw [h]
  refine sum_congr rfl fun i _ => ?_
  by_cases hi : i.val < nl
  · rw [if_pos hi]
    cases hl : lookup I ((basis I)[i] + q) with
    | none =>
      symm
      refine sum_eq_zero fun j _ => ?_
      rw [if_neg]
      rintro ⟨_, h2⟩
      have h3 : lookup I (bv I i + q) = some j.val := (lookup_bv I hs _ j).mpr h2
      have h4 : lookup I (bv I i + q) = none := hl
      rw [h4] at h3; cases h3
    | some j =>
      have hb := ((lookup_exact I hs _).1 j).mp hl
      obtain ⟨hj, hjv⟩ := List.getElem?_eq_some_iff.mp hb
      have h2 : bv I i + q = bv I ⟨j, hj⟩ := hjv.symm
      rw [sum_eq_single ⟨j, hj⟩]
      · rw [if_pos ⟨hi, h2⟩]; rfl
      · intro b _ hne
        rw [if_neg]
        rintro ⟨_, h3⟩
        exact hne ((bv_inj I).mp (h3.symm.trans h2))
      · intro h; exact absurd (mem_univ _) h
  · rw [if_neg hi]
    symm
    refine sum_eq_zero fun j _ => ?_
    rw [if_neg fun h => hi h.1]

/-- Both lists of pairs together with the kernel give the Coulomb integrals. -/
theorem kernel_sum (I : Inp) (hk : 0 < I.kfac) (ht : I.twist = 0) (nl : Nat)
    (W : Nat → Nat → Nat → Nat → ℂ) :
    1 / (2 * (I.vol : ℂ)) * ((qvecs I).map fun k => (vq I k : ℂ) *
      ((pairs I nl k).map fun x => ((pairs I nl (-k)).map fun y => W x.1 x.2 y.1 y.2).sum).sum).sum =
    (1 / 2) * ∑ p : Fin (nb I), ∑ r : Fin (nb I), ∑ q : Fin (nb I), ∑ u : Fin (nb I),
      if p.val < nl ∧ q.val < nl then (hijkl I p q r u : ℂ) * W p r q u else 0 := by
  have hs := setupOk_untwisted I hk ht
  have h1 : ∀ k, (vq I k : ℂ) *
      ((pairs I nl k).map fun x => ((pairs I nl (-k)).map fun y => W x.1 x.2 y.1 y.2).sum).sum =
      ∑ p : Fin (nb I), ∑ r : Fin (nb I), ∑ q : Fin (nb I), ∑ u : Fin (nb I),
        if p.val < nl ∧ q.val < nl then (if bv I p + k = bv I r ∧ bv I q - k = bv I u then
          (vq I k : ℂ) * W p r q u else 0) else 0 := by
    intro k
    rw [pairs_sum I hs nl k (fun a b => ((pairs I nl (-k)).map fun y => W a b y.1 y.2).sum), mul_sum]
    refine sum_congr rfl fun p _ => ?_
    rw [mul_sum]
    refine sum_congr rfl fun r _ => ?_
    by_cases hp : p.val < nl ∧ bv I p + k = bv I r
    · rw [if_pos hp, pairs_sum I hs nl (-k) (fun a b => W p r a b), mul_sum]
      refine sum_congr rfl fun q _ => ?_
      rw [mul_sum]
      refine sum_congr rfl fun u _ => ?_
      by_cases hq : q.val < nl ∧ bv I q + -k = bv I u
      · rw [if_pos hq, if_pos ⟨hp.1, hq.1⟩, if_pos ⟨hp.2, by rw [sub_eq_add_neg]; exact hq.2⟩]
      · rw [if_neg hq, mul_zero]
        by_cases hq1 : q.val < nl
        · rw [if_pos ⟨hp.1, hq1⟩, if_neg]
          rintro ⟨_, h⟩
          exact hq ⟨hq1, by rw [← sub_eq_add_neg]; exact h⟩
        · rw [if_neg fun h => hq1 h.2]
    · rw [if_neg hp, mul_zero]
      symm
      refine sum_eq_zero fun q _ => sum_eq_zero fun u _ => ?_
      by_cases hp1 : p.val < nl ∧ q.val < nl
      · rw [if_pos hp1, if_neg fun h => hp ⟨hp1.1, h.1⟩]
      · rw [if_neg hp1]
  simp only [h1, list_sum_finset]
  rw [mul_sum, mul_sum]
  refine sum_congr rfl fun p _ => ?_
  rw [mul_sum, mul_sum]
  refine sum_congr rfl fun r _ => ?_
  rw [mul_sum, mul_sum]
  refine sum_congr rfl fun q _ => ?_
  rw [mul_sum, mul_sum]
  refine sum_congr rfl fun u _ => ?_
  by_cases hpq : p.val < nl ∧ q.val < nl
  · simp only [if_pos hpq]
    rw [qsum I hk ht p r q u (fun k => (vq I k : ℂ) * W p r q u), hijkl_eq]
    split_ifs
    · push_cast
      rw [one_div, one_div, one_div, mul_inv]
      ring
    · simp
  · simp [if_neg hpq]

/-- The integrals `(pr|qs)` as input of the generic energy. -/
noncomputable def coulomb (I : Inp) : Energy.Eri (nb I) := fun p r q s => (hijkl I p q r s : ℂ)

/-- The kinetic energy matrix. -/
noncomputable def kin (I : Inp) : Fin 2 → Matrix (Fin (nb I)) (Fin (nb I)) ℂ :=
  fun _ => Matrix.diagonal fun i => (energy I (bv I i) : ℂ)

theorem gSum_mul (l l' : List (Nat × Nat)) {n : Nat} (G H : Matrix (Fin n) (Fin n) ℂ) :
    gSum l G * gSum l' H =
      (l.map fun x => (l'.map fun y => ent G x.1 x.2 * ent H y.1 y.2).sum).sum := by
  unfold gSum
  rw [← List.sum_map_mul_right]
  refine congrArg List.sum (List.map_congr_left fun x _ => ?_)
  rw [← List.sum_map_mul_left]

/-- **C74 (all electrons within the tabulated rows)**: the local energy of the electron gas is the
generic contraction of the Green's functions with the Coulomb integrals, if the rows of both Green's
functions beyond the tabulated ones vanish. -/
theorem localUEG_partial (I : Inp) (hk : 0 < I.kfac) (ht : I.twist = 0) (nl : Nat)
    (G : Fin 2 → Matrix (Fin (nb I)) (Fin (nb I)) ℂ) (hG : ∀ s i j, nl ≤ i.val → G s i j = 0) :
    localUEG I nl G = Energy.localGeneric (kin I) (coulomb I) G 0 := by
  have hJ : ∀ s t : Fin 2, 1 / (2 * (I.vol : ℂ)) * ((qvecs I).map fun k => (vq I k : ℂ) *
      (gSum (pairs I nl k) (G s) * gSum (pairs I nl (-k)) (G t))).sum =
      (1 / 2) * ∑ p, ∑ r, ∑ q, ∑ u, coulomb I p r q u * G s p r * G t q u := by
    intro s t
    simp only [gSum_mul]
    rw [kernel_sum I hk ht nl (fun a b c d => ent (G s) a b * ent (G t) c d)]
    congr 1
    refine sum_congr rfl fun p _ => sum_congr rfl fun r _ => sum_congr rfl fun q _ =>
      sum_congr rfl fun u _ => ?_
    rw [ent_fin, ent_fin]
    split_ifs with h
    · rw [coulomb, mul_assoc]
    · by_cases hp : p.val < nl
      · rw [hG t q u (by by_contra hc; exact h ⟨hp, by omega⟩), mul_zero]
      · rw [hG s p r (by omega), mul_zero, zero_mul]
  have hK : ∀ s : Fin 2, 1 / (2 * (I.vol : ℂ)) * ((qvecs I).map fun k => (vq I k : ℂ) *
      gProd (pairs I nl k) (pairs I nl (-k)) (G s)).sum =
      (1 / 2) * ∑ p, ∑ r, ∑ q, ∑ u, coulomb I p r q u * G s p u * G s q r := by
    intro s
    unfold gProd
    rw [kernel_sum I hk ht nl (fun a b c d => ent (G s) c b * ent (G s) a d)]
    congr 1
    refine sum_congr rfl fun p _ => sum_congr rfl fun r _ => sum_congr rfl fun q _ =>
      sum_congr rfl fun u _ => ?_
    rw [ent_fin, ent_fin]
    split_ifs with h
    · rw [coulomb]; ring
    · by_cases hp : p.val < nl
      · rw [hG s q r (by by_contra hc; exact h ⟨hp, by omega⟩), mul_zero]
      · rw [hG s p u (by omega), mul_zero, zero_mul]
  have hsub : ∀ s : Fin 2, 1 / (2 * (I.vol : ℂ)) * ((qvecs I).map fun k => (vq I k : ℂ) *
      (gSum (pairs I nl k) (G s) * gSum (pairs I nl (-k)) (G s) -
        gProd (pairs I nl k) (pairs I nl (-k)) (G s))).sum =
      (1 / 2) * (∑ p, ∑ r, ∑ q, ∑ u, coulomb I p r q u * G s p r * G s q u -
        ∑ p, ∑ r, ∑ q, ∑ u, coulomb I p r q u * G s p u * G s q r) := by
    intro s
    rw [mul_sub (1 / 2 : ℂ), ← hJ, ← hK, ← mul_sub]
    congr 1
    generalize qvecs I = l
    induction l with
    | nil => simp
    | cons a l ih => simp only [List.map_cons, List.sum_cons, ih]; ring
  have hke : ∑ s, ∑ i, (energy I (bv I i) : ℂ) * G s i i =
      Energy.dot2 (kin I 0) (G 0) + Energy.dot2 (kin I 1) (G 1) := by
    have : ∀ s, Energy.dot2 (kin I s) (G s) = ∑ i, (energy I (bv I i) : ℂ) * G s i i := by
      intro s
      unfold Energy.dot2 kin
      refine sum_congr rfl fun i _ => ?_
      rw [sum_eq_single i]
      · rw [Matrix.diagonal_apply_eq]
      · intro j _ hne; rw [Matrix.diagonal_apply_ne _ (Ne.symm hne), zero_mul]
      · intro h; exact absurd (mem_univ _) h
    rw [this, this, Fin.sum_univ_two]
  unfold localUEG Energy.localGeneric
  dsimp only
  rw [hke, hsub, hsub, hJ, hJ]
  refine Prod.ext ?_ (Prod.ext ?_ ?_) <;> ring

/-- At finite temperature all rows are tabulated. -/
theorem localUEG_thermal (I : Inp) (hk : 0 < I.kfac) (ht : I.twist = 0)
    (G : Fin 2 → Matrix (Fin (nb I)) (Fin (nb I)) ℂ) :
    localUEG I (nb I) G = Energy.localGeneric (kin I) (coulomb I) G 0 :=
  localUEG_partial I hk ht _ G fun _ i _ h => absurd i.isLt (not_lt.mpr h)

/-- At zero temperature the Green's function with a trial determinant built from the first `nl` plane
waves has no other rows. -/
theorem localUEG_trial (I : Inp) (hk : 0 < I.kfac) (ht : I.twist = 0) (nl : Nat) {n : Fin 2 → Nat}
    (ψ φ : ∀ s : Fin 2, Matrix (Fin (nb I)) (Fin (n s)) ℂ)
    (hψ : ∀ s i j, nl ≤ i.val → ψ s i j = 0) :
    localUEG I nl (fun s => (Slater.gabMod (ψ s) (φ s)).1) =
      Energy.localGeneric (kin I) (coulomb I) (fun s => (Slater.gabMod (ψ s) (φ s)).1) 0 := by
  refine localUEG_partial I hk ht nl _ fun s i j h => ?_
  unfold Slater.gabMod
  dsimp only
  rw [Matrix.mul_apply]
  refine sum_eq_zero fun k _ => ?_
  rw [Matrix.map_apply, hψ s i k h, star_zero, zero_mul]

/-- A determinant of single plane waves: the density matrix of the orbitals in `occ`. -/
noncomputable def planeWaves (I : Inp) (occ : Finset (Fin (nb I))) : Matrix (Fin (nb I)) (Fin (nb I)) ℂ :=
  Matrix.diagonal fun i => if i ∈ occ then 1 else 0

open Classical in
/-- Exchange energy of plane waves. -/
theorem planeWaves_generic (I : Inp) (a b : Finset (Fin (nb I))) :
    (Energy.localGeneric (kin I) (coulomb I) ![planeWaves I a, planeWaves I b] 0).2.2 =
      -(1 / 2) * (∑ p ∈ a, ∑ q ∈ a, (hijkl I p q q p : ℂ) + ∑ p ∈ b, ∑ q ∈ b, (hijkl I p q q p : ℂ)) := by
  have hJ : ∀ c d : Finset (Fin (nb I)), ∑ p, ∑ r, ∑ q, ∑ u, coulomb I p r q u * planeWaves I c p r *
      planeWaves I d q u = 0 := by
    intro c d
    refine sum_eq_zero fun p _ => sum_eq_zero fun r _ => sum_eq_zero fun q _ => sum_eq_zero fun u _ => ?_
    unfold planeWaves
    by_cases h : p = r
    · subst h
      rw [coulomb, hijkl_eq, if_neg fun h => h.1 rfl]; simp
    · rw [Matrix.diagonal_apply_ne _ h]; simp
  have hK : ∀ c : Finset (Fin (nb I)), ∑ p, ∑ r, ∑ q, ∑ u, coulomb I p r q u * planeWaves I c p u *
      planeWaves I c q r = ∑ p ∈ c, ∑ q ∈ c, (hijkl I p q q p : ℂ) := by
    intro c
    have h1 : ∀ p, ∑ r, ∑ q, ∑ u, coulomb I p r q u * planeWaves I c p u * planeWaves I c q r =
        if p ∈ c then ∑ q ∈ c, (hijkl I p q q p : ℂ) else 0 := by
      intro p
      have h2 : ∀ r, ∑ q, ∑ u, coulomb I p r q u * planeWaves I c p u * planeWaves I c q r =
          if r ∈ c then (if p ∈ c then (hijkl I p r r p : ℂ) else 0) else 0 := by
        intro r
        rw [sum_eq_single r]
        · rw [sum_eq_single p]
          · unfold planeWaves coulomb
            rw [Matrix.diagonal_apply_eq, Matrix.diagonal_apply_eq]
            split_ifs <;> simp
          · intro u _ hu
            unfold planeWaves
            rw [Matrix.diagonal_apply_ne _ (Ne.symm hu)]; simp
          · intro h; exact absurd (mem_univ _) h
        · intro q _ hq
          refine sum_eq_zero fun u _ => ?_
          unfold planeWaves
          rw [Matrix.diagonal_apply_ne _ hq]; simp
        · intro h; exact absurd (mem_univ _) h
      simp only [h2]
      rw [← sum_filter]
      simp only [filter_mem_eq_inter, univ_inter]
      split_ifs
      · rfl
      · simp
    simp only [h1]
    rw [← sum_filter]
    simp only [filter_mem_eq_inter, univ_inter]
  unfold Energy.localGeneric
  simp only [Matrix.cons_val_zero, Matrix.cons_val_one]
  rw [hJ, hJ, hJ, hJ, hK, hK]
  ring

/-- **C74 (finding)**: with one up electron and two down electrons in the lowest plane waves, the
tabulated rows are limited to the number of up electrons; the exchange energy of the down electrons is
lost. -/
theorem localUEG_more_down (I : Inp) (hk : 0 < I.kfac) (hv : 0 < I.vol) (ht : I.twist = 0)
    (h2 : 1 < nb I) :
    let i0 : Fin (nb I) := ⟨0, by omega⟩
    let i1 : Fin (nb I) := ⟨1, h2⟩
    let G := ![planeWaves I {i0}, planeWaves I {i0, i1}]
    (localUEG I 1 G).2.2 = 0 ∧ (Energy.localGeneric (kin I) (coulomb I) G 0).2.2 ≠ 0 := by
  intro i0 i1 G
  have hne : i0 ≠ i1 := by intro h; have := congrArg Fin.val h; simp [i0, i1] at this
  constructor
  · -- the tabulated rows are those of the first plane wave only
    have hJ : ∀ s t : Fin 2, 1 / (2 * (I.vol : ℂ)) * ((qvecs I).map fun k => (vq I k : ℂ) *
        (gSum (pairs I 1 k) (G s) * gSum (pairs I 1 (-k)) (G t))).sum = 0 := by
      intro s t
      simp only [gSum_mul]
      rw [kernel_sum I hk ht 1 (fun a b c d => ent (G s) a b * ent (G t) c d)]
      rw [mul_eq_zero]; right
      refine sum_eq_zero fun p _ => sum_eq_zero fun r _ => sum_eq_zero fun q _ => sum_eq_zero fun u _ => ?_
      rw [ent_fin, ent_fin]
      split_ifs
      · by_cases h : p = r
        · subst h
          rw [hijkl_eq, if_neg fun h => h.1 rfl]; simp
        · have : G s p r = 0 := by
            fin_cases s
            · exact Matrix.diagonal_apply_ne _ h
            · exact Matrix.diagonal_apply_ne _ h
          rw [this]; simp
      · rfl
    have hK : ∀ s : Fin 2, 1 / (2 * (I.vol : ℂ)) * ((qvecs I).map fun k => (vq I k : ℂ) *
        gProd (pairs I 1 k) (pairs I 1 (-k)) (G s)).sum = 0 := by
      intro s
      unfold gProd
      rw [kernel_sum I hk ht 1 (fun a b c d => ent (G s) c b * ent (G s) a d)]
      rw [mul_eq_zero]; right
      refine sum_eq_zero fun p _ => sum_eq_zero fun r _ => sum_eq_zero fun q _ => sum_eq_zero fun u _ => ?_
      rw [ent_fin, ent_fin]
      split_ifs with h
      · by_cases hq : q = r
        · subst hq
          have : q = p := Fin.ext (by omega)
          rw [hijkl_eq, if_neg fun h => h.1 this]; simp
        · have : G s q r = 0 := by
            fin_cases s
            · exact Matrix.diagonal_apply_ne _ hq
            · exact Matrix.diagonal_apply_ne _ hq
          rw [this]; simp
      · rfl
    have hsub : ∀ s : Fin 2, 1 / (2 * (I.vol : ℂ)) * ((qvecs I).map fun k => (vq I k : ℂ) *
        (gSum (pairs I 1 k) (G s) * gSum (pairs I 1 (-k)) (G s) -
          gProd (pairs I 1 k) (pairs I 1 (-k)) (G s))).sum = 0 := by
      intro s
      have h3 := hJ s s
      have h4 := hK s
      have : ((qvecs I).map fun k => (vq I k : ℂ) *
        (gSum (pairs I 1 k) (G s) * gSum (pairs I 1 (-k)) (G s) -
          gProd (pairs I 1 k) (pairs I 1 (-k)) (G s))).sum = ((qvecs I).map fun k => (vq I k : ℂ) *
        (gSum (pairs I 1 k) (G s) * gSum (pairs I 1 (-k)) (G s))).sum - ((qvecs I).map fun k => (vq I k : ℂ) *
        gProd (pairs I 1 k) (pairs I 1 (-k)) (G s)).sum := by
        generalize qvecs I = l
        induction l with
        | nil => simp
        | cons a l ih => simp only [List.map_cons, List.sum_cons, ih]; ring
      rw [this, mul_sub, h3, h4, sub_zero]
    unfold localUEG
    dsimp only
    rw [hsub, hsub, hJ, hJ]
    simp
  · rw [planeWaves_generic, sum_singleton, sum_singleton, sum_pair hne, sum_pair hne, sum_pair hne]
    have hd : ∀ i : Fin (nb I), hijkl I i i i i = 0 := by
      intro i; rw [hijkl_eq, if_neg fun h => h.1 rfl]
    have hpos : ∀ i j : Fin (nb I), i ≠ j → 0 < hijkl I i j j i := by
      intro i j hij
      rw [hijkl_eq, if_pos ⟨Ne.symm hij, rfl⟩]
      have : 0 < nsq (bv I j - bv I i) := by
        refine lt_of_le_of_ne (nsq_nonneg _) fun h0 => hij ?_
        exact ((bv_inj I).mp (sub_eq_zero.mp (nsq_eq_zero h0.symm))).symm
      have h5 : (0 : ℝ) < nsq (bv I j - bv I i) := by exact_mod_cast this
      have := Real.pi_pos
      unfold vq
      positivity
    have h6 := hpos i0 i1 hne
    have h7 := hpos i1 i0 (Ne.symm hne)
    rw [hd, hd]
    have : -(1 / 2 : ℂ) * (((0 : ℝ) : ℂ) + (((0 : ℝ) : ℂ) + (hijkl I i0 i1 i1 i0 : ℂ) +
        ((hijkl I i1 i0 i0 i1 : ℂ) + ((0 : ℝ) : ℂ)))) =
        ((-(1 / 2) * (hijkl I i0 i1 i1 i0 + hijkl I i1 i0 i0 i1) : ℝ) : ℂ) := by push_cast; ring
    rw [this]
    intro h8
    have h9 := Complex.ofReal_eq_zero.mp h8
    linarith

/-! ## Fock matrix -/

/-- The derivative of the generic energy with respect to `G^s_ab`: kinetic, Coulomb and exchange. -/
noncomputable def fockExact (I : Inp) (G : Fin 2 → Matrix (Fin (nb I)) (Fin (nb I)) ℂ) (s : Fin 2)
    (a b : Fin (nb I)) : ℂ :=
  kin I s a b + ∑ q, ∑ u, coulomb I a b q u * (G 0 q u + G 1 q u) -
    ∑ r, ∑ q, coulomb I a r q b * G s q r

theorem at1_fin {n : Nat} (i j : Fin n) (v : ℂ) (a b : Fin n) :
    at1 i.val j.val v a b = if i = a ∧ j = b then v else 0 := by
  unfold at1
  refine if_congr ?_ rfl rfl
  rw [Fin.ext_iff, Fin.ext_iff]

theorem qvecs_sum_neg (I : Inp) (hk : 0 < I.kfac) (ht : I.twist = 0) (f : Vec → ℂ) :
    ((qvecs I).map fun k => f (-k)).sum = ((qvecs I).map f).sum := by
  have hp : ((qvecs I).map fun k => -k).Perm (qvecs I) := by
    rw [List.perm_ext_iff_of_nodup ((nodup_qvecs I).map neg_injective) (nodup_qvecs I)]
    intro k
    rw [List.mem_map, mem_qvecs I hk ht]
    constructor
    · rintro ⟨k', h, rfl⟩
      rw [mem_qvecs I hk ht] at h
      rw [nsq_neg, neg_ne_zero]; exact h
    · intro h
      refine ⟨-k, ?_, neg_neg k⟩
      rw [mem_qvecs I hk ht, nsq_neg, neg_ne_zero]; exact h
  have := (hp.map f).sum_eq
  rw [List.map_map] at this
  exact this

/-- The Coulomb part of the Fock matrix. -/
theorem buildJ_eq (I : Inp) (hk : 0 < I.kfac) (ht : I.twist = 0)
    (G : Fin 2 → Matrix (Fin (nb I)) (Fin (nb I)) ℂ) (a b : Fin (nb I)) :
    buildJ I (nb I) G a b = ∑ q, ∑ u, coulomb I a b q u * (G 0 q u + G 1 q u) := by
  have hs := setupOk_untwisted I hk ht
  have hall : ∀ i : Fin (nb I), i.val < nb I := fun i => i.isLt
  -- one half of the loop, for the vector `-k`
  have half : ((qvecs I).map fun k =>
      ((pairs I (nb I) (-k)).map fun x => at1 x.2 x.1 (1 / (2 * (I.vol : ℂ)) * (vq I k : ℂ) *
        (gSum (pairs I (nb I) (-k)) (G 0) + gSum (pairs I (nb I) (-k)) (G 1))) a b).sum).sum =
      (1 / 2) * ∑ q, ∑ u, coulomb I a b q u * (G 0 q u + G 1 q u) := by
    have h1 : ∀ k, ((pairs I (nb I) (-k)).map fun x => at1 x.2 x.1 (1 / (2 * (I.vol : ℂ)) * (vq I k : ℂ) *
        (gSum (pairs I (nb I) (-k)) (G 0) + gSum (pairs I (nb I) (-k)) (G 1))) a b).sum =
        ∑ q, ∑ u, if bv I a + k = bv I b ∧ bv I q - k = bv I u then
          1 / (2 * (I.vol : ℂ)) * (vq I k : ℂ) * (G 0 q u + G 1 q u) else 0 := by
      intro k
      have hg : ∀ s, gSum (pairs I (nb I) (-k)) (G s) =
          ∑ q, ∑ u, if bv I q - k = bv I u then G s q u else 0 := by
        intro s
        unfold gSum
        rw [pairs_sum I hs (nb I) (-k) (fun i j => ent (G s) i j)]
        refine sum_congr rfl fun q _ => sum_congr rfl fun u _ => ?_
        rw [ent_fin]
        refine if_congr ?_ rfl rfl
        rw [sub_eq_add_neg]
        exact ⟨fun h => h.2, fun h => ⟨hall q, h⟩⟩
      rw [pairs_sum I hs (nb I) (-k) (fun i j => at1 j i _ a b)]
      simp only [at1_fin]
      rw [sum_eq_single b]
      · rw [sum_eq_single a]
        · by_cases h : bv I a + k = bv I b
          · have h' : bv I b + -k = bv I a := by rw [← h]; abel
            rw [if_pos ⟨hall b, h'⟩, if_pos ⟨rfl, rfl⟩, hg, hg, ← sum_add_distrib, mul_sum]
            refine sum_congr rfl fun q _ => ?_
            rw [← sum_add_distrib, mul_sum]
            refine sum_congr rfl fun u _ => ?_
            by_cases h2 : bv I q - k = bv I u
            · rw [if_pos h2, if_pos h2, if_pos ⟨h, h2⟩]
            · rw [if_neg h2, if_neg h2, if_neg fun h3 => h2 h3.2, add_zero, mul_zero]
          · rw [if_neg]
            · symm
              refine sum_eq_zero fun q _ => sum_eq_zero fun u _ => ?_
              rw [if_neg fun h3 => h h3.1]
            · rintro ⟨_, h'⟩
              exact h (by rw [← h']; abel)
        · intro j _ hj
          split_ifs with h1 h2
          · exact absurd h2.1 hj
          · rfl
          · rfl
        · intro h; exact absurd (mem_univ _) h
      · intro i _ hi
        refine sum_eq_zero fun j _ => ?_
        split_ifs with h1 h2
        · exact absurd h2.2 hi
        · rfl
        · rfl
      · intro h; exact absurd (mem_univ _) h
    simp only [h1, list_sum_finset]
    rw [mul_sum]
    refine sum_congr rfl fun q _ => ?_
    rw [mul_sum]
    refine sum_congr rfl fun u _ => ?_
    rw [qsum I hk ht a b q u (fun k => 1 / (2 * (I.vol : ℂ)) * (vq I k : ℂ) * (G 0 q u + G 1 q u)), coulomb,
      hijkl_eq]
    split_ifs
    · push_cast
      rw [one_div, one_div, one_div, mul_inv]
      ring
    · simp
  unfold buildJ
  rw [Matrix.of_apply]
  dsimp only
  rw [list_sum_add]
  have hsnd := qvecs_sum_neg I hk ht (fun k => ((pairs I (nb I) k).map fun x => at1 x.2 x.1
    (1 / (2 * (I.vol : ℂ)) * (vq I k : ℂ) *
      (gSum (pairs I (nb I) k) (G 0) + gSum (pairs I (nb I) k) (G 1))) a b).sum)
  rw [← hsnd]
  simp only [vq_neg]
  rw [half]
  ring

/-- The exchange part of the Fock matrix contains the *transposed* Green's function. -/
theorem buildK_eq (I : Inp) (hk : 0 < I.kfac) (ht : I.twist = 0)
    (G : Matrix (Fin (nb I)) (Fin (nb I)) ℂ) (a b : Fin (nb I)) :
    buildK I (nb I) G a b = -∑ r, ∑ q, coulomb I a r q b * G r q := by
  have hs := setupOk_untwisted I hk ht
  have hall : ∀ i : Fin (nb I), i.val < nb I := fun i => i.isLt
  have half : ((qvecs I).map fun k =>
      ((pairs I (nb I) k).map fun x => ((pairs I (nb I) (-k)).map fun y =>
        at1 x.1 y.2 (-(1 / (2 * (I.vol : ℂ)) * (vq I k : ℂ)) * ent G x.2 y.1) a b).sum).sum).sum =
      -(1 / 2) * ∑ r, ∑ q, coulomb I a r q b * G r q := by
    have h1 : ∀ k, ((pairs I (nb I) k).map fun x => ((pairs I (nb I) (-k)).map fun y =>
        at1 x.1 y.2 (-(1 / (2 * (I.vol : ℂ)) * (vq I k : ℂ)) * ent G x.2 y.1) a b).sum).sum =
        ∑ r, ∑ q, if bv I a + k = bv I r ∧ bv I q - k = bv I b then
          -(1 / (2 * (I.vol : ℂ)) * (vq I k : ℂ)) * G r q else 0 := by
      intro k
      rw [pairs_sum I hs (nb I) k (fun i j => ((pairs I (nb I) (-k)).map fun y =>
        at1 i y.2 (-(1 / (2 * (I.vol : ℂ)) * (vq I k : ℂ)) * ent G j y.1) a b).sum)]
      rw [sum_eq_single a]
      · refine sum_congr rfl fun r _ => ?_
        by_cases h : bv I a + k = bv I r
        · rw [if_pos ⟨hall a, h⟩, pairs_sum I hs (nb I) (-k) (fun i j => at1 a.val j
            (-(1 / (2 * (I.vol : ℂ)) * (vq I k : ℂ)) * ent G r i) a b)]
          refine sum_congr rfl fun q _ => ?_
          rw [sum_eq_single b]
          · rw [at1_fin, if_pos (⟨rfl, rfl⟩ : a = a ∧ b = b), ent_fin]
            refine if_congr ?_ rfl rfl
            rw [sub_eq_add_neg]
            exact ⟨fun h2 => ⟨h, h2.2⟩, fun h2 => ⟨hall q, h2.2⟩⟩
          · intro j _ hj
            rw [at1_fin, if_neg (fun h2 : a = a ∧ j = b => hj h2.2), ite_self]
          · intro h; exact absurd (mem_univ _) h
        · rw [if_neg fun h2 => h h2.2]
          symm
          refine sum_eq_zero fun q _ => ?_
          rw [if_neg fun h2 => h h2.1]
      · intro i _ hi
        refine sum_eq_zero fun r _ => ?_
        rw [pairs_sum I hs (nb I) (-k) (fun i' j => at1 i.val j
            (-(1 / (2 * (I.vol : ℂ)) * (vq I k : ℂ)) * ent G r i') a b)]
        split_ifs
        · refine sum_eq_zero fun q _ => sum_eq_zero fun j _ => ?_
          rw [at1_fin, if_neg (fun h2 : i = a ∧ j = b => hi h2.1), ite_self]
        · rfl
      · intro h; exact absurd (mem_univ _) h
    simp only [h1, list_sum_finset]
    rw [mul_sum]
    refine sum_congr rfl fun r _ => ?_
    rw [mul_sum]
    refine sum_congr rfl fun q _ => ?_
    rw [qsum I hk ht a r q b (fun k => -(1 / (2 * (I.vol : ℂ)) * (vq I k : ℂ)) * G r q), coulomb, hijkl_eq]
    split_ifs
    · push_cast
      rw [one_div, one_div, one_div, mul_inv]
      ring
    · simp
  unfold buildK
  rw [Matrix.of_apply]
  dsimp only
  rw [list_sum_add]
  have hfst := qvecs_sum_neg I hk ht (fun k => ((pairs I (nb I) (-k)).map fun x =>
    ((pairs I (nb I) k).map fun y =>
      at1 x.1 y.2 (-(1 / (2 * (I.vol : ℂ)) * (vq I k : ℂ)) * ent G x.2 y.1) a b).sum).sum)
  rw [← hfst]
  simp only [vq_neg, neg_neg]
  rw [half]
  ring

/-- **C75 (symmetric Green's functions)**: the Fock matrix is the derivative of the energy. -/
theorem fock_partial (I : Inp) (hk : 0 < I.kfac) (ht : I.twist = 0)
    (G : Fin 2 → Matrix (Fin (nb I)) (Fin (nb I)) ℂ) (s : Fin 2) (hG : (G s).IsSymm)
    (a b : Fin (nb I)) : fock I (nb I) G s a b = fockExact I G s a b := by
  unfold fock fockExact
  rw [Matrix.add_apply, Matrix.add_apply, buildJ_eq I hk ht, buildK_eq I hk ht, sub_eq_add_neg]
  congr 2
  refine sum_congr rfl fun r _ => sum_congr rfl fun q _ => ?_
  rw [hG.apply]

/-- What the code computes for any Green's functions. -/
theorem fock_eq (I : Inp) (hk : 0 < I.kfac) (ht : I.twist = 0)
    (G : Fin 2 → Matrix (Fin (nb I)) (Fin (nb I)) ℂ) (s : Fin 2) (a b : Fin (nb I)) :
    fock I (nb I) G s a b = fockExact I G s a b +
      ∑ r, ∑ q, coulomb I a r q b * (G s q r - G s r q) := by
  unfold fock fockExact
  rw [Matrix.add_apply, Matrix.add_apply, buildJ_eq I hk ht, buildK_eq I hk ht]
  simp only [mul_sub, sum_sub_distrib]
  unfold kin
  ring

/-- Coulomb contraction. -/
noncomputable def bilJ (I : Inp) (X Y : Matrix (Fin (nb I)) (Fin (nb I)) ℂ) : ℂ :=
  ∑ p, ∑ r, ∑ q, ∑ u, coulomb I p r q u * X p r * Y q u

/-- Exchange contraction. -/
noncomputable def bilK (I : Inp) (X Y : Matrix (Fin (nb I)) (Fin (nb I)) ℂ) : ℂ :=
  ∑ p, ∑ r, ∑ q, ∑ u, coulomb I p r q u * X p u * Y q r

theorem coulomb_swap (I : Inp) (p r q u : Fin (nb I)) : coulomb I q u p r = coulomb I p r q u := by
  unfold coulomb
  rw [hijkl_eq, hijkl_eq]
  have h : (u ≠ q ∧ bv I u - bv I q = bv I p - bv I r) ↔ (r ≠ p ∧ bv I r - bv I p = bv I q - bv I u) := by
    have h1 : (bv I u - bv I q = bv I p - bv I r) ↔ (bv I r - bv I p = bv I q - bv I u) := by
      rw [← neg_sub (bv I q), ← neg_sub (bv I r), neg_inj]
      exact eq_comm
    rw [h1]
    refine and_congr_left fun h2 => not_congr ?_
    rw [← bv_inj I, ← bv_inj I (i := r), ← sub_eq_zero, ← sub_eq_zero (a := bv I r), h2, sub_eq_zero,
      sub_eq_zero]
    exact eq_comm
  rw [if_congr h rfl rfl]
  split_ifs with h2
  · rw [h2.2, vq_sub]
  · rfl

theorem bilJ_comm (I : Inp) (X Y : Matrix (Fin (nb I)) (Fin (nb I)) ℂ) : bilJ I X Y = bilJ I Y X := by
  unfold bilJ
  have h1 : ∑ p, ∑ r, ∑ q, ∑ u, coulomb I p r q u * X p r * Y q u =
      ∑ x : Fin (nb I) × Fin (nb I), ∑ y : Fin (nb I) × Fin (nb I),
        coulomb I x.1 x.2 y.1 y.2 * X x.1 x.2 * Y y.1 y.2 := by
    simp only [Fintype.sum_prod_type]
  have h2 : ∑ p, ∑ r, ∑ q, ∑ u, coulomb I p r q u * Y p r * X q u =
      ∑ y : Fin (nb I) × Fin (nb I), ∑ x : Fin (nb I) × Fin (nb I),
        coulomb I y.1 y.2 x.1 x.2 * Y y.1 y.2 * X x.1 x.2 := by
    simp only [Fintype.sum_prod_type]
  rw [h1, h2, sum_comm]
  refine sum_congr rfl fun x _ => sum_congr rfl fun y _ => ?_
  rw [coulomb_swap]; ring

theorem bilK_comm (I : Inp) (X Y : Matrix (Fin (nb I)) (Fin (nb I)) ℂ) : bilK I X Y = bilK I Y X := by
  unfold bilK
  have h1 : ∑ p, ∑ r, ∑ q, ∑ u, coulomb I p r q u * X p u * Y q r =
      ∑ x : Fin (nb I) × Fin (nb I), ∑ y : Fin (nb I) × Fin (nb I),
        coulomb I x.1 x.2 y.1 y.2 * X x.1 y.2 * Y y.1 x.2 := by
    simp only [Fintype.sum_prod_type]
  have h2 : ∑ p, ∑ r, ∑ q, ∑ u, coulomb I p r q u * Y p u * X q r =
      ∑ y : Fin (nb I) × Fin (nb I), ∑ x : Fin (nb I) × Fin (nb I),
        coulomb I y.1 y.2 x.1 x.2 * Y y.1 x.2 * X x.1 y.2 := by
    simp only [Fintype.sum_prod_type]
  rw [h1, h2, sum_comm]
  refine sum_congr rfl fun x _ => sum_congr rfl fun y _ => ?_
  rw [coulomb_swap]; ring

theorem bilJ_add (I : Inp) (X X' Y : Matrix (Fin (nb I)) (Fin (nb I)) ℂ) :
    bilJ I (X + X') Y = bilJ I X Y + bilJ I X' Y := by
  simp only [bilJ, Matrix.add_apply, mul_add, add_mul, sum_add_distrib]

theorem bilK_add (I : Inp) (X X' Y : Matrix (Fin (nb I)) (Fin (nb I)) ℂ) :
    bilK I (X + X') Y = bilK I X Y + bilK I X' Y := by
  simp only [bilK, Matrix.add_apply, mul_add, add_mul, sum_add_distrib]

theorem bilJ_smul (I : Inp) (t : ℂ) (X Y : Matrix (Fin (nb I)) (Fin (nb I)) ℂ) :
    bilJ I (t • X) Y = t * bilJ I X Y := by
  simp only [bilJ, Matrix.smul_apply, smul_eq_mul, mul_sum]
  refine sum_congr rfl fun p _ => sum_congr rfl fun r _ => sum_congr rfl fun q _ =>
    sum_congr rfl fun u _ => ?_
  ring

theorem bilK_smul (I : Inp) (t : ℂ) (X Y : Matrix (Fin (nb I)) (Fin (nb I)) ℂ) :
    bilK I (t • X) Y = t * bilK I X Y := by
  simp only [bilK, Matrix.smul_apply, smul_eq_mul, mul_sum]
  refine sum_congr rfl fun p _ => sum_congr rfl fun r _ => sum_congr rfl fun q _ =>
    sum_congr rfl fun u _ => ?_
  ring

theorem localGeneric_bil (I : Inp) (G : Fin 2 → Matrix (Fin (nb I)) (Fin (nb I)) ℂ) :
    (Energy.localGeneric (kin I) (coulomb I) G 0).1 =
      Energy.dot2 (kin I 0) (G 0) + Energy.dot2 (kin I 1) (G 1) +
        (1 / 2) * (bilJ I (G 0 + G 1) (G 0 + G 1) - bilK I (G 0) (G 0) - bilK I (G 1) (G 1)) := by
  have h : (Energy.localGeneric (kin I) (coulomb I) G 0).1 =
      Energy.dot2 (kin I 0) (G 0) + Energy.dot2 (kin I 1) (G 1) +
        ((1 / 2) * (bilJ I (G 0) (G 0) - bilK I (G 0) (G 0)) + (1 / 2) * (bilJ I (G 1) (G 1) -
          bilK I (G 1) (G 1)) + (1 / 2) * bilJ I (G 0) (G 1) + (1 / 2) * bilJ I (G 1) (G 0)) + 0 := rfl
  rw [h, bilJ_add, bilJ_comm I (G 0) (G 0 + G 1), bilJ_comm I (G 1) (G 0 + G 1), bilJ_add, bilJ_add]
  ring

/-- The energy is a quadratic function of the Green's functions; `fockExact` is its derivative: the
energy of `G + t D` is the energy of `G` plus `t` times the contraction of the Fock matrices with `D`
plus a multiple of `t^2`. -/
theorem fockExact_derivative (I : Inp) (G D : Fin 2 → Matrix (Fin (nb I)) (Fin (nb I)) ℂ) :
    ∃ c : ℂ, ∀ t : ℂ, (Energy.localGeneric (kin I) (coulomb I) (fun s => G s + t • D s) 0).1 =
      (Energy.localGeneric (kin I) (coulomb I) G 0).1 +
        t * (∑ s, ∑ a, ∑ b, fockExact I G s a b * D s a b) + t ^ 2 * c := by
  refine ⟨(1 / 2) * (bilJ I (D 0 + D 1) (D 0 + D 1) - bilK I (D 0) (D 0) - bilK I (D 1) (D 1)), fun t => ?_⟩
  rw [localGeneric_bil, localGeneric_bil]
  have hG : G 0 + t • D 0 + (G 1 + t • D 1) = (G 0 + G 1) + t • (D 0 + D 1) := by
    rw [smul_add]; abel
  rw [hG]
  have hJ : ∀ X Y : Matrix (Fin (nb I)) (Fin (nb I)) ℂ, bilJ I (X + t • Y) (X + t • Y) =
      bilJ I X X + 2 * t * bilJ I Y X + t ^ 2 * bilJ I Y Y := by
    intro X Y
    rw [bilJ_add, bilJ_smul, bilJ_comm I X, bilJ_comm I Y (X + t • Y), bilJ_add, bilJ_smul, bilJ_add,
      bilJ_smul, bilJ_comm I X Y]
    ring
  have hK : ∀ X Y : Matrix (Fin (nb I)) (Fin (nb I)) ℂ, bilK I (X + t • Y) (X + t • Y) =
      bilK I X X + 2 * t * bilK I Y X + t ^ 2 * bilK I Y Y := by
    intro X Y
    rw [bilK_add, bilK_smul, bilK_comm I X, bilK_comm I Y (X + t • Y), bilK_add, bilK_smul, bilK_add,
      bilK_smul, bilK_comm I X Y]
    ring
  rw [hJ, hK, hK]
  have hF : ∀ s, ∑ a, ∑ b, fockExact I G s a b * D s a b =
      Energy.dot2 (kin I s) (D s) + bilJ I (D s) (G 0 + G 1) - bilK I (D s) (G s) := by
    intro s
    unfold fockExact Energy.dot2 bilJ bilK
    rw [← sum_add_distrib, ← sum_sub_distrib]
    refine sum_congr rfl fun a _ => ?_
    have hsw : ∑ r, ∑ q, ∑ u, coulomb I a r q u * D s a u * G s q r =
        ∑ b, ∑ r, ∑ q, coulomb I a r q b * D s a b * G s q r := by
      rw [sum_comm' (t := fun _ => univ) (t' := univ) (s' := fun _ => univ) (by simp)]
      rw [sum_congr rfl fun r _ => sum_comm]
      rw [sum_comm]
      refine sum_congr rfl fun b _ => ?_
      rw [sum_comm]
    rw [hsw, ← sum_add_distrib, ← sum_sub_distrib]
    refine sum_congr rfl fun b _ => ?_
    rw [sub_mul, add_mul, sum_mul, sum_mul]
    congr 1
    · congr 1
      refine sum_congr rfl fun q _ => ?_
      rw [sum_mul]
      refine sum_congr rfl fun u _ => ?_
      rw [Matrix.add_apply]; ring
    · refine sum_congr rfl fun r _ => ?_
      rw [sum_mul]
      refine sum_congr rfl fun q _ => ?_
      ring
  rw [Fin.sum_univ_two, hF, hF, bilJ_add I (D 0) (D 1) (G 0 + G 1)]
  have hd : ∀ s : Fin 2, Energy.dot2 (kin I s) (G s + t • D s) =
      Energy.dot2 (kin I s) (G s) + t * Energy.dot2 (kin I s) (D s) := by
    intro s
    unfold Energy.dot2
    rw [mul_sum, ← sum_add_distrib]
    refine sum_congr rfl fun a _ => ?_
    rw [mul_sum, ← sum_add_distrib]
    refine sum_congr rfl fun b _ => ?_
    rw [Matrix.add_apply, Matrix.smul_apply, smul_eq_mul]
    ring
  rw [hd, hd]
  ring

/-- The place of a vector in the basis. -/
theorem exists_bv (I : Inp) (v : Vec) (h : (1 / 2 : ℝ) * (nsq v : ℝ) ≤ I.ecut) : ∃ i, bv I i = v := by
  obtain ⟨j, hj, hjv⟩ := List.getElem_of_mem ((mem_basis I v).mpr h)
  exact ⟨⟨j, hj⟩, hjv⟩

/-- **C75 (finding)**: as soon as the basis has more than one shell there is a Hermitian density matrix
for which the Fock matrix of the code is not the derivative of the energy. -/
theorem fock_wrong (I : Inp) (hk : 0 < I.kfac) (hv : 0 < I.vol) (ht : I.twist = 0) (he : 1 / 2 ≤ I.ecut) :
    ∃ (G : Fin 2 → Matrix (Fin (nb I)) (Fin (nb I)) ℂ) (a b : Fin (nb I)),
      (∀ s, (G s).IsHermitian) ∧ fock I (nb I) G 0 a b ≠ fockExact I G 0 a b := by
  obtain ⟨a, ha⟩ := exists_bv I (1, 0, 0) (by norm_num [nsq]; linarith)
  obtain ⟨b, hb⟩ := exists_bv I 0 (by rw [nsq_zero]; push_cast; linarith)
  obtain ⟨c, hc⟩ := exists_bv I (-1, 0, 0) (by norm_num [nsq]; linarith)
  have hbc : b ≠ c := by
    intro h
    rw [h, hc] at hb
    exact absurd (congrArg Prod.fst hb) (by norm_num)
  have hba : b ≠ a := by
    intro h
    rw [h, ha] at hb
    exact absurd (congrArg Prod.fst hb) (by norm_num)
  set H : Matrix (Fin (nb I)) (Fin (nb I)) ℂ := Matrix.of fun i j =>
    if i = c ∧ j = b then Complex.I else if i = b ∧ j = c then -Complex.I else 0 with hH
  refine ⟨fun _ => H, a, b, fun _ => ?_, ?_⟩
  · ext i j
    show star (H j i) = H i j
    rw [hH, Matrix.of_apply, Matrix.of_apply]
    by_cases h1 : i = c ∧ j = b
    · obtain ⟨rfl, rfl⟩ := h1
      rw [if_neg fun h => hbc h.1, if_pos ⟨rfl, rfl⟩, if_pos ⟨rfl, rfl⟩]
      simp
    · by_cases h2 : i = b ∧ j = c
      · obtain ⟨rfl, rfl⟩ := h2
        rw [if_pos ⟨rfl, rfl⟩, if_neg h1, if_pos ⟨rfl, rfl⟩]
        simp
      · rw [if_neg fun h => h2 ⟨h.2, h.1⟩, if_neg fun h => h1 ⟨h.2, h.1⟩, if_neg h1, if_neg h2, star_zero]
  · rw [fock_eq I hk ht, ne_eq, add_eq_left]
    have hval : ∑ r, ∑ q, coulomb I a r q b * (H q r - H r q) = coulomb I a b c b * (2 * Complex.I) := by
      rw [sum_eq_single b]
      · rw [sum_eq_single c]
        · rw [hH, Matrix.of_apply, Matrix.of_apply, if_pos ⟨rfl, rfl⟩, if_neg fun h => hbc h.1,
            if_pos ⟨rfl, rfl⟩]
          ring
        · intro q _ hq
          rw [hH, Matrix.of_apply, Matrix.of_apply, if_neg fun h => hq h.1, if_neg fun h => hbc h.2,
            if_neg fun h => hbc h.1, if_neg fun h => hq h.2]
          ring
        · intro h; exact absurd (mem_univ _) h
      · intro r _ hr
        refine sum_eq_zero fun q _ => ?_
        by_cases h1 : r = c ∧ q = b
        · obtain ⟨rfl, rfl⟩ := h1
          have : coulomb I a r q q = 0 := by
            unfold coulomb
            rw [hijkl_eq, if_neg, Complex.ofReal_zero]
            rintro ⟨h2, h3⟩
            rw [sub_self, sub_eq_zero] at h3
            exact h2 ((bv_inj I).mp h3)
          rw [this, zero_mul]
        · rw [hH, Matrix.of_apply, Matrix.of_apply, if_neg fun h => hr h.2,
            if_neg fun h => h1 ⟨h.2, h.1⟩, if_neg h1, if_neg fun h => hr h.1]
          ring
      · intro h; exact absurd (mem_univ _) h
    rw [hval]
    refine mul_ne_zero ?_ (mul_ne_zero two_ne_zero Complex.I_ne_zero)
    unfold coulomb
    rw [hijkl_eq, if_pos ⟨hba, by rw [ha, hb, hc]; rfl⟩, Complex.ofReal_ne_zero]
    rw [ha, hb]
    have := Real.pi_pos
    unfold vq
    have h1 : nsq ((0 : Vec) - (1, 0, 0)) = 1 := by simp [nsq]
    rw [h1]
    positivity

/-- A gas with more than one plane wave to which all the theorems apply. -/
example : ∃ I : Inp, 0 < I.kfac ∧ 0 < I.vol ∧ I.twist = 0 ∧ 1 / 2 ≤ I.ecut ∧ 1 < nb I := by
  refine ⟨⟨1 / 2, 1, 1, 0⟩, by norm_num, by norm_num, rfl, le_refl _, ?_⟩
  obtain ⟨a, ha⟩ := exists_bv ⟨1 / 2, 1, 1, 0⟩ (1, 0, 0) (by norm_num [nsq])
  obtain ⟨b, hb⟩ := exists_bv ⟨1 / 2, 1, 1, 0⟩ 0 (by rw [nsq_zero]; norm_num)
  have hba : b ≠ a := by
    intro h
    rw [h, ha] at hb
    exact absurd (congrArg Prod.fst hb) (by norm_num)
  by_contra hc
  exact hba (Fin.ext (by omega))

end Verif.UEG
