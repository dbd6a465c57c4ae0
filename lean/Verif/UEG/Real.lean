import Verif.UEG.Integrals
import Mathlib.Analysis.SpecialFunctions.Complex.Circle
import Mathlib.LinearAlgebra.Matrix.ConjTranspose

/-!
# Real orbitals of the electron gas

Model of `compute_real_transformation` and `eri_8` of `pauxy/systems/ueg.py`: sums and differences of
the plane waves `k` and `-k`, and the two-electron integrals between them.  An assertion that fails is
`none`.  `1/sqrt(2)` is the exact number.
-/

namespace Verif.UEG

open Finset Matrix

/-- One assignment `U[i,j] = v`. -/
def assign {n : Nat} (U : Matrix (Fin n) (Fin n) ℂ) (i j : Fin n) (v : ℂ) : Matrix (Fin n) (Fin n) ℂ :=
  Matrix.of fun a b => if a = i ∧ b = j then v else U a b

/-- `1./numpy.sqrt(2.0)`. -/
noncomputable def rt : ℂ := ((1 / Real.sqrt 2 : ℝ) : ℂ)

/-- `numpy.argwhere(diff==0)`, ueg.py 471-473: the places of the basis at which `-b` stands. -/
noncomputable def oppositeOf (I : Inp) (i : Fin (nb I)) : List (Fin (nb I)) :=
  (List.finRange (nb I)).filter fun j => nsq (bv I j - -bv I i) = 0

/-- The body of the loop, ueg.py 467-482; the assertion of line 474 is `none`. -/
noncomputable def realStep (I : Inp) (U : Matrix (Fin (nb I)) (Fin (nb I)) ℂ) (i : Fin (nb I)) :
    Option (Matrix (Fin (nb I)) (Fin (nb I)) ℂ) :=
  if nsq (bv I i) = 0 then some (assign U i i 1)
  else match oppositeOf I i with
    | [j] =>
      if i < j then some (assign (assign (assign (assign U i i rt) i j rt) j i (-Complex.I * rt)) j j
        (Complex.I * rt))
      else some U
    | _ => none

/-- `compute_real_transformation`, ueg.py 458-485. -/
noncomputable def realTrans (I : Inp) : Option (Matrix (Fin (nb I)) (Fin (nb I)) ℂ) :=
  ((List.finRange (nb I)).foldlM (realStep I) 0).map Matrix.transpose

/-- The four contractions of `eri_8` before the real part is taken, ueg.py 500-503. -/
noncomputable def eri8c (I : Inp) (U : Matrix (Fin (nb I)) (Fin (nb I)) ℂ) (p q r t : Fin (nb I)) : ℂ :=
  ∑ s, U s t * ∑ l, star (U l r) * ∑ n, U n q * ∑ m, star (U m p) * (eri4 I m n l s : ℂ)

/-- `eri_8`, ueg.py 495-505. -/
noncomputable def eri8 (I : Inp) : Option (Fin (nb I) → Fin (nb I) → Fin (nb I) → Fin (nb I) → ℝ) :=
  (realTrans I).map fun U p q r t => (eri8c I U p q r t).re

/-! ## The matrix of the loop -/

/-- The basis holds `-k` with `k`. -/
theorem exists_opp (I : Inp) (i : Fin (nb I)) : ∃ j, bv I j = -bv I i := by
  refine exists_bv I _ ?_
  rw [nsq_neg]
  exact (mem_basis I _).mp (bv_mem I i)

/-- The place of `-k`. -/
noncomputable def opp (I : Inp) (i : Fin (nb I)) : Fin (nb I) := (exists_opp I i).choose

theorem bv_opp (I : Inp) (i : Fin (nb I)) : bv I (opp I i) = -bv I i := (exists_opp I i).choose_spec

theorem opp_opp (I : Inp) (i : Fin (nb I)) : opp I (opp I i) = i := by
  rw [← bv_inj, bv_opp, bv_opp, neg_neg]

theorem opp_involutive (I : Inp) : Function.Involutive (opp I) := opp_opp I

theorem neg_self {v : Vec} (h : -v = v) : v = 0 := by
  obtain ⟨a, b, c⟩ := v
  have h1 := congrArg Prod.fst h
  have h2 := congrArg (fun x => x.2.1) h
  have h3 := congrArg (fun x => x.2.2) h
  simp only [Prod.neg_mk] at h1 h2 h3
  have h1 : a = 0 := by omega
  have h2 : b = 0 := by omega
  have h3 : c = 0 := by omega
  subst h1; subst h2; subst h3; rfl

theorem opp_eq_iff (I : Inp) (i : Fin (nb I)) : opp I i = i ↔ nsq (bv I i) = 0 := by
  rw [← bv_inj, bv_opp]
  constructor
  · intro h; rw [neg_self h, nsq_zero]
  · intro h; rw [nsq_eq_zero h, neg_zero]

theorem oppositeOf_eq (I : Inp) (i : Fin (nb I)) : oppositeOf I i = [opp I i] := by
  unfold oppositeOf
  have hf : (fun j => decide (nsq (bv I j - -bv I i) = 0)) = fun j => j == opp I i := by
    funext j
    have : nsq (bv I j - -bv I i) = 0 ↔ j = opp I i := by
      constructor
      · intro h
        rw [← bv_inj, bv_opp]
        exact sub_eq_zero.mp (nsq_eq_zero h)
      · intro h
        rw [h, bv_opp, sub_self, nsq_zero]
    rw [beq_eq_decide]
    exact decide_eq_decide.mpr this
  rw [hf]
  have h1 : ((List.finRange (nb I)).filter fun j => j == opp I i) = [opp I i] := by
    rw [List.filter_beq, List.count_eq_one_of_mem (List.nodup_finRange _) (List.mem_finRange _)]
    rfl
  exact h1

open Classical in
/-- Row `a` of the matrix of the loop: weight of the plane wave itself and of its opposite. -/
noncomputable def own (I : Inp) (a : Fin (nb I)) : ℂ :=
  if opp I a = a then 1 else if a < opp I a then rt else Complex.I * rt

open Classical in
/-- Weight of the opposite plane wave. -/
noncomputable def other (I : Inp) (a : Fin (nb I)) : ℂ :=
  if opp I a = a then 0 else if a < opp I a then rt else -Complex.I * rt

/-- The entries of the returned matrix: column `p` is a combination of the plane waves `p` and `-p`. -/
noncomputable def entry (I : Inp) (m p : Fin (nb I)) : ℂ :=
  (if m = p then own I p else 0) + if m = opp I p then other I p else 0

theorem loop_prefix (I : Inp) : ∀ k, k ≤ nb I → ((List.finRange (nb I)).take k).foldlM (realStep I) 0 =
    some (Matrix.of fun a b => if a.val < k ∨ (opp I a).val < k then entry I b a else 0) := by
  intro k
  induction k with
  | zero =>
    intro _
    simp only [List.take_zero, List.foldlM_nil, Nat.not_lt_zero, or_self, if_false]
    rfl
  | succ k ih =>
    intro hk
    have hk' : k < nb I := hk
    have ht : (List.finRange (nb I)).take (k + 1) = (List.finRange (nb I)).take k ++ [⟨k, hk'⟩] := by
      rw [List.take_succ_eq_append_getElem (by simpa using hk')]
      simp
    rw [ht, List.foldlM_append, ih (by omega)]
    set i : Fin (nb I) := ⟨k, hk'⟩ with hi
    have hiv : i.val = k := rfl
    simp only [Option.bind_eq_bind, Option.bind_some, List.foldlM_cons, List.foldlM_nil]
    unfold realStep
    by_cases h0 : nsq (bv I i) = 0
    · have ho := (opp_eq_iff I i).mpr h0
      rw [if_pos h0]
      simp only [Option.pure_def, Option.bind_some, Option.some.injEq]
      ext a b
      unfold assign
      simp only [Matrix.of_apply]
      by_cases ha : a = i
      · subst ha
        rw [ho, hiv]
        simp only [true_and, lt_irrefl, or_self, if_false, lt_add_one, if_true]
        unfold entry own other
        rw [if_pos ho, if_pos ho]
        by_cases hb : b = i <;> simp [hb]
      · have hav : a.val ≠ k := fun h => ha (Fin.ext h)
        have hov : (opp I a).val ≠ k := by
          intro h
          have : opp I a = i := Fin.ext h
          exact ha (by rw [← opp_opp I a, this, ho])
        rw [if_neg fun h => ha h.1]
        refine if_congr ?_ rfl rfl
        omega
    · have ho : opp I i ≠ i := fun h => h0 ((opp_eq_iff I i).mp h)
      rw [if_neg h0, oppositeOf_eq]
      by_cases hlt : i < opp I i
      · simp only [if_pos hlt, Option.pure_def, Option.bind_some, Option.some.injEq]
        have hltv : k < (opp I i).val := hlt
        ext a b
        unfold assign
        simp only [Matrix.of_apply]
        by_cases ha : a = i
        · subst ha
          rw [hiv]
          have hoi : i ≠ opp I i := Ne.symm ho
          simp only [hoi, false_and, if_false, true_and, lt_irrefl, lt_add_one, true_or, if_true, false_or]
          rw [if_neg (by omega : ¬ (opp I i).val < k)]
          unfold entry own other
          rw [if_neg ho, if_neg ho, if_pos hlt, if_pos hlt]
          by_cases hb : b = i
          · subst hb
            simp [hoi]
          · by_cases hb2 : b = opp I i
            · simp [hb2, ho]
            · simp [hb, hb2]
        · by_cases ha2 : a = opp I i
          · have hoa : opp I a = i := by rw [ha2, opp_opp]
            have hai : ¬ a < opp I a := by rw [hoa, ha2]; exact not_lt.mpr hlt.le
            rw [← ha2]
            simp only [ha, false_and, if_false, true_and, hoa, hiv, lt_irrefl, lt_add_one, or_true, if_true,
              or_false]
            have hav : ¬ a.val < k := by rw [ha2]; omega
            rw [if_neg hav]
            have hoz : ¬ opp I a = a := by rw [hoa]; exact Ne.symm ha
            have e1 : own I a = Complex.I * rt := by unfold own; rw [if_neg hoz, if_neg hai]
            have e2 : other I a = -Complex.I * rt := by unfold other; rw [if_neg hoz, if_neg hai]
            unfold entry
            rw [e1, e2, hoa]
            by_cases hb : b = a
            · simp [hb, ha]
            · by_cases hb2 : b = i
              · simp [hb2, Ne.symm ha]
              · simp [hb, hb2]
          · have hav : a.val ≠ k := fun h => ha (Fin.ext h)
            have hov : (opp I a).val ≠ k := by
              intro h
              have : opp I a = i := Fin.ext h
              exact ha2 (by rw [← opp_opp I a, this])
            simp only [ha, ha2, false_and, if_false]
            refine if_congr ?_ rfl rfl
            omega
      · simp only [if_neg hlt, Option.pure_def, Option.bind_some, Option.some.injEq]
        have hov : (opp I i).val < k := by
          have h1 : (opp I i).val ≠ i.val := fun h => ho (Fin.ext h)
          have h2 : ¬ i.val < (opp I i).val := hlt
          omega
        ext a b
        simp only [Matrix.of_apply]
        refine if_congr ?_ rfl rfl
        constructor
        · intro h; omega
        · intro h
          by_cases ha : a = i
          · subst ha; exact Or.inr hov
          · have hav : a.val ≠ k := fun h => ha (Fin.ext h)
            by_cases ha2 : opp I a = i
            · left
              have : a = opp I i := by rw [← ha2, opp_opp]
              rw [this]; exact hov
            · have : (opp I a).val ≠ k := fun h => ha2 (Fin.ext h)
              omega

/-- The routine always succeeds, with every twist: column `p` holds `k_p` and `-k_p` only. -/
theorem realTrans_eq (I : Inp) : realTrans I = some (Matrix.of fun m p => entry I m p) := by
  have h := loop_prefix I (nb I) le_rfl
  rw [List.take_of_length_le (by simp)] at h
  unfold realTrans
  rw [h, Option.map_some]
  congr 1
  ext m p
  simp only [Matrix.transpose_apply, Matrix.of_apply]
  rw [if_pos (Or.inl p.isLt)]

theorem rt_sq : rt * rt = 1 / 2 := by
  unfold rt
  rw [← Complex.ofReal_mul]
  have : (1 / Real.sqrt 2) * (1 / Real.sqrt 2) = (1 / 2 : ℝ) := by
    rw [div_mul_div_comm, Real.mul_self_sqrt (by norm_num)]; norm_num
  rw [this]; push_cast; rfl

theorem star_rt : star rt = rt := Complex.conj_ofReal _

/-- The columns are real functions: the coefficient of `-k` is the conjugate of the one of `k`. -/
theorem entry_conj (I : Inp) (m p : Fin (nb I)) : star (entry I (opp I m) p) = entry I m p := by
  have h1 : opp I m = p ↔ m = opp I p := by
    constructor
    · intro h; rw [← h, opp_opp]
    · intro h; rw [h, opp_opp]
  have h2 : opp I m = opp I p ↔ m = p := (opp_involutive I).injective.eq_iff
  unfold entry
  simp only [h1, h2]
  rw [star_add]
  by_cases hz : opp I p = p
  · unfold own other
    rw [if_pos hz, if_pos hz, hz]
    by_cases hm : m = p <;> simp [hm]
  · have h3 : star (own I p) = other I p := by
      unfold own other
      rw [if_neg hz, if_neg hz]
      by_cases hl : p < opp I p
      · rw [if_pos hl, if_pos hl, star_rt]
      · rw [if_neg hl, if_neg hl, star_mul', star_rt]
        simp
    have h4 : star (other I p) = own I p := by rw [← h3, star_star]
    rw [add_comm]
    congr 1
    · by_cases hm : m = p <;> simp [hm, h4]
    · by_cases hm : m = opp I p <;> simp [hm, h3]

theorem sum_entry (I : Inp) (p : Fin (nb I)) (f : Fin (nb I) → ℂ) :
    ∑ m, f m * entry I m p = f p * own I p + f (opp I p) * other I p := by
  unfold entry
  simp only [mul_add, mul_ite, mul_zero, sum_add_distrib, sum_ite_eq', mem_univ, if_true]

theorem own_sq (I : Inp) (p : Fin (nb I)) : star (own I p) * own I p + star (other I p) * other I p = 1 := by
  have h := rt_sq
  unfold own other
  split_ifs
  · simp
  · rw [star_rt, h]; norm_num
  · rw [star_mul', star_mul', star_rt, star_neg, Complex.star_def, Complex.conj_I]
    linear_combination 2 * h - 2 * rt * rt * (Complex.I_sq)

theorem own_other (I : Inp) (p : Fin (nb I)) (hp : opp I p ≠ p) :
    star (own I p) * other I (opp I p) + star (other I p) * own I (opp I p) = 0 := by
  unfold own other
  rw [opp_opp, if_neg hp, if_neg hp, if_neg (Ne.symm hp), if_neg (Ne.symm hp)]
  by_cases h : p < opp I p
  · rw [if_pos h, if_pos h, if_neg (not_lt.mpr h.le), if_neg (not_lt.mpr h.le), star_rt]; ring
  · have h' : opp I p < p := lt_of_le_of_ne (not_lt.mp h) hp
    rw [if_neg h, if_neg h, if_pos h', if_pos h', star_mul', star_mul', star_rt, star_neg]; ring

/-- **C117**: the matrix is unitary. -/
theorem realTrans_unitary (I : Inp) (U : Matrix (Fin (nb I)) (Fin (nb I)) ℂ) (h : realTrans I = some U) :
    Uᴴ * U = 1 ∧ U * Uᴴ = 1 := by
  rw [realTrans_eq, Option.some.injEq] at h
  have h1 : Uᴴ * U = 1 := by
    ext p q
    rw [Matrix.mul_apply, ← h]
    simp only [Matrix.conjTranspose_apply, Matrix.of_apply]
    rw [sum_entry I q fun m => star (entry I m p)]
    have hpq : opp I q = p ↔ q = opp I p := by
      constructor
      · intro h; rw [← h, opp_opp]
      · intro h; rw [h, opp_opp]
    have hoo : opp I q = opp I p ↔ q = p := (opp_involutive I).injective.eq_iff
    unfold entry
    simp only [hpq, hoo]
    by_cases h1 : q = p
    · subst h1
      rw [Matrix.one_apply_eq]
      by_cases hz : opp I q = q
      · rw [if_pos rfl, if_pos (hz.symm), if_pos hz.symm, if_pos rfl]
        unfold own other
        rw [if_pos hz, if_pos hz]; simp
      · rw [if_pos rfl, if_neg (Ne.symm hz), if_neg (Ne.symm hz), if_pos rfl, add_zero, zero_add]
        exact own_sq I q
    · rw [Matrix.one_apply_ne (Ne.symm h1), if_neg h1, if_neg h1, zero_add, add_zero]
      by_cases h2 : q = opp I p
      · subst h2
        rw [if_pos rfl, if_pos rfl]
        rw [add_comm]
        have h3 := own_other I p h1
        linear_combination h3
      · rw [if_neg h2, if_neg h2]; simp
  exact ⟨h1, mul_eq_one_comm.mp h1⟩

/-- **C117**: every new orbital is a real function: its value at every point `x` of the box (`k . x` with
the unit of momentum in `x`) is its own conjugate. -/
theorem realTrans_real (I : Inp) (U : Matrix (Fin (nb I)) (Fin (nb I)) ℂ) (h : realTrans I = some U)
    (p : Fin (nb I)) (x : ℝ × ℝ × ℝ) :
    (∑ m, U m p * Complex.exp (Complex.I *
      (((bv I m).1 * x.1 + (bv I m).2.1 * x.2.1 + (bv I m).2.2 * x.2.2 : ℝ) : ℂ))).im = 0 := by
  rw [realTrans_eq, Option.some.injEq] at h
  subst h
  rw [← Complex.conj_eq_iff_im, map_sum]
  refine Fintype.sum_equiv (opp_involutive I).toPerm _ _ fun m => ?_
  rw [map_mul, Function.Involutive.coe_toPerm, bv_opp]
  simp only [Matrix.of_apply]
  rw [← Complex.exp_conj, map_mul, Complex.conj_I, Complex.conj_ofReal]
  have h1 : (starRingEnd ℂ) (entry I m p) = entry I (opp I m) p := by
    rw [← entry_conj I (opp I m), opp_opp]; rfl
  rw [h1]
  congr 2
  simp only [Prod.fst_neg, Prod.snd_neg]
  push_cast
  ring

/-! ## The integrals -/

theorem eri4_neg (I : Inp) (hk : 0 < I.kfac) (hv : 0 < I.vol) (ht : I.twist = 0)
    (m n l s : Fin (nb I)) : eri4 I (opp I m) (opp I n) l s = eri4 I n m l s := by
  rw [eri4_eq I hk hv ht, eri4_eq I hk hv ht, hijkl_eq, hijkl_eq]
  have h1 : bv I (opp I n) - bv I (opp I m) = bv I m - bv I n := by rw [bv_opp, bv_opp]; abel
  rw [h1]
  refine if_congr (and_congr ?_ Iff.rfl) rfl rfl
  rw [ne_eq, ne_eq, (opp_involutive I).injective.eq_iff, eq_comm]

theorem eri4_pairs (I : Inp) (hk : 0 < I.kfac) (hv : 0 < I.vol) (ht : I.twist = 0)
    (m n l s : Fin (nb I)) : eri4 I l s m n = eri4 I m n l s := by
  have := coulomb_swap I m n l s
  unfold coulomb at this
  rw [eri4_eq I hk hv ht, eri4_eq I hk hv ht]
  exact_mod_cast this

/-- The four contractions as one sum. -/
theorem eri8c_flat (I : Inp) (U : Matrix (Fin (nb I)) (Fin (nb I)) ℂ) (p q r t : Fin (nb I)) :
    eri8c I U p q r t = ∑ m, ∑ n, ∑ l, ∑ s, star (U m p) * U n q * star (U l r) * U s t * (eri4 I m n l s : ℂ) := by
  unfold eri8c
  simp only [mul_sum]
  rw [sum_comm]
  have h : ∀ l, ∑ s, ∑ n, ∑ m, U s t * (star (U l r) * (U n q * (star (U m p) * (eri4 I m n l s : ℂ)))) =
      ∑ m, ∑ n, ∑ s, star (U m p) * U n q * star (U l r) * U s t * (eri4 I m n l s : ℂ) := by
    intro l
    rw [sum_comm]
    rw [show (∑ n, ∑ s, ∑ m, U s t * (star (U l r) * (U n q * (star (U m p) * (eri4 I m n l s : ℂ))))) =
      ∑ n, ∑ m, ∑ s, U s t * (star (U l r) * (U n q * (star (U m p) * (eri4 I m n l s : ℂ)))) from
      sum_congr rfl fun n _ => sum_comm]
    rw [sum_comm]
    refine sum_congr rfl fun m _ => sum_congr rfl fun n _ => sum_congr rfl fun s _ => ?_
    ring
  simp only [h]
  rw [sum_comm]
  refine sum_congr rfl fun m _ => ?_
  rw [sum_comm]

/-- The sum over plane waves may run over the opposite ones. -/
theorem sum_opp (I : Inp) (f : Fin (nb I) → ℂ) : ∑ m, f (opp I m) = ∑ m, f m :=
  Fintype.sum_equiv (opp_involutive I).toPerm _ _ fun _ => rfl

theorem conj_U (I : Inp) (U : Matrix (Fin (nb I)) (Fin (nb I)) ℂ) (h : realTrans I = some U) (m p : Fin (nb I)) :
    star (U (opp I m) p) = U m p := by
  rw [realTrans_eq, Option.some.injEq] at h
  subst h
  exact entry_conj I m p

/-- Exchange of the two orbitals of the first density. -/
theorem eri8c_swap (I : Inp) (hk : 0 < I.kfac) (hv : 0 < I.vol) (ht : I.twist = 0)
    (U : Matrix (Fin (nb I)) (Fin (nb I)) ℂ) (h : realTrans I = some U) (p q r t : Fin (nb I)) :
    eri8c I U q p r t = eri8c I U p q r t := by
  rw [eri8c_flat, eri8c_flat]
  rw [← sum_opp]
  rw [sum_congr rfl fun m _ => (sum_opp I _).symm, sum_comm]
  refine sum_congr rfl fun m _ => sum_congr rfl fun n _ => sum_congr rfl fun l _ => sum_congr rfl fun s _ => ?_
  have h1 : U (opp I m) p = star (U m p) := by rw [← conj_U I U h (opp I m), opp_opp]
  rw [conj_U I U h, h1, eri4_neg I hk hv ht]
  ring

/-- Exchange of the two densities. -/
theorem eri8c_pairs (I : Inp) (hk : 0 < I.kfac) (hv : 0 < I.vol) (ht : I.twist = 0)
    (U : Matrix (Fin (nb I)) (Fin (nb I)) ℂ) (p q r t : Fin (nb I)) :
    eri8c I U r t p q = eri8c I U p q r t := by
  rw [eri8c_flat, eri8c_flat]
  rw [show (∑ m, ∑ n, ∑ l, ∑ s, star (U m r) * U n t * star (U l p) * U s q * (eri4 I m n l s : ℂ)) =
    ∑ m, ∑ l, ∑ n, ∑ s, star (U m r) * U n t * star (U l p) * U s q * (eri4 I m n l s : ℂ) from
    sum_congr rfl fun m _ => sum_comm]
  rw [sum_comm]
  refine sum_congr rfl fun l _ => ?_
  rw [show (∑ m, ∑ n, ∑ s, star (U m r) * U n t * star (U l p) * U s q * (eri4 I m n l s : ℂ)) =
    ∑ m, ∑ s, ∑ n, star (U m r) * U n t * star (U l p) * U s q * (eri4 I m n l s : ℂ) from
    sum_congr rfl fun m _ => sum_comm]
  rw [sum_comm]
  refine sum_congr rfl fun s _ => sum_congr rfl fun m _ => sum_congr rfl fun n _ => ?_
  rw [eri4_pairs I hk hv ht l s m n]
  ring

/-- **C117**: taking the real part discards nothing. -/
theorem eri8c_real (I : Inp) (hk : 0 < I.kfac) (hv : 0 < I.vol) (ht : I.twist = 0)
    (U : Matrix (Fin (nb I)) (Fin (nb I)) ℂ) (h : realTrans I = some U) (p q r t : Fin (nb I)) :
    (eri8c I U p q r t).im = 0 := by
  rw [← Complex.conj_eq_iff_im]
  have h1 : (starRingEnd ℂ) (eri8c I U p q r t) = eri8c I U q p t r := by
    rw [eri8c_flat, eri8c_flat]
    simp only [map_sum, map_mul, Complex.conj_ofReal]
    rw [sum_comm]
    refine sum_congr rfl fun n _ => sum_congr rfl fun m _ => ?_
    rw [sum_comm]
    refine sum_congr rfl fun s _ => sum_congr rfl fun l _ => ?_
    have hsym : eri4 I m n l s = eri4 I n m s l := by
      rw [eri4_eq I hk hv ht, eri4_eq I hk hv ht, hijkl_swap]
    rw [hsym]
    simp only [Complex.star_def, Complex.conj_conj]
    ring
  rw [h1, eri8c_swap I hk hv ht U h, ← eri8c_pairs I hk hv ht, eri8c_swap I hk hv ht U h, eri8c_pairs I hk hv ht]

/-- **C117 (symmetries)**: `eri_8` returns integrals with all eight permutational symmetries. -/
theorem eri8_symmetric (I : Inp) (hk : 0 < I.kfac) (hv : 0 < I.vol) (ht : I.twist = 0) :
    ∃ v, eri8 I = some v ∧ ∀ p q r t, v q p r t = v p q r t ∧ v p q t r = v p q r t ∧ v r t p q = v p q r t := by
  refine ⟨_, by unfold eri8; rw [realTrans_eq, Option.map_some], fun p q r t => ?_⟩
  have h := realTrans_eq I
  refine ⟨?_, ?_, ?_⟩
  · rw [eri8c_swap I hk hv ht _ h]
  · rw [← eri8c_pairs I hk hv ht, eri8c_swap I hk hv ht _ h, eri8c_pairs I hk hv ht]
  · rw [eri8c_pairs I hk hv ht]

/-! ## The Hamiltonian in the real orbitals -/

variable {A : Type} [Ring A] [Algebra ℂ A]

/-- One index: the transformation of the integrals and the one of the operators cancel. -/
theorem cancel_index {n : Nat} (U : Matrix (Fin n) (Fin n) ℂ) (hU : U * Uᴴ = 1) (f : Fin n → ℂ)
    (g : Fin n → A) :
    ∑ p, (∑ m, U m p * f m) • (∑ m, star (U m p) • g m) = ∑ m, f m • g m := by
  have h : ∀ m m', ∑ p, U m p * star (U m' p) = if m = m' then 1 else 0 := by
    intro m m'
    have := congrFun (congrFun hU m) m'
    rw [Matrix.mul_apply, Matrix.one_apply] at this
    simpa only [Matrix.conjTranspose_apply] using this
  have h2 : ∀ p, (∑ m, U m p * f m) • (∑ m, star (U m p) • g m) =
      ∑ m, ∑ m', (U m p * star (U m' p)) • (f m • g m') := by
    intro p
    rw [sum_smul]
    refine sum_congr rfl fun m _ => ?_
    rw [smul_sum]
    refine sum_congr rfl fun m' _ => ?_
    rw [smul_smul, smul_smul]
    congr 1
    ring
  simp only [h2]
  rw [sum_comm]
  refine sum_congr rfl fun m _ => ?_
  rw [sum_comm]
  have h3 : ∀ m', ∑ p, (U m p * star (U m' p)) • (f m • g m') = if m = m' then f m • g m' else 0 := by
    intro m'
    rw [← sum_smul, h]
    split_ifs <;> simp
  simp only [h3, sum_ite_eq, mem_univ, if_true]

theorem cancel_index' {n : Nat} (U : Matrix (Fin n) (Fin n) ℂ) (hU : U * Uᴴ = 1) (f : Fin n → ℂ)
    (g : Fin n → A) :
    ∑ p, (∑ m, star (U m p) * f m) • (∑ m, U m p • g m) = ∑ m, f m • g m := by
  have hV : (U.map star) * (U.map star)ᴴ = 1 := by
    have h1 : (U.map star) * (U.map star)ᴴ = (U * Uᴴ).map star := by
      ext i j
      rw [Matrix.mul_apply, Matrix.map_apply, Matrix.mul_apply, star_sum]
      refine sum_congr rfl fun k _ => ?_
      simp only [Matrix.conjTranspose_apply, Matrix.map_apply, star_mul', star_star]
    rw [h1, hU]
    ext i j
    simp [Matrix.one_apply, apply_ite]
  have := cancel_index (U.map star) hV f g
  simpa only [Matrix.map_apply, star_star] using this

/-- The operator `c†_p c_q` between the new orbitals: orbital `p` is `sum_m U_mp |k_m>`. -/
noncomputable def newOp {n : Nat} (U : Matrix (Fin n) (Fin n) ℂ) (E : Fin n → Fin n → A) (p q : Fin n) : A :=
  ∑ m, ∑ k, (U m p * star (U k q)) • E m k

theorem newOp_nest {n : Nat} (U : Matrix (Fin n) (Fin n) ℂ) (E : Fin n → Fin n → A) (p q : Fin n) :
    newOp U E p q = ∑ k, star (U k q) • ∑ m, U m p • E m k := by
  unfold newOp
  rw [sum_comm]
  refine sum_congr rfl fun k _ => ?_
  rw [smul_sum]
  refine sum_congr rfl fun m _ => ?_
  rw [smul_smul, mul_comm]

/-- All four indices of a two-body operator. -/
theorem cancel_four (I : Inp) (U : Matrix (Fin (nb I)) (Fin (nb I)) ℂ) (hU : U * Uᴴ = 1)
    (g : Fin (nb I) → Fin (nb I) → Fin (nb I) → Fin (nb I) → A) :
    ∑ p, ∑ q, ∑ r, ∑ t, eri8c I U p q r t •
      (∑ s, star (U s t) • ∑ l, U l r • ∑ n, star (U n q) • ∑ m, U m p • g m n l s) =
    ∑ m, ∑ n, ∑ l, ∑ s, (eri4 I m n l s : ℂ) • g m n l s := by
  unfold eri8c
  simp only [cancel_index U hU]
  have h1 : ∀ p q, ∑ r, ∑ s, (∑ l, star (U l r) * ∑ n, U n q * ∑ m, star (U m p) * (eri4 I m n l s : ℂ)) •
      (∑ l, U l r • ∑ n, star (U n q) • ∑ m, U m p • g m n l s) =
      ∑ s, ∑ l, (∑ n, U n q * ∑ m, star (U m p) * (eri4 I m n l s : ℂ)) •
        (∑ n, star (U n q) • ∑ m, U m p • g m n l s) := by
    intro p q
    rw [sum_comm]
    exact sum_congr rfl fun s _ => cancel_index' U hU _ _
  simp only [h1]
  have h2 : ∀ p, ∑ q, ∑ s, ∑ l, (∑ n, U n q * ∑ m, star (U m p) * (eri4 I m n l s : ℂ)) •
        (∑ n, star (U n q) • ∑ m, U m p • g m n l s) =
      ∑ s, ∑ l, ∑ n, (∑ m, star (U m p) * (eri4 I m n l s : ℂ)) • (∑ m, U m p • g m n l s) := by
    intro p
    rw [sum_comm]
    refine sum_congr rfl fun s _ => ?_
    rw [sum_comm]
    exact sum_congr rfl fun l _ => cancel_index U hU _ _
  simp only [h2]
  have h3 : ∑ p, ∑ s, ∑ l, ∑ n, (∑ m, star (U m p) * (eri4 I m n l s : ℂ)) • (∑ m, U m p • g m n l s) =
      ∑ s, ∑ l, ∑ n, ∑ m, (eri4 I m n l s : ℂ) • g m n l s := by
    rw [sum_comm]
    refine sum_congr rfl fun s _ => ?_
    rw [sum_comm]
    refine sum_congr rfl fun l _ => ?_
    rw [sum_comm]
    exact sum_congr rfl fun n _ => cancel_index' U hU _ _
  rw [h3]
  rw [show (∑ s, ∑ l, ∑ n, ∑ m, (eri4 I m n l s : ℂ) • g m n l s) =
    ∑ s, ∑ l, ∑ m, ∑ n, (eri4 I m n l s : ℂ) • g m n l s from
    sum_congr rfl fun s _ => sum_congr rfl fun l _ => sum_comm]
  rw [show (∑ s, ∑ l, ∑ m, ∑ n, (eri4 I m n l s : ℂ) • g m n l s) =
    ∑ s, ∑ m, ∑ l, ∑ n, (eri4 I m n l s : ℂ) • g m n l s from
    sum_congr rfl fun s _ => sum_comm]
  rw [sum_comm]
  refine sum_congr rfl fun m _ => ?_
  rw [show (∑ s, ∑ l, ∑ n, (eri4 I m n l s : ℂ) • g m n l s) =
    ∑ s, ∑ n, ∑ l, (eri4 I m n l s : ℂ) • g m n l s from sum_congr rfl fun s _ => sum_comm]
  rw [sum_comm]
  refine sum_congr rfl fun n _ => ?_
  rw [sum_comm]

/-- The products of operators between new orbitals are the transformed products. -/
theorem newOp_mul {n : Nat} (U : Matrix (Fin n) (Fin n) ℂ) (hU : Uᴴ * U = 1) (E : Fin n → Fin n → A)
    (p q r t : Fin n) :
    newOp U E p q * newOp U E r t - (if q = r then newOp U E p t else 0) =
      ∑ s, star (U s t) • ∑ l, U l r • ∑ k, star (U k q) • ∑ m, U m p •
        (E m k * E l s - if k = l then E m s else 0) := by
  have h1 : ∑ s, star (U s t) • ∑ l, U l r • ∑ k, star (U k q) • ∑ m, U m p • (E m k * E l s) =
      newOp U E p q * newOp U E r t := by
    rw [newOp_nest U E r t, newOp_nest U E p q, mul_sum]
    refine sum_congr rfl fun s _ => ?_
    rw [mul_smul_comm]
    congr 1
    rw [mul_sum]
    refine sum_congr rfl fun l _ => ?_
    rw [mul_smul_comm]
    congr 1
    rw [sum_mul]
    refine sum_congr rfl fun k _ => ?_
    rw [smul_mul_assoc]
    congr 1
    rw [sum_mul]
    refine sum_congr rfl fun m _ => ?_
    rw [smul_mul_assoc]
  have h2 : ∑ s, star (U s t) • ∑ l, U l r • ∑ k, star (U k q) • ∑ m, U m p • (if k = l then E m s else 0) =
      if q = r then newOp U E p t else 0 := by
    have h3 : ∀ s, ∑ l, U l r • ∑ k, star (U k q) • ∑ m, U m p • (if k = l then E m s else (0 : A)) =
        (if q = r then (1 : ℂ) else 0) • ∑ m, U m p • E m s := by
      intro s
      have h4 : ∀ l, ∑ k, star (U k q) • ∑ m, U m p • (if k = l then E m s else (0 : A)) =
          star (U l q) • ∑ m, U m p • E m s := by
        intro l
        rw [sum_eq_single l]
        · simp
        · intro k _ hk
          simp [hk]
        · intro h; exact absurd (mem_univ _) h
      simp only [h4, smul_smul]
      rw [← sum_smul]
      congr 1
      have := congrFun (congrFun hU q) r
      rw [Matrix.mul_apply, Matrix.one_apply] at this
      rw [← this]
      refine sum_congr rfl fun l _ => ?_
      rw [Matrix.conjTranspose_apply, mul_comm]
    simp only [h3]
    rw [newOp_nest]
    split_ifs
    · simp
    · simp
  rw [← h1, ← h2]
  simp only [smul_sub, sum_sub_distrib]

/-- Without twist the kinetic energy keeps its matrix in the real orbitals. -/
theorem kinetic_new (I : Inp) (ht : I.twist = 0) (U : Matrix (Fin (nb I)) (Fin (nb I)) ℂ) (h : realTrans I = some U)
    (E : Fin (nb I) → Fin (nb I) → A) :
    ∑ p, (energy I (bv I p) : ℂ) • newOp U E p p = ∑ i, (energy I (bv I i) : ℂ) • E i i := by
  have hU := (realTrans_unitary I U h).2
  have hcol : ∀ m k, ∑ p, (energy I (bv I p) : ℂ) * (U m p * star (U k p)) =
      (energy I (bv I m) : ℂ) * if m = k then 1 else 0 := by
    intro m k
    have h1 := congrFun (congrFun hU m) k
    rw [Matrix.mul_apply, Matrix.one_apply] at h1
    rw [← h1, mul_sum]
    refine sum_congr rfl fun p _ => ?_
    rw [Matrix.conjTranspose_apply]
    by_cases hz : U m p = 0
    · rw [hz]; ring
    · congr 2
      rw [realTrans_eq, Option.some.injEq] at h
      rw [← h] at hz
      simp only [Matrix.of_apply] at hz
      unfold entry at hz
      by_cases h2 : m = p
      · rw [h2]
      · by_cases h3 : m = opp I p
        · rw [h3, bv_opp, energy_untwisted I ht, energy_untwisted I ht, nsq_neg]
        · rw [if_neg h2, if_neg h3, add_zero] at hz
          exact absurd rfl hz
  unfold newOp
  simp only [smul_sum, smul_smul]
  rw [sum_comm]
  refine sum_congr rfl fun m _ => ?_
  rw [sum_comm]
  have h4 : ∀ k, ∑ p, ((energy I (bv I p) : ℂ) * (U m p * star (U k p))) • E m k =
      if m = k then (energy I (bv I m) : ℂ) • E m k else 0 := by
    intro k
    rw [← sum_smul, hcol]
    split_ifs <;> simp
  simp only [h4, sum_ite_eq, mem_univ, if_true]

/-- **C117 (Hamiltonian)**: the plane-wave one-body matrix with the integrals of `eri_8`, read as integrals
between the real orbitals, is the Hamiltonian of the electron gas. -/
theorem eri8_hamiltonian (I : Inp) (hk : 0 < I.kfac) (hv : 0 < I.vol) (ht : I.twist = 0)
    (E : Fin (nb I) → Fin (nb I) → A) :
    ∃ U v, realTrans I = some U ∧ eri8 I = some v ∧
      ∑ p, (energy I (bv I p) : ℂ) • newOp U E p p + (1 / 2 : ℂ) • ∑ p, ∑ q, ∑ r, ∑ t,
          (v p q r t : ℂ) • (newOp U E p q * newOp U E r t - if q = r then newOp U E p t else 0) =
        ∑ i, (energy I (bv I i) : ℂ) • E i i + (1 / 2 : ℂ) • ∑ p, ∑ r, ∑ q, ∑ s,
          (hijkl I p q r s : ℂ) • (E p r * E q s - if r = q then E p s else 0) := by
  have h := realTrans_eq I
  set U : Matrix (Fin (nb I)) (Fin (nb I)) ℂ := Matrix.of fun m p => entry I m p with hUd
  obtain ⟨hU1, hU2⟩ := realTrans_unitary I U h
  refine ⟨U, _, h, by unfold eri8; rw [h, Option.map_some], ?_⟩
  rw [kinetic_new I ht U h]
  congr 2
  have hre : ∀ p q r t, (((eri8c I U p q r t).re : ℝ) : ℂ) = eri8c I U p q r t := by
    intro p q r t
    refine Complex.ext (by simp) ?_
    rw [eri8c_real I hk hv ht U h]; simp
  simp only [hre, newOp_mul U hU1]
  rw [cancel_four I U hU2 fun m n l s => E m n * E l s - if n = l then E m s else 0]
  simp only [eri4_eq I hk hv ht]

/-- With different energies of `k` and `-k`, as a twist makes them, the kinetic energy between the two real
orbitals of the pair is imaginary, so that no real matrix stands beside the integrals. -/
theorem kinetic_twist (I : Inp) (U : Matrix (Fin (nb I)) (Fin (nb I)) ℂ) (h : realTrans I = some U)
    (p : Fin (nb I)) (hp : p < opp I p) :
    (Uᴴ * Matrix.diagonal (fun i => (energy I (bv I i) : ℂ)) * U) p (opp I p) =
      ((1 / 2 : ℝ) * (energy I (-bv I p) - energy I (bv I p)) : ℝ) * Complex.I := by
  rw [realTrans_eq, Option.some.injEq] at h
  have hne : opp I p ≠ p := ne_of_gt hp
  rw [Matrix.mul_apply]
  simp only [Matrix.mul_diagonal, Matrix.conjTranspose_apply, ← h, Matrix.of_apply]
  rw [sum_entry I (opp I p) fun m => star (entry I m p) * (energy I (bv I m) : ℂ), opp_opp]
  unfold entry own other
  rw [opp_opp, if_neg hne, if_neg hne, if_neg (Ne.symm hne), if_neg (Ne.symm hne), if_pos hp, if_pos hp,
    if_neg (not_lt.mpr hp.le), if_neg (not_lt.mpr hp.le), if_neg hne, if_pos rfl, if_pos rfl, if_neg (Ne.symm hne),
    bv_opp, zero_add, add_zero, star_rt]
  push_cast
  linear_combination ((energy I (-bv I p) : ℂ) - (energy I (bv I p) : ℂ)) * Complex.I * rt_sq

/-- A gas with a twist. -/
noncomputable def twisted : Inp := ⟨1 / 2, 1, 1, (1 / 4, 0, 0)⟩

/-- The constructor accepts this gas. -/
theorem twisted_setup : SetupOk twisted := by
  intro i k h
  have hm : k ∈ basis twisted := List.mem_of_getElem? h
  have hne : basis twisted ≠ [] := by intro h0; rw [h0] at hm; cases hm
  refine (lookup_of_le twisted (List.getLast?_eq_some_getLast hne) ?_ i).mpr h
  have hle : ∀ v ∈ basis twisted, energy twisted v ≤ energy twisted ((basis twisted).getLast hne) := by
    intro v hv
    have hp' : (basis twisted).Pairwise (fun a b => energy twisted a ≤ energy twisted b) :=
      sorted_pairwise twisted twisted.ecut
    rw [← List.dropLast_append_getLast hne] at hv
    rw [← List.dropLast_append_getLast hne, List.pairwise_append] at hp'
    rcases List.mem_append.mp hv with h1 | h1
    · exact hp'.2.2 v h1 _ (List.mem_singleton.mpr rfl)
    · rw [List.mem_singleton.mp h1]
  have hk : nsq k ≤ 1 := by
    have h1 : (1 / 2 : ℝ) * (nsq k : ℝ) ≤ 1 / 2 := (mem_basis twisted k).mp hm
    have h2 : (nsq k : ℝ) ≤ 1 := by linarith
    exact_mod_cast h2
  refine hk.trans ?_
  by_contra hc
  have h0 : nsq ((basis twisted).getLast hne) = 0 := by
    have := nsq_nonneg ((basis twisted).getLast hne)
    omega
  have h3 := hle (1, 0, 0) ((mem_basis twisted _).mpr (by norm_num [nsq, twisted]))
  rw [nsq_eq_zero h0] at h3
  norm_num [energy, twisted] at h3

/-- **C117 (finding)**: with a twist, which the constructor accepts, the matrix of the kinetic energy between the
orbitals of `compute_real_transformation` is not real. -/
theorem twist_not_real : SetupOk twisted ∧ ∃ U p q, realTrans twisted = some U ∧
    ((Uᴴ * Matrix.diagonal (fun i => (energy twisted (bv twisted i) : ℂ)) * U) p q).im ≠ 0 := by
  refine ⟨twisted_setup, ?_⟩
  obtain ⟨a, ha⟩ := exists_bv twisted (1, 0, 0) (by norm_num [nsq, twisted])
  have hne : opp _ a ≠ a := by
    intro h
    have := (opp_eq_iff _ a).mp h
    rw [ha] at this
    norm_num [nsq] at this
  have hd : energy twisted (-(1, 0, 0)) - energy twisted (1, 0, 0) ≠ 0 := by
    norm_num [energy, twisted]
  rcases lt_or_gt_of_ne hne with h | h
  · refine ⟨_, opp _ a, a, realTrans_eq _, ?_⟩
    have := kinetic_twist twisted _ (realTrans_eq _) (opp _ a) (by rw [opp_opp]; exact h)
    rw [opp_opp] at this
    rw [this, bv_opp, ha, neg_neg]
    simp only [Complex.re_ofReal_mul, Complex.im_ofReal_mul, Complex.I_im, mul_one]
    intro h4
    apply hd
    linarith
  · refine ⟨_, a, opp _ a, realTrans_eq _, ?_⟩
    rw [kinetic_twist twisted _ (realTrans_eq _) a h, ha]
    simp only [Complex.im_ofReal_mul, Complex.I_im, mul_one]
    intro h4
    apply hd
    linarith

/-- A gas to which the theorems apply, with a pair of plane waves that is combined; a twist splits it. -/
example : ∃ I : Inp, 0 < I.kfac ∧ 0 < I.vol ∧ I.twist = 0 ∧ ∃ p : Fin (nb I), p < opp I p := by
  refine ⟨⟨1 / 2, 1, 1, 0⟩, by norm_num, by norm_num, rfl, ?_⟩
  obtain ⟨a, ha⟩ := exists_bv ⟨1 / 2, 1, 1, 0⟩ (1, 0, 0) (by norm_num [nsq])
  have hne : opp _ a ≠ a := by
    intro h
    have := (opp_eq_iff _ a).mp h
    rw [ha] at this
    norm_num [nsq] at this
  rcases lt_or_gt_of_ne hne with h | h
  · exact ⟨opp _ a, by rw [opp_opp]; exact h⟩
  · exact ⟨a, h⟩

end Verif.UEG
