import Verif.PWFFT.Geometry
import Verif.Energy.Model
import Mathlib.Tactic.Ring
import Mathlib.Tactic.LinearCombination

/-!
# The energy in plane waves by Fourier transforms is the energy with the Coulomb integrals (C92)
-/

namespace Verif.PWFFT

open Finset
open Verif.UEG (Vec nsq Inp energy)

/-! ## Basis and momentum transfers -/

theorem pv_eq (I : Inp) (a : Fin (nb I)) : pv I a = vecAt (M I) (gmap I)[a] := kall_getD (gmapOf_lt a)

theorem qv_eq (I : Inp) (q : Fin (nq I)) : qv I q = vecAt (2 * M I) (qmap I)[q] := kall_getD (gmapOf_lt q)

theorem pv_inj (I : Inp) {a b : Fin (nb I)} : pv I a = pv I b ↔ a = b := by
  rw [pv_eq, pv_eq, vecAt_inj]
  exact ⟨fun h => Fin.ext ((List.Nodup.getElem_inj_iff (nodup_gmapOf _ _)).1 h), fun h => h ▸ rfl⟩

theorem qv_inj (I : Inp) {a b : Fin (nq I)} : qv I a = qv I b ↔ a = b := by
  rw [qv_eq, qv_eq, vecAt_inj]
  exact ⟨fun h => Fin.ext ((List.Nodup.getElem_inj_iff (nodup_gmapOf _ _)).1 h), fun h => h ▸ rfl⟩

theorem pv_rev (I : Inp) (a : Fin (nb I)) : pv I a.rev = -pv I a := by
  rw [pv_eq, pv_eq]
  exact (congrArg (vecAt (M I)) (gmapOf_rev a)).trans (vecAt_flip (gmapOf_lt a))

theorem qv_rev (I : Inp) (a : Fin (nq I)) : qv I a.rev = -qv I a := by
  rw [qv_eq, qv_eq]
  exact (congrArg (vecAt (2 * M I)) (gmapOf_rev a)).trans (vecAt_flip (gmapOf_lt a))

/-- The basis: every vector in the sphere. -/
theorem exists_pv (I : Inp) (v : Vec) : (∃ a, pv I a = v) ↔ (1 / 2 : ℝ) * (nsq v : ℝ) ≤ I.ecut := by
  constructor
  · rintro ⟨a, rfl⟩
    rw [pv_eq]
    exact (mem_gmapOf.1 (List.getElem_mem _)).2
  · intro h
    have hM : ((M I : Nat) : ℤ) = UEG.nmax I.ecut := Int.toNat_of_nonneg (UEG.nmax_nonneg _)
    have hc := UEG.comp_le (UEG.nmax_nonneg _) (UEG.nsq_le_nmax _ v h)
    rw [← hM] at hc
    obtain ⟨p, hp, hv⟩ := exists_vecAt (M := M I) (v := v) (by omega) (by omega) (by omega)
    have hm : p ∈ gmap I := mem_gmapOf.2 ⟨hp, hv ▸ h⟩
    obtain ⟨i, hi, e⟩ := List.getElem_of_mem hm
    refine ⟨⟨i, hi⟩, ?_⟩
    rw [pv_eq, ← hv]
    exact congrArg _ e

/-- The difference of two basis vectors is a momentum transfer. -/
theorem exists_qv (I : Inp) (a b : Fin (nb I)) : ∃ q, qv I q = pv I a - pv I b := by
  have ha := mem_gmapOf.1 (List.getElem_mem a.isLt)
  have hb := mem_gmapOf.1 (List.getElem_mem b.isLt)
  have ea : pv I a = vecAt (M I) (gmap I)[a.val] := pv_eq I a
  have eb : pv I b = vecAt (M I) (gmap I)[b.val] := pv_eq I b
  have ca := vecAt_mem ha.1
  have cb := vecAt_mem hb.1
  rw [← ea] at ca ha
  rw [← eb] at cb hb
  obtain ⟨p, hp, hv⟩ := exists_vecAt (M := 2 * M I) (v := pv I a - pv I b)
    (by simp only [Prod.fst_sub]; push_cast; omega) (by simp only [Prod.fst_sub, Prod.snd_sub]; push_cast; omega)
    (by simp only [Prod.snd_sub]; push_cast; omega)
  have hs : (1 / 2 : ℝ) * (nsq (vecAt (2 * M I) p) : ℝ) ≤ 4 * I.ecut := by
    rw [hv]
    have h2 : (nsq (pv I a - pv I b) : ℝ) ≤ 2 * (nsq (pv I a) + nsq (pv I b)) := by
      have : nsq (pv I a - pv I b) ≤ 2 * (nsq (pv I a) + nsq (pv I b)) := by
        simp only [nsq, Prod.fst_sub, Prod.snd_sub]
        nlinarith [sq_nonneg ((pv I a).1 + (pv I b).1), sq_nonneg ((pv I a).2.1 + (pv I b).2.1),
          sq_nonneg ((pv I a).2.2 + (pv I b).2.2)]
      exact_mod_cast this
    linarith [ha.2, hb.2]
  obtain ⟨i, hi, e⟩ := List.getElem_of_mem (mem_gmapOf.2 ⟨hp, hs⟩)
  refine ⟨⟨i, hi⟩, ?_⟩
  rw [qv_eq, ← hv]
  exact congrArg _ e

/-- A sum over momentum transfers with two conditions has one term. -/
theorem qsum (I : Inp) (f : Vec → ℂ) (a b : Fin (nb I)) (v : Vec) (x : ℂ) :
    ∑ q, (f (qv I q) * if pv I a - pv I b = qv I q ∧ v = qv I q then x else 0) =
      if v = pv I a - pv I b then f (pv I a - pv I b) * x else 0 := by
  obtain ⟨q, hq⟩ := exists_qv I a b
  rw [sum_eq_single q]
  · rw [hq]
    split_ifs with h1 h2 h2
    · rfl
    · exact absurd h1.2 h2
    · exact absurd ⟨rfl, h2⟩ h1
    · rw [mul_zero]
  · intro r _ hr
    rw [if_neg, mul_zero]
    rintro ⟨h, _⟩
    exact hr ((qv_inj I).1 (by rw [← h, hq]))
  · intro h; exact absurd (mem_univ _) h

/-! ## Convolutions -/

theorem mesh_cube (I : Inp) : mesh I * mesh I * mesh I = len (M I) := by unfold mesh len; ring

theorem qmesh_cube (I : Inp) : qmesh I * qmesh I * qmesh I = len (2 * M I) := by unfold qmesh len; ring

theorem nodup_gmap (I : Inp) : (gmap I).Nodup := nodup_gmapOf _ _

theorem nodup_qmap (I : Inp) : (qmap I).Nodup := nodup_gmapOf _ _

theorem gmap_lt (I : Inp) (a : Fin (gmap I).length) : (gmap I)[a] < mesh I * mesh I * mesh I := by
  rw [mesh_cube]; exact gmapOf_lt a

theorem qmap_lt (I : Inp) (q : Fin (qmap I).length) : (qmap I)[q] < qmesh I * qmesh I * qmesh I := by
  rw [qmesh_cube]; exact gmapOf_lt q

theorem toVec_add (M1 M2 : Nat) (x y : P3) : toVec M1 x + toVec M2 y = toVec (M1 + M2) (x + y) := by
  simp only [toVec, Prod.mk_add_mk, Prod.fst_add, Prod.snd_add]
  push_cast
  refine Prod.ext (by ring) (Prod.ext (by ring) (by ring))

theorem mesh_eq (I : Inp) : mesh I = 2 * M I + 1 := by unfold mesh; ring

theorem qmesh_eq (I : Inp) : qmesh I = 2 * (2 * M I) + 1 := by unfold qmesh; ring

/-- A reversed convolution of two scattered arrays at a momentum transfer. -/
theorem conv_at {fast : Nat → Nat} (hf : ∀ d, d ≤ fast d) (I : Inp) (v w : Fin (nb I) → ℂ) (q : Fin (nq I)) :
    gather (qmap I) (flip (qmesh I * qmesh I * qmesh I)
      (convolve fast (scatter (gmap I) v) (scatter (gmap I) w) (mesh I))) q =
      ∑ a, ∑ b, if pv I a + pv I b = -qv I q then v a * w b else 0 := by
  have hq : (qmap I)[q] < len (2 * M I) := gmapOf_lt q
  have hm : mesh I + mesh I - 1 = qmesh I := by unfold mesh qmesh; omega
  rw [gather, flip, convolve_eq hf _ _ (by unfold mesh; omega) (by rw [hm, qmesh_cube]; omega),
    conv_scatter (nodup_gmap I) (nodup_gmap I) (gmap_lt I) (gmap_lt I)]
  refine sum_congr rfl fun a _ => sum_congr rfl fun b _ => if_congr ?_ rfl rfl
  rw [pv_eq, pv_eq, vecAt, vecAt, toVec_add, ← two_mul (M I), qv_eq, ← vecAt_flip hq, vecAt, toVec_inj, hm, qmesh_cube,
    mesh_eq, qmesh_eq]

/-- **`Gpmq` of one orbital**. -/
theorem lpmq_eq {fast : Nat → Nat} (hf : ∀ d, d ≤ fast d) (I : Inp) (ct gh : Fin (nb I) → ℂ) (q : Fin (nq I)) :
    lpmq fast I ct gh q = ∑ a, ∑ b, if pv I b = pv I a + qv I q then ct a * gh b else 0 := by
  rw [lpmq, conv_at hf]
  refine sum_congr rfl fun a _ => ?_
  rw [← rev_sum]
  refine sum_congr rfl fun b _ => ?_
  rw [pv_rev, rev, Fin.rev_rev]
  refine if_congr ?_ rfl rfl
  constructor
  · intro h; linear_combination (exp := 1) -h
  · intro h; rw [h]; abel

/-- **`Gkpq` of one orbital**. -/
theorem lkpq_eq {fast : Nat → Nat} (hf : ∀ d, d ≤ fast d) (I : Inp) (ct gh : Fin (nb I) → ℂ) (q : Fin (nq I)) :
    lkpq fast I ct gh q = ∑ a, ∑ b, if pv I a = pv I b + qv I q then ct a * gh b else 0 := by
  rw [lkpq, conv_at hf, sum_comm, ← rev_sum]
  refine sum_congr rfl fun a _ => sum_congr rfl fun b _ => ?_
  rw [pv_rev, rev, Fin.rev_rev, mul_comm]
  refine if_congr ?_ rfl rfl
  constructor
  · intro h; linear_combination (exp := 1) -h
  · intro h; rw [h]; abel

/-! ## The energy -/

open Classical in
/-- The Coulomb integral `(pr|qs)` of four plane waves in the box. -/
noncomputable def coulomb (I : Inp) : Energy.Eri (nb I) := fun p r q s =>
  if pv I p + pv I q = pv I r + pv I s ∧ pv I p ≠ pv I r then
    ((4 * Real.pi / (I.vol * (I.kfac ^ 2 * (nsq (pv I p - pv I r) : ℝ))) : ℝ) : ℂ) else 0

/-- The kinetic energy. -/
noncomputable def kin (I : Inp) : Fin 2 → Matrix (Fin (nb I)) (Fin (nb I)) ℂ :=
  fun _ => Matrix.diagonal fun i => (energy I (pv I i) : ℂ)

theorem nsq_pos {v : Vec} (h : v ≠ 0) : 1 ≤ nsq v := by
  rcases (UEG.nsq_nonneg v).lt_or_eq with h1 | h1
  · omega
  · exact absurd (UEG.nsq_eq_zero h1.symm) h

theorem vq_neg (I : Inp) (q : Vec) : vq I (-q) = vq I q := by rw [vq, vq, UEG.nsq_neg]

theorem vq_zero (I : Inp) : vq I 0 = 0 := by
  rw [vq, if_pos]; rw [UEG.nsq_zero]; norm_num

theorem vq_eq (I : Inp) (hk : (1e-10 : ℝ) ≤ I.kfac ^ 2) {q : Vec} (h : q ≠ 0) :
    vq I q = 4 * Real.pi / (I.kfac ^ 2 * (nsq q : ℝ)) := by
  have h1 : (1 : ℝ) ≤ nsq q := by exact_mod_cast nsq_pos h
  rw [vq, if_neg]
  nlinarith

theorem coulomb_vq (I : Inp) (hk : (1e-10 : ℝ) ≤ I.kfac ^ 2) (p r q s : Fin (nb I)) :
    coulomb I p r q s = if pv I p + pv I q = pv I r + pv I s then ((1 / I.vol * vq I (pv I p - pv I r) : ℝ) : ℂ) else 0 := by
  rw [coulomb]
  by_cases h : pv I p = pv I r
  · rw [if_neg fun c => c.2 h, h, sub_self, vq_zero]
    simp
  · have h0 : pv I p - pv I r ≠ 0 := sub_ne_zero.2 h
    rw [vq_eq I hk h0]
    split_ifs with h1 h2 h2
    · congr 1
      have : I.kfac ^ 2 * (nsq (pv I p - pv I r) : ℝ) ≠ 0 := by
        have h3 : (1 : ℝ) ≤ nsq (pv I p - pv I r) := by exact_mod_cast nsq_pos h0
        have : (0 : ℝ) < I.kfac ^ 2 := lt_of_lt_of_le (by norm_num) hk
        positivity
      by_cases hv : I.vol = 0
      · simp [hv]
      · field_simp
    · exact absurd h1.1 h2
    · exact absurd ⟨h2, h⟩ h1
    · rfl

/-- The Green's function of the rows of the trial and of the half-rotated Green's function. -/
noncomputable def fullG {n k : Nat} (psi : Matrix (Fin n) (Fin k) ℂ) (Gh : Matrix (Fin k) (Fin n) ℂ) :
    Matrix (Fin n) (Fin n) ℂ := psi.map star * Gh

theorem fullG_apply {n k : Nat} (psi : Matrix (Fin n) (Fin k) ℂ) (Gh : Matrix (Fin k) (Fin n) ℂ) (a b : Fin n) :
    fullG psi Gh a b = ∑ i, ctd psi i a * Gh i b := rfl

theorem gp_eq {fast : Nat → Nat} (hf : ∀ d, d ≤ fast d) (I : Inp) {k : Nat} (psi : Matrix (Fin (nb I)) (Fin k) ℂ)
    (Gh : Matrix (Fin k) (Fin (nb I)) ℂ) (q : Fin (nq I)) :
    ∑ i, lpmq fast I (ctd psi i) (Gh i) q = ∑ a, ∑ b, if pv I b = pv I a + qv I q then fullG psi Gh a b else 0 := by
  simp only [lpmq_eq hf, fullG_apply]
  rw [sum_comm]
  refine sum_congr rfl fun a _ => ?_
  rw [sum_comm]
  refine sum_congr rfl fun b _ => ?_
  split_ifs
  · rfl
  · simp

theorem gk_eq {fast : Nat → Nat} (hf : ∀ d, d ≤ fast d) (I : Inp) {k : Nat} (psi : Matrix (Fin (nb I)) (Fin k) ℂ)
    (Gh : Matrix (Fin k) (Fin (nb I)) ℂ) (q : Fin (nq I)) :
    ∑ i, lkpq fast I (ctd psi i) (Gh i) q = ∑ a, ∑ b, if pv I a = pv I b + qv I q then fullG psi Gh a b else 0 := by
  simp only [lkpq_eq hf, fullG_apply]
  rw [sum_comm]
  refine sum_congr rfl fun a _ => ?_
  rw [sum_comm]
  refine sum_congr rfl fun b _ => ?_
  split_ifs
  · rfl
  · simp

theorem ite_mul_ite (P Q : Prop) [Decidable P] [Decidable Q] (x y : ℂ) :
    (if P then x else 0) * (if Q then y else 0) = if P ∧ Q then x * y else 0 := by
  by_cases P <;> by_cases Q <;> simp [*]

theorem sum4_mul {n : Nat} (F G : Fin n → Fin n → ℂ) :
    (∑ a, ∑ b, F a b) * ∑ c, ∑ d, G c d = ∑ a, ∑ b, ∑ c, ∑ d, F a b * G c d := by
  rw [sum_mul]
  refine sum_congr rfl fun a _ => ?_
  rw [sum_mul]
  refine sum_congr rfl fun b _ => ?_
  rw [mul_sum]
  refine sum_congr rfl fun c _ => ?_
  rw [mul_sum]

/-- The four conditions of the Coulomb sums. -/
theorem cond (I : Inp) (a b c d : Fin (nb I)) (q : Fin (nq I)) :
    (pv I a = pv I b + qv I q ∧ pv I d = pv I c + qv I q) ↔ pv I a - pv I b = qv I q ∧ pv I d - pv I c = qv I q := by
  rw [sub_eq_iff_eq_add', sub_eq_iff_eq_add']

theorem cond2 (I : Inp) (a b c d : Fin (nb I)) :
    pv I d - pv I c = pv I a - pv I b ↔ pv I a + pv I c = pv I b + pv I d := by
  rw [sub_eq_sub_iff_add_eq_add, eq_comm, add_comm (pv I d)]

/-- The direct term. -/
theorem hartree (I : Inp) (hk : (1e-10 : ℝ) ≤ I.kfac ^ 2) (X Y : Matrix (Fin (nb I)) (Fin (nb I)) ℂ) :
    1 / (2 * (I.vol : ℂ)) * ∑ q, (vq I (qv I q) : ℂ) *
        ((∑ a, ∑ b, if pv I a = pv I b + qv I q then X a b else 0) *
          ∑ c, ∑ d, if pv I d = pv I c + qv I q then Y c d else 0) =
      (1 / 2) * ∑ a, ∑ b, ∑ c, ∑ d, coulomb I a b c d * X a b * Y c d := by
  have e : ∀ q, ((∑ a, ∑ b, if pv I a = pv I b + qv I q then X a b else 0) *
        ∑ c, ∑ d, if pv I d = pv I c + qv I q then Y c d else 0) =
      ∑ a, ∑ b, ∑ c, ∑ d, if pv I a - pv I b = qv I q ∧ pv I d - pv I c = qv I q then X a b * Y c d else 0 := by
    intro q
    rw [sum4_mul]
    refine sum_congr rfl fun a _ => sum_congr rfl fun b _ => sum_congr rfl fun c _ => sum_congr rfl fun d _ => ?_
    rw [ite_mul_ite]
    exact if_congr (cond I a b c d q) rfl rfl
  simp only [e, mul_sum]
  rw [sum_comm]
  refine sum_congr rfl fun a _ => ?_
  rw [sum_comm]
  refine sum_congr rfl fun b _ => ?_
  rw [sum_comm]
  refine sum_congr rfl fun c _ => ?_
  rw [sum_comm]
  refine sum_congr rfl fun d _ => ?_
  rw [← mul_sum, qsum I (fun v => (vq I v : ℂ)) a b, coulomb_vq I hk]
  simp only [cond2]
  split_ifs
  · push_cast
    by_cases hv : (I.vol : ℂ) = 0
    · simp [hv]
    · field_simp
  · simp

/-- The exchange term. -/
theorem exchange {fast : Nat → Nat} (hf : ∀ d, d ≤ fast d) (I : Inp) (hk : (1e-10 : ℝ) ≤ I.kfac ^ 2) {k : Nat}
    (psi : Matrix (Fin (nb I)) (Fin k) ℂ) (Gh : Matrix (Fin k) (Fin (nb I)) ℂ) :
    1 / (2 * (I.vol : ℂ)) * ∑ q, (vq I (qv I q) : ℂ) *
        (∑ i, ∑ j, lpmq fast I (ctd psi j) (Gh i) q * lkpq fast I (ctd psi i) (Gh j) q) =
      (1 / 2) * ∑ a, ∑ b, ∑ c, ∑ d, coulomb I a b c d * fullG psi Gh a d * fullG psi Gh c b := by
  have e : ∀ q, (∑ i, ∑ j, lpmq fast I (ctd psi j) (Gh i) q * lkpq fast I (ctd psi i) (Gh j) q) =
      ∑ a, ∑ b, ∑ c, ∑ d, if pv I b - pv I a = qv I q ∧ pv I c - pv I d = qv I q then
        fullG psi Gh a d * fullG psi Gh c b else 0 := by
    intro q
    simp only [lpmq_eq hf, lkpq_eq hf, sum4_mul, ite_mul_ite, cond]
    simp only [sum_comm (s := (univ : Finset (Fin k))) (t := (univ : Finset (Fin (nb I))))]
    refine sum_congr rfl fun a _ => sum_congr rfl fun b _ => sum_congr rfl fun c _ => sum_congr rfl fun d _ => ?_
    split_ifs
    · rw [fullG_apply, fullG_apply, sum_mul_sum, sum_comm]
      refine sum_congr rfl fun i _ => sum_congr rfl fun j _ => ?_
      ring
    · simp
  simp only [e, mul_sum]
  rw [sum_comm]
  refine sum_congr rfl fun a _ => ?_
  rw [sum_comm]
  refine sum_congr rfl fun b _ => ?_
  rw [sum_comm]
  refine sum_congr rfl fun c _ => ?_
  rw [sum_comm]
  refine sum_congr rfl fun d _ => ?_
  rw [← mul_sum, qsum I (fun v => (vq I v : ℂ)) b a, coulomb_vq I hk]
  have hc : pv I c - pv I d = pv I b - pv I a ↔ pv I a + pv I c = pv I b + pv I d := by
    rw [sub_eq_sub_iff_add_eq_add, add_comm (pv I c)]
  have hv2 : vq I (pv I b - pv I a) = vq I (pv I a - pv I b) := by rw [← vq_neg, neg_sub]
  simp only [hc, hv2]
  split_ifs
  · push_cast
    by_cases hv : (I.vol : ℂ) = 0
    · simp [hv]
    · field_simp
  · simp

/-- **C92**: the energy by Fourier transforms is the energy of the kinetic energy and the Coulomb integrals of the plane waves,
for the Green's functions built from the trial and the half-rotated Green's functions, with or without a twist. -/
theorem localPW_eq {fast : Nat → Nat} (hf : ∀ d, d ≤ fast d) (I : Inp) (hk : (1e-10 : ℝ) ≤ I.kfac ^ 2) {nocc : Fin 2 → Nat}
    (psi : ∀ s, Matrix (Fin (nb I)) (Fin (nocc s)) ℂ) (Gh : ∀ s, Matrix (Fin (nocc s)) (Fin (nb I)) ℂ) :
    localPW fast I psi Gh (fun s => fullG (psi s) (Gh s)) =
      Energy.localGeneric (kin I) (coulomb I) (fun s => fullG (psi s) (Gh s)) 0 := by
  have hsub : ∀ s : Fin 2, 1 / (2 * (I.vol : ℂ)) * ∑ q, (vq I (qv I q) : ℂ) *
      ((∑ i, lkpq fast I (ctd (psi s) i) (Gh s i) q) * (∑ i, lpmq fast I (ctd (psi s) i) (Gh s i) q) -
        ∑ i, ∑ j, lpmq fast I (ctd (psi s) j) (Gh s i) q * lkpq fast I (ctd (psi s) i) (Gh s j) q) =
      (1 / 2) * ((∑ a, ∑ b, ∑ c, ∑ d, coulomb I a b c d * fullG (psi s) (Gh s) a b * fullG (psi s) (Gh s) c d) -
        ∑ a, ∑ b, ∑ c, ∑ d, coulomb I a b c d * fullG (psi s) (Gh s) a d * fullG (psi s) (Gh s) c b) := by
    intro s
    rw [mul_sub, ← hartree I hk, ← exchange hf I hk, ← mul_sub, ← sum_sub_distrib]
    simp only [gk_eq hf, gp_eq hf, mul_sub]
  have hos : ∀ s t : Fin 2, 1 / (2 * (I.vol : ℂ)) * ∑ q, (vq I (qv I q) : ℂ) *
      ((∑ i, lkpq fast I (ctd (psi s) i) (Gh s i) q) * (∑ i, lpmq fast I (ctd (psi t) i) (Gh t i) q)) =
      (1 / 2) * ∑ a, ∑ b, ∑ c, ∑ d, coulomb I a b c d * fullG (psi s) (Gh s) a b * fullG (psi t) (Gh t) c d := by
    intro s t
    rw [← hartree I hk]
    simp only [gk_eq hf, gp_eq hf]
  have hke : ∑ s : Fin 2, ∑ i, (energy I (pv I i) : ℂ) * fullG (psi s) (Gh s) i i =
      Energy.dot2 (kin I 0) (fullG (psi 0) (Gh 0)) + Energy.dot2 (kin I 1) (fullG (psi 1) (Gh 1)) := by
    rw [Fin.sum_univ_two]
    simp only [Energy.dot2, kin, Matrix.diagonal_apply, ite_mul, zero_mul, sum_ite_eq, mem_univ, if_true]
  unfold localPW Energy.localGeneric
  simp only [hsub, hos, hke, add_zero, Prod.mk.injEq]
  refine ⟨by ring, trivial, by ring⟩

end Verif.PWFFT
