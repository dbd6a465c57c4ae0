import Verif.PWFFT.Steps

/-!
# The constructor, the trial, and cases in which the plane-wave code differs (C92, C93)
-/

namespace Verif.PWFFT

open Finset
open Verif.UEG (Vec nsq Inp energy)

/-! ## The constructor -/

theorem basis_get (I : Inp) (i : Nat) (v : Vec) : (basis I)[i]? = some v ↔ ∃ h : i < nb I, pv I ⟨i, h⟩ = v := by
  rw [basis, List.getElem?_eq_some_iff]
  constructor
  · rintro ⟨h, e⟩
    rw [List.length_map] at h
    exact ⟨h, by rw [← e, List.getElem_map]; rfl⟩
  · rintro ⟨h, e⟩
    exact ⟨by rw [List.length_map]; exact h, by rw [← e, List.getElem_map]; rfl⟩

theorem mem_basis (I : Inp) (v : Vec) : v ∈ basis I ↔ (1 / 2 : ℝ) * (nsq v : ℝ) ≤ I.ecut := by
  rw [← exists_pv, List.mem_iff_getElem?]
  constructor
  · rintro ⟨i, h⟩
    obtain ⟨h, e⟩ := (basis_get I i v).1 h
    exact ⟨_, e⟩
  · rintro ⟨a, e⟩
    exact ⟨a.val, (basis_get I a.val v).2 ⟨a.isLt, e⟩⟩

theorem nodup_basis (I : Inp) : (basis I).Nodup := by
  rw [List.nodup_iff_getElem?_ne_getElem?]
  intro i j hij hj e
  rw [List.getElem?_eq_getElem (by omega)] at e
  obtain ⟨h1, e1⟩ := (basis_get I j _).1 e.symm
  obtain ⟨h2, e2⟩ := (basis_get I i _).1 (List.getElem?_eq_getElem (by omega : i < (basis I).length))
  have := (pv_inj I).1 (e1.trans e2.symm)
  rw [Fin.mk.injEq] at this
  omega

/-- **C92 (lookup)**: the table finds exactly the vectors of the basis, each at its place. -/
theorem lookup_eq (I : Inp) (v : Vec) (i : Nat) : lookup I v = some i ↔ ∃ h : i < nb I, pv I ⟨i, h⟩ = v := by
  rw [← basis_get]
  have hnm : ∀ u ∈ basis I, nsq u ≤ UEG.nmax I.ecut ^ 2 := fun u hu => UEG.nsq_le_nmax _ _ ((mem_basis I u).1 hu)
  rcases hb : basis I with _ | ⟨b0, bs⟩
  · simp [lookup, hb]
  have hne : basis I ≠ [] := by rw [hb]; simp
  obtain ⟨l, hl⟩ : ∃ l, ((basis I).map nsq).max? = some l := by
    rw [← Option.isSome_iff_exists, List.isSome_max?_iff]; simpa using hne
  obtain ⟨mx, hmx⟩ : ∃ l, ((basis I).map (UEG.mapIx I)).max? = some l := by
    rw [← Option.isSome_iff_exists, List.isSome_max?_iff]; simpa using hne
  rw [← hb]
  have hl' := List.max?_eq_some_iff.1 hl
  have hmx' := List.max?_eq_some_iff.1 hmx
  by_cases hv : nsq v ≤ l
  · have hvm : v ∈ basis I := by
      obtain ⟨u, hu, rfl⟩ := List.mem_map.1 hl'.1
      rw [mem_basis] at hu ⊢
      have : (nsq v : ℝ) ≤ nsq u := by exact_mod_cast hv
      linarith
    obtain ⟨j, hj, hjv⟩ := List.getElem_of_mem hvm
    have hle : UEG.mapIx I v ≤ mx := hmx'.2 _ (List.mem_map_of_mem hvm)
    have h0 : 0 ≤ UEG.mapIx I v := UEG.mapIx_nonneg I (hnm v hvm)
    have hlen : (table I mx).length = (mx + 1).toNat := by
      unfold table
      rw [UEG.foldl_set_length (f := fun k => (UEG.mapIx I k).toNat), List.length_replicate]
    have hlk : lookup I v = some j := by
      unfold lookup
      rw [hl, hmx]
      dsimp only
      rw [if_pos hv, if_neg (by omega), if_neg (by rw [hlen]; omega)]
      unfold table
      refine UEG.foldl_set_of_mem ((basis I).zipIdx) (fun k => (UEG.mapIx I k).toNat) _ ?_ (v, j) ?_ ?_
      · have : ((basis I).zipIdx.map fun x => (UEG.mapIx I x.1).toNat) =
            (basis I).map (fun k => (UEG.mapIx I k).toNat) := by
          conv_rhs => rw [← List.zipIdx_map_fst 0 (basis I), List.map_map]
          rfl
        rw [this]
        refine (List.nodup_map_iff_inj_on (nodup_basis I)).mpr ?_
        intro x hx y hy hxy
        have hx0 := UEG.mapIx_nonneg I (hnm x hx)
        have hy0 := UEG.mapIx_nonneg I (hnm y hy)
        exact UEG.mapIx_inj I (hnm x hx) (hnm y hy) (by omega)
      · rw [List.mk_mem_zipIdx_iff_getElem?, List.getElem?_eq_getElem hj, hjv]
      · rw [List.length_replicate]; dsimp only; omega
    rw [hlk]
    constructor
    · intro h; cases h; rw [List.getElem?_eq_getElem hj, hjv]
    · intro h
      obtain ⟨hi, hiv⟩ := List.getElem?_eq_some_iff.mp h
      rw [(nodup_basis I).getElem_inj_iff.mp (hjv.trans hiv.symm)]
  · have h1 : lookup I v = none := by
      unfold lookup
      rw [hl, hmx]
      dsimp only
      rw [if_neg hv]
    rw [h1]
    constructor
    · intro h; cases h
    · intro h
      exact absurd (hl'.2 _ (List.mem_map_of_mem (List.mem_of_getElem? h))) hv

theorem length_ne_one {M : Nat} {e : ℝ} {v : Vec} (hv : v ≠ 0) (h1 : -(M : ℤ) ≤ v.1 ∧ v.1 ≤ M)
    (h2 : -(M : ℤ) ≤ v.2.1 ∧ v.2.1 ≤ M) (h3 : -(M : ℤ) ≤ v.2.2 ∧ v.2.2 ≤ M) (he : (1 / 2 : ℝ) * (nsq v : ℝ) ≤ e) :
    (gmapOf M e).length ≠ 1 := by
  intro h
  obtain ⟨p, hp, hpv⟩ := exists_vecAt h1 h2 h3
  have hm : p ∈ gmapOf M e := mem_gmapOf.2 ⟨hp, hpv ▸ he⟩
  have hm' : len M - 1 - p ∈ gmapOf M e :=
    mem_gmapOf.2 ⟨by omega, by rw [vecAt_flip hp, UEG.nsq_neg, hpv]; exact he⟩
  obtain ⟨x, hx⟩ := List.length_eq_one_iff.1 h
  rw [hx, List.mem_singleton] at hm hm'
  have : vecAt M (len M - 1 - p) = vecAt M p := by rw [hm', hm]
  rw [vecAt_flip hp, hpv] at this
  apply hv
  obtain ⟨a, b, c⟩ := v
  simp only [Prod.neg_mk, Prod.mk.injEq] at this
  have ha : a = 0 := by omega
  have hb : b = 0 := by omega
  have hc : c = 0 := by omega
  subst_vars; rfl

/-- **C92 (constructor)**: for a non-negative cutoff the system can be set up exactly if the basis holds more than the zero
vector. -/
theorem constructs_iff (I : Inp) (h0 : 0 ≤ I.ecut) : Constructs I ↔ 1 / 2 ≤ I.ecut := by
  constructor
  · intro h
    by_contra hlt
    rw [not_le] at hlt
    have hone : (gmap I).length = 1 := by
      have hz : ∀ a : Fin (nb I), pv I a = 0 := by
        intro a
        have := (exists_pv I (pv I a)).1 ⟨a, rfl⟩
        by_contra hne
        have h1 : (1 : ℝ) ≤ nsq (pv I a) := by exact_mod_cast nsq_pos hne
        linarith
      obtain ⟨a, _⟩ := (exists_pv I 0).2 (by rw [UEG.nsq_zero]; simpa using h0)
      have hs : Subsingleton (Fin (nb I)) := ⟨fun x y => (pv_inj I).1 ((hz x).trans (hz y).symm)⟩
      have h1 : nb I ≤ 1 := by
        by_contra hc
        have := hs.elim (⟨0, by omega⟩ : Fin (nb I)) ⟨1, by omega⟩
        rw [Fin.mk.injEq] at this
        omega
      have := a.isLt
      change nb I = 1
      omega
    have := h.1
    rw [spEnergies, if_pos (show (gmapOf (M I) I.ecut).length = 1 from hone)] at this
    cases this
  · intro h
    have hM : ((M I : Nat) : ℤ) = UEG.nmax I.ecut := Int.toNat_of_nonneg (UEG.nmax_nonneg _)
    have hM1 : 1 ≤ M I := by
      have h1 : (nsq (1, 0, 0) : ℤ) ≤ UEG.nmax I.ecut ^ 2 :=
        UEG.nsq_le_nmax _ _ (by simp only [nsq]; norm_num; linarith)
      simp only [nsq] at h1
      rw [← hM] at h1
      by_contra hc
      have : M I = 0 := by omega
      rw [this] at h1
      norm_num at h1
    have hne : ((1, 0, 0) : Vec) ≠ 0 := by decide
    refine ⟨?_, ?_, ?_, fun i v hv => (lookup_eq I v i).2 ((basis_get I i v).1 hv)⟩
    · rw [spEnergies, if_neg]
      · rfl
      · exact length_ne_one hne (by simp only; omega) (by simp only; omega) (by simp only; omega) (by simp only [nsq]; norm_num; linarith)
    · intro hn
      obtain ⟨a, _⟩ := (exists_pv I 0).2 (by rw [UEG.nsq_zero]; simpa using h0)
      have h : 0 < (gmap I).length := lt_of_le_of_lt (Nat.zero_le _) a.isLt
      rw [hn] at h
      simp at h
    · rw [spEnergies, if_neg]
      · rfl
      · exact length_ne_one hne (by simp only; push_cast; omega) (by simp only; push_cast; omega) (by simp only; push_cast; omega)
          (by simp only [nsq]; norm_num; linarith)

/-! ## The trial -/

/-- **C92 (trial)**: the columns of the trial are different plane waves, one for every column as long as the basis is large
enough, and no plane wave that is left out has a lower kinetic energy than one that is used. -/
theorem trial_lowest (I : Inp) (n : Nat) (hn : n ≤ nb I) :
    ∃ f : Fin n → Fin (nb I), Function.Injective f ∧ (∀ i : Fin n, trialCol I i = some (f i)) ∧
      (∀ i j : Fin n, i ≤ j → energy I (pv I (f i)) ≤ energy I (pv I (f j))) ∧
      ∀ (i : Fin n) (b : Fin (nb I)), b ∉ Set.range f → energy I (pv I (f i)) ≤ energy I (pv I b) := by
  classical
  have hp : (sortBasis I).Perm (List.finRange (nb I)) := List.mergeSort_perm _ _
  have hl : (sortBasis I).length = nb I := by rw [hp.length_eq, List.length_finRange]
  have hnd : (sortBasis I).Nodup := hp.nodup_iff.2 (List.nodup_finRange _)
  have hpw : (sortBasis I).Pairwise fun a b => energy I (pv I a) ≤ energy I (pv I b) := by
    have := List.pairwise_mergeSort (le := fun a b : Fin (nb I) => decide (energy I (pv I a) ≤ energy I (pv I b)))
      (fun a b c h1 h2 => by simp only [decide_eq_true_eq] at *; exact h1.trans h2)
      (fun a b => by simp only [Bool.or_eq_true, decide_eq_true_eq]; exact le_total _ _) (List.finRange (nb I))
    exact this.imp fun h => by simpa using h
  have hmono : ∀ i j (hi : i < (sortBasis I).length) (hj : j < (sortBasis I).length), i ≤ j →
      energy I (pv I (sortBasis I)[i]) ≤ energy I (pv I (sortBasis I)[j]) := by
    intro i j hi hj hij
    rcases hij.eq_or_lt with rfl | h
    · exact le_refl _
    · exact List.pairwise_iff_getElem.1 hpw i j hi hj h
  refine ⟨fun i => (sortBasis I)[i.val]'(by rw [hl]; omega), ?_, ?_, ?_, ?_⟩
  · intro i j h
    exact Fin.ext (hnd.getElem_inj_iff.1 h)
  · intro i
    rw [trialCol, List.getElem?_eq_getElem]
  · intro i j hij
    exact hmono _ _ _ _ hij
  · intro i b hb
    obtain ⟨j, hj, e⟩ := List.getElem_of_mem (hp.mem_iff.2 (List.mem_finRange b))
    rw [← e]
    refine hmono _ _ _ _ ?_
    by_contra hlt
    exact hb ⟨⟨j, by omega⟩, e⟩

/-! ## Integrals, and cases -/

/-- The integrals returned by `hijkl` are the Coulomb integrals. -/
theorem hijkl_eq (I : Inp) (hk : (1e-10 : ℝ) ≤ I.kfac ^ 2) (i j k l : Fin (nb I)) :
    (hijkl I i j k l : ℂ) = coulomb I i k j l := by
  have hz : ∀ v : Vec, 0 < nsq v ↔ v ≠ 0 := fun v =>
    ⟨fun h e => by rw [e, UEG.nsq_zero] at h; exact lt_irrefl _ h, fun h => by have := nsq_pos h; omega⟩
  have hc : (0 < nsq (pv I k - pv I i) ∧ nsq (pv I k - pv I i - (pv I j - pv I l)) = 0) ↔
      (pv I i + pv I j = pv I k + pv I l ∧ pv I i ≠ pv I k) := by
    rw [hz, sub_ne_zero]
    have : nsq (pv I k - pv I i - (pv I j - pv I l)) = 0 ↔ pv I i + pv I j = pv I k + pv I l := by
      constructor
      · intro h
        have := UEG.nsq_eq_zero h
        rw [sub_eq_zero, sub_eq_sub_iff_add_eq_add] at this
        rw [this, add_comm]
      · intro h
        have : pv I k - pv I i - (pv I j - pv I l) = 0 := by
          rw [sub_eq_zero, sub_eq_sub_iff_add_eq_add, ← h, add_comm]
        rw [this, UEG.nsq_zero]
    rw [this, and_comm]
    exact and_congr_right fun _ => ne_comm
  simp only [hijkl, hc, coulomb]
  split_ifs with h
  · have hne : pv I k - pv I i ≠ 0 := sub_ne_zero.2 (Ne.symm h.2)
    rw [vq_eq I hk hne, show pv I k - pv I i = -(pv I i - pv I k) from (neg_sub _ _).symm, UEG.nsq_neg]
    congr 1
    rw [div_mul_div_comm, one_mul]
  · simp

/-- **C92 fails** in a very large box: if the square of the grid spacing is below the tolerance, the interaction of neighbouring
plane waves is dropped. -/
theorem large_box_wrong (I : Inp) (h0 : 0 < I.kfac) (hk : I.kfac ^ 2 < 1e-10) (hv : 0 < I.vol) (he : 1 / 2 ≤ I.ecut) :
    ∃ i k : Fin (nb I), hijkl I i k k i = 0 ∧ coulomb I i k k i ≠ 0 := by
  obtain ⟨i, hi⟩ := (exists_pv I 0).2 (by rw [UEG.nsq_zero]; simp; linarith)
  obtain ⟨k, hk1⟩ := (exists_pv I (1, 0, 0)).2 (by simp only [nsq]; norm_num; linarith)
  have hn : nsq ((0 : Vec) - (1, 0, 0)) = 1 := by decide
  have hn' : nsq ((1, 0, 0) - (0 : Vec)) = 1 := by decide
  refine ⟨i, k, ?_, ?_⟩
  · have hvq : vq I ((1, 0, 0) - (0 : Vec)) = 0 := by
      rw [vq, hn', if_pos (by simpa using hk)]
    simp only [hijkl, hi, hk1, hvq, mul_zero, ite_self]
  · rw [coulomb, hi, hk1, if_pos ⟨by abel, by decide⟩, hn]
    have : (4 * Real.pi / (I.vol * (I.kfac ^ 2 * ((1 : ℤ) : ℝ))) : ℝ) ≠ 0 := by
      have := Real.pi_pos
      positivity
    exact_mod_cast this

/-- **C93 differs** from the general propagator with an energy shift of zero: there a hybrid energy above the bound is capped,
while the general propagator leaves it. -/
theorem bound_zero_differs {dt : ℝ} {e : ℂ} (h : Weights.ebound dt < e.re) :
    bound dt e 0 ≠ Weights.boundHybrid dt e 0 := by
  rw [bound, Weights.boundHybrid, if_pos (by rw [zero_add]; exact h), if_pos (by norm_num)]
  intro c
  have := congrArg Complex.re c
  simp at this
  linarith

/-! ## Non-vacuity -/

/-- A twisted gas with seven plane waves. -/
noncomputable def exI : Inp := ⟨1 / 2, 1, 1, (1 / 3, 0, 0)⟩

/-- The orbitals that are plane waves, and the half-rotated Green's function of a determinant of them with itself. -/
def waves {n k : Nat} (f : Fin k → Fin n) : Matrix (Fin n) (Fin k) ℂ := Matrix.of fun p i => if p = f i then 1 else 0

theorem sum_waves {n k : Nat} (f : Fin k → Fin n) (F : Fin n → Fin n → ℂ) :
    ∑ a, ∑ b, F a b * fullG (waves f) (waves f).transpose a b = ∑ i, F (f i) (f i) := by
  have e : ∀ a b, F a b * fullG (waves f) (waves f).transpose a b =
      ∑ i, if a = f i then (if b = f i then F a b else 0) else 0 := by
    intro a b
    rw [fullG_apply, mul_sum]
    refine sum_congr rfl fun i _ => ?_
    simp only [ctd, waves, Matrix.of_apply, Matrix.transpose_apply]
    split_ifs <;> simp
  simp only [e]
  have e2 : ∀ a, ∑ b, ∑ i, (if a = f i then (if b = f i then F a b else 0) else 0) =
      ∑ i, if a = f i then F a (f i) else 0 := by
    intro a
    rw [sum_comm]
    refine sum_congr rfl fun i _ => ?_
    split_ifs
    · simp
    · simp
  simp only [e2]
  rw [sum_comm]
  exact sum_congr rfl fun i _ => by simp

/-- The energy of a determinant of plane waves: only the exchange of parallel spins contributes to the interaction. -/
theorem waves_energy {fast : Nat → Nat} (hf : ∀ d, d ≤ fast d) (I : Inp) (hk : (1e-10 : ℝ) ≤ I.kfac ^ 2) {nocc : Fin 2 → Nat}
    (f : ∀ s, Fin (nocc s) → Fin (nb I)) :
    (localPW fast I (fun s => waves (f s)) (fun s => (waves (f s)).transpose)
      (fun s => fullG (waves (f s)) (waves (f s)).transpose)).2.2 =
      -(1 / 2) * ∑ s, ∑ i, ∑ j, coulomb I (f s i) (f s j) (f s j) (f s i) := by
  have hJ : ∀ s t, ∑ p, ∑ r, ∑ q, ∑ u, coulomb I p r q u * fullG (waves (f s)) (waves (f s)).transpose p r *
      fullG (waves (f t)) (waves (f t)).transpose q u = 0 := by
    intro s t
    refine Eq.trans ?_ (sum_waves (f s) (fun p r => ∑ q, ∑ u, coulomb I p r q u *
      fullG (waves (f t)) (waves (f t)).transpose q u) |>.trans ?_)
    · refine sum_congr rfl fun p _ => sum_congr rfl fun r _ => ?_
      rw [sum_mul]
      refine sum_congr rfl fun q _ => ?_
      rw [sum_mul]
      exact sum_congr rfl fun u _ => by ring
    · refine sum_eq_zero fun i _ => ?_
      simp only [coulomb, ne_eq, not_true_eq_false, and_false, if_false, zero_mul, sum_const_zero]
  have hK : ∀ s, ∑ p, ∑ r, ∑ q, ∑ u, coulomb I p r q u * fullG (waves (f s)) (waves (f s)).transpose p u *
      fullG (waves (f s)) (waves (f s)).transpose q r = ∑ i, ∑ j, coulomb I (f s i) (f s j) (f s j) (f s i) := by
    intro s
    have h1 : ∀ p u, ∑ r, ∑ q, coulomb I p r q u * fullG (waves (f s)) (waves (f s)).transpose q r =
        ∑ j, coulomb I p (f s j) (f s j) u := by
      intro p u
      rw [sum_comm]
      exact sum_waves (f s) fun q r => coulomb I p r q u
    refine Eq.trans ?_ (sum_waves (f s) (fun p u => ∑ r, ∑ q, coulomb I p r q u *
      fullG (waves (f s)) (waves (f s)).transpose q r) |>.trans ?_)
    · refine sum_congr rfl fun p _ => ?_
      have e : ∀ r q, ∑ u, coulomb I p r q u * fullG (waves (f s)) (waves (f s)).transpose p u *
          fullG (waves (f s)) (waves (f s)).transpose q r =
          ∑ u, coulomb I p r q u * fullG (waves (f s)) (waves (f s)).transpose q r *
            fullG (waves (f s)) (waves (f s)).transpose p u :=
        fun r q => sum_congr rfl fun u _ => by ring
      simp only [e]
      simp only [sum_mul]
      have e3 : ∀ r, ∑ q, ∑ u, coulomb I p r q u * fullG (waves (f s)) (waves (f s)).transpose q r *
            fullG (waves (f s)) (waves (f s)).transpose p u =
          ∑ u, ∑ q, coulomb I p r q u * fullG (waves (f s)) (waves (f s)).transpose q r *
            fullG (waves (f s)) (waves (f s)).transpose p u := fun r => sum_comm
      simp only [e3]
      rw [sum_comm]
    · exact sum_congr rfl fun i _ => h1 _ _
  rw [localPW_eq hf I hk]
  unfold Energy.localGeneric
  simp only [hJ, hK, Fin.sum_univ_two]
  ring

/-- The exchange energy of two parallel spins in the plane waves `0` and `(1,0,0)`, by Fourier transforms without padding. -/
example (a b : Fin (nb exI)) (ha : pv exI a = 0) (hb : pv exI b = (1, 0, 0)) :
    let f : ∀ s : Fin 2, Fin ((![2, 0] : Fin 2 → Nat) s) → Fin (nb exI) :=
      Fin.cons (![a, b] : Fin 2 → Fin (nb exI)) (Fin.cons finZeroElim finZeroElim)
    (localPW id exI (fun s => waves (f s)) (fun s => (waves (f s)).transpose)
      (fun s => fullG (waves (f s)) (waves (f s)).transpose)).2.2 = -(4 * Real.pi : ℂ) := by
  intro f
  have h0 : ∀ c, coulomb exI c c c c = 0 := fun c => by simp [coulomb]
  have h1 : coulomb exI a b b a = (4 * Real.pi : ℂ) := by
    have hn : nsq ((0 : Vec) - (1, 0, 0)) = 1 := by decide
    rw [coulomb, ha, hb, if_pos ⟨by abel, by decide⟩, hn]
    simp [exI]
  have h2 : coulomb exI b a a b = (4 * Real.pi : ℂ) := by
    have hn : nsq ((1, 0, 0) - (0 : Vec)) = 1 := by decide
    rw [coulomb, ha, hb, if_pos ⟨by abel, by decide⟩, hn]
    simp [exI]
  rw [waves_energy (fast := id) (fun d => le_refl d) exI (by simp only [exI]; norm_num) f, Fin.sum_univ_two]
  have e0 : ∑ i, ∑ j, coulomb exI (f 0 i) (f 0 j) (f 0 j) (f 0 i) = 8 * Real.pi := by
    change ∑ i : Fin 2, ∑ j : Fin 2, coulomb exI ((![a, b] : Fin 2 → _) i) ((![a, b] : Fin 2 → _) j)
      ((![a, b] : Fin 2 → _) j) ((![a, b] : Fin 2 → _) i) = _
    simp only [Fin.sum_univ_two, Matrix.cons_val_zero, Matrix.cons_val_one, h0, h1, h2]
    ring
  have e1 : ∑ i, ∑ j, coulomb exI (f 1 i) (f 1 j) (f 1 j) (f 1 i) = 0 := by
    change ∑ i : Fin 0, _ = _
    simp
  rw [e0, e1]
  ring

example : Constructs exI := (constructs_iff exI (by simp [exI])).2 (by simp [exI])

example : ∃ a b, pv exI a = 0 ∧ pv exI b = (1, 0, 0) := by
  obtain ⟨i, hi⟩ := (exists_pv exI 0).2 (by rw [UEG.nsq_zero]; simp [exI])
  obtain ⟨k, hk1⟩ := (exists_pv exI (1, 0, 0)).2 (by simp only [nsq, exI]; norm_num)
  exact ⟨i, k, hi, hk1⟩

end Verif.PWFFT
