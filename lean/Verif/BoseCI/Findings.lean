import Verif.BoseCI.Exist
import Verif.Holstein.Model

/-!
# The printed parts, the sign of the coupling, and cases where the function fails or is wrong
-/

namespace Verif.BoseCI

open Matrix

section

variable {sys : CI.System ℝ} {ph : Ph} {nmax : Nat} {ds : List (List Nat)}

/-- The sign of a row: minus one for an odd number of phonons. -/
noncomputable def parity (sys : CI.System ℝ) (nmax : Nat) (a : Fin (np (grp sys nmax))) : ℝ :=
  (-1) ^ ((perms (grp sys nmax)).getD a []).sum

theorem parity_sq (a : Fin (np (grp sys nmax))) : parity sys nmax a * parity sys nmax a = 1 := by
  unfold parity
  rw [← mul_pow]; simp

theorem parity_bi (hnb : 0 < sys.nbasis) (s : Fin sys.nbasis) (a b : Fin (np (grp sys nmax))) :
    parity sys nmax a * bi nmax (grp sys nmax) s a b * parity sys nmax b = -bi nmax (grp sys nmax) s a b := by
  rw [bi_eq hnb]
  have hpa := (mem_perms (nmax := nmax) hnb _).1 (getD_mem (perms (grp sys nmax)) a [])
  have hpb := (mem_perms (nmax := nmax) hnb _).1 (getD_mem (perms (grp sys nmax)) b [])
  split_ifs with h
  · have hs : ((perms (grp sys nmax)).getD b []).sum = ((perms (grp sys nmax)).getD a []).sum + 1 := by
      rw [← sum_occ hpa.1, ← sum_occ hpb.1, h, Finset.sum_update_of_mem (Finset.mem_univ _)]
      have e := Finset.sum_sdiff (Finset.subset_univ {s}) (f := occ sys.nbasis ((perms (grp sys nmax)).getD a []))
      rw [Finset.sum_singleton] at e
      omega
    have e : parity sys nmax b = -parity sys nmax a := by
      unfold parity
      rw [hs, pow_succ]; ring
    rw [e]
    linear_combination (-Real.sqrt (occ sys.nbasis ((perms (grp sys nmax)).getD b []) s)) * parity_sq a
  · simp

/-- The vector with the sign of every row. -/
noncomputable def flip (v : Fin (np (grp sys nmax) * ds.length) → ℝ) : Fin (np (grp sys nmax) * ds.length) → ℝ :=
  fun k => parity sys nmax (finProdFinEquiv.symm k).1 * v k

theorem flip_flip (v : Fin (np (grp sys nmax) * ds.length) → ℝ) : flip (flip v) = v := by
  funext k
  unfold flip
  rw [← mul_assoc, parity_sq, one_mul]

theorem flip_dot (u v : Fin (np (grp sys nmax) * ds.length) → ℝ) : flip u ⬝ᵥ flip v = u ⬝ᵥ v := by
  unfold dotProduct flip
  refine Finset.sum_congr rfl fun k _ => ?_
  linear_combination (u k * v k) * parity_sq (sys := sys) (finProdFinEquiv.symm k).1

theorem flip_swap (u v : Fin (np (grp sys nmax) * ds.length) → ℝ) : u ⬝ᵥ flip v = flip u ⬝ᵥ v := by
  rw [← flip_dot, flip_flip]

theorem flip_mul {A B : Matrix (Fin (np (grp sys nmax) * ds.length)) (Fin (np (grp sys nmax) * ds.length)) ℝ}
    (h : ∀ k l, parity sys nmax (finProdFinEquiv.symm k).1 * A k l * parity sys nmax (finProdFinEquiv.symm l).1 = B k l)
    (v : Fin (np (grp sys nmax) * ds.length) → ℝ) : A *ᵥ flip v = flip (B *ᵥ v) := by
  funext k
  unfold flip mulVec dotProduct
  beta_reduce
  rw [Finset.mul_sum]
  refine Finset.sum_congr rfl fun l _ => ?_
  rw [← h]
  linear_combination (-A k l * parity sys nmax (finProdFinEquiv.symm l).1 * v l) *
    parity_sq (sys := sys) (finProdFinEquiv.symm k).1

theorem flip_diag (M : Matrix (Fin (np (grp sys nmax))) (Fin (np (grp sys nmax))) ℝ) (hM : ∀ a b, a ≠ b → M a b = 0)
    (B : Matrix (Fin ds.length) (Fin ds.length) ℝ) (k l : Fin (np (grp sys nmax) * ds.length)) :
    parity sys nmax (finProdFinEquiv.symm k).1 * kron M B k l * parity sys nmax (finProdFinEquiv.symm l).1 =
      kron M B k l := by
  rw [kron_apply]
  by_cases h : (finProdFinEquiv.symm k).1 = (finProdFinEquiv.symm l).1
  · rw [h]
    linear_combination (M (finProdFinEquiv.symm l).1 (finProdFinEquiv.symm l).1 *
      B (finProdFinEquiv.symm k).2 (finProdFinEquiv.symm l).2) * parity_sq (sys := sys) (finProdFinEquiv.symm l).1
  · rw [hM _ _ h]; simp

theorem flip_x (hnb : 0 < sys.nbasis) (s : Fin sys.nbasis) (B : Matrix (Fin ds.length) (Fin ds.length) ℝ)
    (k l : Fin (np (grp sys nmax) * ds.length)) : parity sys nmax (finProdFinEquiv.symm k).1 *
      kron (bi nmax (grp sys nmax) s + (bi nmax (grp sys nmax) s)ᵀ) B k l * parity sys nmax (finProdFinEquiv.symm l).1 =
      -kron (bi nmax (grp sys nmax) s + (bi nmax (grp sys nmax) s)ᵀ) B k l := by
  rw [kron_apply, Matrix.add_apply, Matrix.transpose_apply]
  have h1 := parity_bi hnb s (finProdFinEquiv.symm k).1 (finProdFinEquiv.symm l).1
  have h2 := parity_bi hnb s (finProdFinEquiv.symm l).1 (finProdFinEquiv.symm k).1
  linear_combination B (finProdFinEquiv.symm k).2 (finProdFinEquiv.symm l).2 * (h1 + h2)

theorem he_flip (v : Fin (np (grp sys nmax) * ds.length) → ℝ) :
    he sys (grp sys nmax) ds *ᵥ flip v = flip (he sys (grp sys nmax) ds *ᵥ v) :=
  flip_mul (fun k l => flip_diag 1 (fun a b h => Matrix.one_apply_ne h) _ k l) v

theorem hbos_flip (v : Fin (np (grp sys nmax) * ds.length) → ℝ) :
    hbos ph (grp sys nmax) ds *ᵥ flip v = flip (hbos ph (grp sys nmax) ds *ᵥ v) :=
  flip_mul (fun k l => flip_diag _ (fun a b h => by unfold hb; exact Matrix.diagonal_apply_ne _ h) _ k l) v

theorem heb_flip (hnb : 0 < sys.nbasis) (v : Fin (np (grp sys nmax) * ds.length) → ℝ) :
    heb sys ph nmax (grp sys nmax) ds *ᵥ flip v = -flip (heb sys ph nmax (grp sys nmax) ds *ᵥ v) := by
  have := flip_mul (A := heb sys ph nmax (grp sys nmax) ds) (B := -heb sys ph nmax (grp sys nmax) ds) (fun k l => by
    rw [Matrix.neg_apply]
    unfold heb
    rw [Matrix.sum_apply, Finset.mul_sum, Finset.sum_mul, ← Finset.sum_neg_distrib, Finset.sum_range, Finset.sum_range]
    refine Finset.sum_congr rfl fun s _ => ?_
    rw [Matrix.smul_apply, smul_eq_mul]
    linear_combination ph.g * flip_x hnb s (rhoi sys ds s) k l) v
  rw [this, Matrix.neg_mulVec]
  funext k
  simp [flip]

theorem heb_neg : heb sys { ph with g := -ph.g } nmax (grp sys nmax) ds = -heb sys ph nmax (grp sys nmax) ds := by
  unfold heb
  rw [← Finset.sum_neg_distrib]
  exact Finset.sum_congr rfl fun s _ => neg_smul _ _

theorem htot_flip (hnb : 0 < sys.nbasis) (v : Fin (np (grp sys nmax) * ds.length) → ℝ) :
    htot sys { ph with g := -ph.g } nmax (grp sys nmax) ds *ᵥ flip v = flip (htot sys ph nmax (grp sys nmax) ds *ᵥ v) := by
  unfold htot
  rw [heb_neg, Matrix.add_mulVec, Matrix.add_mulVec, Matrix.add_mulVec, Matrix.add_mulVec, Matrix.neg_mulVec,
    heb_flip hnb, he_flip, neg_neg]
  have : hbos { ph with g := -ph.g } (grp sys nmax) ds = hbos ph (grp sys nmax) ds := rfl
  rw [this, hbos_flip]
  funext k
  simp [flip, mul_add]

/-- **C106**: the sign of the coupling has no effect on the energies and occupations; the displacements change sign. -/
theorem sign_symmetry (hnb : 0 < sys.nbasis) {val : Fin 3 → ℝ} {vec : Fin 3 → Fin (np (grp sys nmax) * ds.length) → ℝ}
    (h : Eigsh (htot sys ph nmax (grp sys nmax) ds) (some (val, vec))) :
    Eigsh (htot sys { ph with g := -ph.g } nmax (grp sys nmax) ds) (some (val, fun k => flip (vec k))) ∧
      (∀ k (s : Fin sys.nbasis), expect (xOp { ph with g := -ph.g } nmax (grp sys nmax) ds s) (flip (vec k)) =
        -expect (xOp ph nmax (grp sys nmax) ds s) (vec k)) ∧
      ∀ k (s : Fin sys.nbasis), expect (nOp sys (grp sys nmax) ds s) (flip (vec k)) =
        expect (nOp sys (grp sys nmax) ds s) (vec k) := by
  obtain ⟨h1, h2, h3, h4, h5⟩ := h
  refine ⟨⟨h1, fun k => ?_, fun k l => ?_, h4, fun v hv => ?_⟩, fun k s => ?_, fun k s => ?_⟩
  · simp only
    rw [htot_flip hnb, h2]
    funext r
    simp only [flip, Pi.smul_apply, smul_eq_mul]
    ring
  · simp only
    rw [flip_dot, h3]
  · have e := h5 (flip v) (fun k => by
      have := hv k
      simp only at this
      rw [← flip_dot, flip_flip]
      exact this)
    rw [flip_dot] at e
    have e2 := htot_flip (ph := ph) hnb (flip v)
    rw [flip_flip] at e2
    rw [e2, flip_swap]
    exact e
  · unfold expect
    have : xOp { ph with g := -ph.g } nmax (grp sys nmax) ds s *ᵥ flip (vec k) =
        flip (-(xOp ph nmax (grp sys nmax) ds s) *ᵥ vec k) := by
      refine flip_mul (fun k l => ?_) _
      unfold xOp
      rw [Matrix.neg_apply, kron_smul_left, Matrix.smul_apply, smul_eq_mul]
      simp only
      linear_combination (Real.sqrt (2 * ph.m * ph.w0))⁻¹ * flip_x hnb s (1 : Matrix (Fin ds.length) (Fin ds.length) ℝ) k l
    rw [this, flip_dot, Matrix.neg_mulVec, dotProduct_neg]
  · unfold expect
    have : nOp sys (grp sys nmax) ds s *ᵥ flip (vec k) = flip (nOp sys (grp sys nmax) ds s *ᵥ vec k) :=
      flip_mul (fun k l => flip_diag 1 (fun a b h => Matrix.one_apply_ne h) _ k l) _
    rw [this, flip_dot]

/-- The printed occupation of a site is the mean number of electrons there, between zero and two; all sites together have all
electrons. -/
theorem occupations (hds : Dets sys ds) (v : Fin (np (grp sys nmax) * ds.length) → ℝ) :
    (∀ s : Fin sys.nbasis, expect (nOp sys (grp sys nmax) ds s) v =
      ∑ k, dens sys.nbasis s (ds.getD (finProdFinEquiv.symm k).2 []).toFinset * v k ^ 2) ∧
    (∀ s : Fin sys.nbasis, 0 ≤ expect (nOp sys (grp sys nmax) ds s) v ∧ expect (nOp sys (grp sys nmax) ds s) v ≤ 2 * (v ⬝ᵥ v)) ∧
      ∑ s : Fin sys.nbasis, expect (nOp sys (grp sys nmax) ds s) v = (sys.nup + sys.ndown : ℕ) * (v ⬝ᵥ v) := by
  have e : ∀ s : Fin sys.nbasis, expect (nOp sys (grp sys nmax) ds s) v =
      ∑ k, dens sys.nbasis s (ds.getD (finProdFinEquiv.symm k).2 []).toFinset * v k ^ 2 := by
    intro s
    have : nOp sys (grp sys nmax) ds s =
        diagonal fun k => dens sys.nbasis s (ds.getD (finProdFinEquiv.symm k).2 []).toFinset := by
      ext k l
      unfold nOp
      rw [kron_apply, Matrix.diagonal_apply, Matrix.one_apply]
      unfold rhoi
      rw [Matrix.diagonal_apply, rho_eq (hds.det _ (getD_mem ds _ [])) s.2]
      by_cases hkl : k = l
      · subst hkl; simp
      · rw [if_neg hkl]
        by_cases e1 : (finProdFinEquiv.symm k).1 = (finProdFinEquiv.symm l).1
        · rw [if_neg (fun e2 => hkl (finProdFinEquiv.symm.injective (Prod.ext e1 e2))), mul_zero]
        · rw [if_neg e1, zero_mul]
    unfold expect dotProduct
    rw [this]
    refine Finset.sum_congr rfl fun k _ => ?_
    rw [Matrix.mulVec_diagonal]
    ring
  refine ⟨e, fun s => ?_, ?_⟩
  · rw [e s]
    refine ⟨Finset.sum_nonneg fun k _ => mul_nonneg ?_ (sq_nonneg _), ?_⟩
    · unfold dens; split_ifs <;> norm_num
    · unfold dotProduct
      rw [Finset.mul_sum]
      refine Finset.sum_le_sum fun k _ => ?_
      rw [← sq]
      refine mul_le_mul_of_nonneg_right ?_ (sq_nonneg _)
      unfold dens; split_ifs <;> norm_num
  · simp only [e]
    rw [Finset.sum_comm]
    unfold dotProduct
    rw [Finset.mul_sum]
    refine Finset.sum_congr rfl fun k _ => ?_
    have hd := hds.det _ (getD_mem ds (finProdFinEquiv.symm k).2 [])
    rw [← Finset.sum_mul, sum_dens hd.sub, List.toFinset_card_of_nodup hd.nodup, hds.len _ (getD_mem ds _ []), sq]

/-- **C106**: the printed parts add up to the lowest eigenvalue, the phonons cost energy and the coupling never does. -/
theorem parts (hnb : 0 < sys.nbasis) (hw : 0 ≤ ph.w0) {val : Fin 3 → ℝ}
    {vec : Fin 3 → Fin (np (grp sys nmax) * ds.length) → ℝ}
    (h : Eigsh (htot sys ph nmax (grp sys nmax) ds) (some (val, vec))) :
    expect (he sys (grp sys nmax) ds) (vec 0) + expect (hbos ph (grp sys nmax) ds) (vec 0) +
        expect (heb sys ph nmax (grp sys nmax) ds) (vec 0) = val 0 ∧
      0 ≤ expect (hbos ph (grp sys nmax) ds) (vec 0) ∧ expect (heb sys ph nmax (grp sys nmax) ds) (vec 0) ≤ 0 := by
  have hn : vec 0 ⬝ᵥ vec 0 = 1 := by rw [h.2.2.1, if_pos rfl]
  have hsum : ∀ v, v ⬝ᵥ (htot sys ph nmax (grp sys nmax) ds *ᵥ v) = expect (he sys (grp sys nmax) ds) v +
      expect (hbos ph (grp sys nmax) ds) v + expect (heb sys ph nmax (grp sys nmax) ds) v := by
    intro v
    unfold htot expect
    rw [Matrix.add_mulVec, Matrix.add_mulVec, dotProduct_add, dotProduct_add]
  have e0 : vec 0 ⬝ᵥ (htot sys ph nmax (grp sys nmax) ds *ᵥ vec 0) = val 0 := by
    rw [h.2.1, dotProduct_smul, hn]; simp
  have e1 := hsum (vec 0)
  rw [e0] at e1
  refine ⟨e1.symm, ?_, ?_⟩
  · unfold expect hbos hb dotProduct
    refine Finset.sum_nonneg fun k _ => ?_
    have : (kron (diagonal fun a : Fin (np (grp sys nmax)) => ph.w0 * ((((perms (grp sys nmax)).getD a []).sum : Nat) : ℝ))
        (1 : Matrix (Fin ds.length) (Fin ds.length) ℝ)) = diagonal fun k =>
          ph.w0 * ((((perms (grp sys nmax)).getD (finProdFinEquiv.symm k).1 []).sum : Nat) : ℝ) := by
      ext k l
      rw [kron_apply, Matrix.diagonal_apply, Matrix.diagonal_apply, Matrix.one_apply]
      by_cases hkl : k = l
      · subst hkl; simp
      · rw [if_neg hkl]
        by_cases e1 : (finProdFinEquiv.symm k).1 = (finProdFinEquiv.symm l).1
        · rw [if_neg (fun e2 => hkl (finProdFinEquiv.symm.injective (Prod.ext e1 e2))), mul_zero]
        · rw [if_neg e1, zero_mul]
    rw [this, Matrix.mulVec_diagonal]
    have h0 : 0 ≤ ph.w0 * ((((perms (grp sys nmax)).getD (finProdFinEquiv.symm k).1 []).sum : Nat) : ℝ) := by positivity
    nlinarith [mul_nonneg h0 (mul_self_nonneg (vec 0 k))]
  · have h1 := rayleigh (htot_symm _) h 0 (flip (vec 0)) fun l hl => absurd hl (by omega)
    rw [flip_dot, hn, hsum] at h1
    unfold expect at h1 e1 ⊢
    rw [he_flip, hbos_flip, heb_flip hnb, dotProduct_neg, flip_dot, flip_dot, flip_dot] at h1
    linarith

end

/-! ### Limits -/

/-- One electron on one site. -/
def site (e t : ℝ) : CI.System ℝ := ⟨1, 1, 0, e, fun _ _ => t, fun _ _ _ _ => 0⟩

theorem site_dets (e t : ℝ) : dsOf (site e t) none = [[0]] := by
  rw [ds_default]
  rfl

/-- Three or fewer basis states are refused: one electron on one site with up to two phonons. -/
theorem refused (eigsh : Solver) (hE : Solves eigsh) (ph : Ph) (e t : ℝ) (nmax : Nat) (h : nmax ≤ 2) :
    run eigsh (site e t) ph nmax none = none := by
  rw [returns hE (by norm_num [site]), site_dets]
  change (perms (groups 1 nmax)).length * 1 ≤ 3
  interval_cases nmax <;> decide +kernel

theorem site_rhoi (e t : ℝ) : rhoi (site e t) [[0]] 0 = 1 := by
  unfold rhoi
  rw [← Matrix.diagonal_one]
  congr 1
  funext i
  obtain rfl : i = ⟨0, by simp⟩ := Fin.ext (by have := i.2; simp at this ⊢)
  simp [rho, CI.mapOrb, site]

theorem kron_one {a b : Nat} : kron (1 : Matrix (Fin a) (Fin a) ℝ) (1 : Matrix (Fin b) (Fin b) ℝ) = 1 := by
  unfold kron
  rw [Matrix.one_kronecker_one, Matrix.submatrix_one_equiv]

/-- The coupling here is `+ g n (b + b†)`: with a positive coupling the printed displacement of an occupied site is
negative. -/
theorem displacement_negative (e t : ℝ) (ph : Ph) (hg : 0 < ph.g) (hw : 0 < ph.w0) (hm : 0 < ph.m) (nmax : Nat)
    {val : Fin 3 → ℝ} {vec : Fin 3 → Fin (np (grp (site e t) nmax) * [[0]].length) → ℝ}
    (h : Eigsh (htot (site e t) ph nmax (grp (site e t) nmax) [[0]]) (some (val, vec))) :
    expect (xOp ph nmax (grp (site e t) nmax) [[0]] 0) (vec 0) < 0 := by
  have hnb : 0 < (site e t).nbasis := by norm_num [site]
  obtain ⟨p1, p2, p3⟩ := parts hnb hw.le h
  have hn : vec 0 ⬝ᵥ vec 0 = 1 := by rw [h.2.2.1, if_pos rfl]
  have hx : expect (heb (site e t) ph nmax (grp (site e t) nmax) [[0]]) (vec 0) =
      ph.g * Real.sqrt (2 * ph.m * ph.w0) * expect (xOp ph nmax (grp (site e t) nmax) [[0]] 0) (vec 0) := by
    have hne : Real.sqrt (2 * ph.m * ph.w0) ≠ 0 := (Real.sqrt_pos.2 (by positivity)).ne'
    have : heb (site e t) ph nmax (grp (site e t) nmax) [[0]] =
        (ph.g * Real.sqrt (2 * ph.m * ph.w0)) • xOp ph nmax (grp (site e t) nmax) [[0]] 0 := by
      unfold heb xOp
      rw [show (site e t).nbasis = 1 from rfl, Finset.sum_range_one, site_rhoi, kron_smul_left, smul_smul,
        mul_assoc, mul_inv_cancel₀ hne, mul_one]
    rw [this]
    unfold expect
    rw [Matrix.smul_mulVec, dotProduct_smul, smul_eq_mul]
  -- the electron part is the same for all states
  obtain ⟨c, hc⟩ : ∃ c, ∀ v : Fin (np (grp (site e t) nmax) * [[0]].length) → ℝ,
      v ⬝ᵥ (he (site e t) (grp (site e t) nmax) [[0]] *ᵥ v) = c * (v ⬝ᵥ v) := by
    refine ⟨hel (site e t) [[0]] ⟨0, by simp⟩ ⟨0, by simp⟩, fun v => ?_⟩
    have : he (site e t) (grp (site e t) nmax) [[0]] = hel (site e t) [[0]] ⟨0, by simp⟩ ⟨0, by simp⟩ •
        (1 : Matrix (Fin (np (grp (site e t) nmax) * [[0]].length)) (Fin (np (grp (site e t) nmax) * [[0]].length)) ℝ) := by
      rw [← kron_one, ← kron_smul_left]
      ext k l
      unfold he
      rw [kron_apply, kron_apply]
      have h0 : ∀ i : Fin ([[0]] : List (List Nat)).length, i = ⟨0, by simp⟩ := fun i =>
        Fin.ext (by have := i.2; simp at this ⊢)
      rw [h0 (finProdFinEquiv.symm k).2, h0 (finProdFinEquiv.symm l).2, Matrix.smul_apply, Matrix.one_apply_eq,
        smul_eq_mul]
      ring
    rw [this, Matrix.smul_mulVec, Matrix.one_mulVec, dotProduct_smul, smul_eq_mul]
  -- no phonon and one phonon
  have hex : ∀ m ≤ nmax, ∃ a : Fin (np (grp (site e t) nmax)),
      occ (site e t).nbasis ((perms (grp (site e t) nmax)).getD a []) = fun _ => m := by
    intro m hm
    have hmem : [m] ∈ perms (grp (site e t) nmax) := (mem_perms (nmax := nmax) hnb _).2 ⟨rfl, by simpa using hm⟩
    obtain ⟨i, hi, ei⟩ := List.getElem_of_mem hmem
    refine ⟨⟨i, hi⟩, ?_⟩
    funext s
    obtain rfl : s = ⟨0, hnb⟩ := Fin.ext (by have := s.2; simp [site] at this ⊢; omega)
    simp [occ, List.getD_eq_getElem?_getD, List.getElem?_eq_getElem hi, ei]
  have hN : 1 ≤ nmax := by
    by_contra hlt
    obtain rfl : nmax = 0 := by omega
    have h3 := h.1
    revert h3
    change ¬ (3 < (perms (groups 1 0)).length * 1)
    decide +kernel
  obtain ⟨a0, ha0⟩ := hex 0 (by omega)
  obtain ⟨a1, ha1⟩ := hex 1 hN
  have ha : a0 ≠ a1 := by
    rintro rfl
    rw [ha0] at ha1
    have := congrFun ha1 ⟨0, hnb⟩
    simp at this
  set i0 : Fin ([[0]] : List (List Nat)).length := ⟨0, by simp⟩ with hi0
  set k0 := finProdFinEquiv (a0, i0) with hk0
  set k1 := finProdFinEquiv (a1, i0) with hk1
  have hk : k0 ≠ k1 := by
    intro hh
    have := finProdFinEquiv.injective hh
    exact ha (congrArg Prod.fst this)
  set y := -ph.g / ph.w0 with hy
  set v : Fin (np (grp (site e t) nmax) * [[0]].length) → ℝ := Pi.single k0 1 + y • Pi.single k1 1 with hv
  have hvv : v ⬝ᵥ v = 1 + y ^ 2 := by
    rw [hv, add_dotProduct, dotProduct_add, dotProduct_add, smul_dotProduct, smul_dotProduct, dotProduct_smul,
      dotProduct_smul]
    simp [hk, Ne.symm hk, sq]
  have hbi : ∀ a b, bi nmax (grp (site e t) nmax) 0 a b = _ := fun a b => bi_eq hnb (⟨0, hnb⟩ : Fin (site e t).nbasis) a b
  have hb0 : kron (bi nmax (grp (site e t) nmax) 0) (1 : Matrix (Fin ([[0]] : List (List Nat)).length) _ ℝ) *ᵥ v =
      y • Pi.single k0 1 := by
    rw [hv, Matrix.mulVec_add, Matrix.mulVec_smul, Matrix.mulVec_single_one, Matrix.mulVec_single_one]
    have h00 : ∀ k, kron (bi nmax (grp (site e t) nmax) 0) (1 : Matrix (Fin ([[0]] : List (List Nat)).length) _ ℝ) k k0 = 0 := by
      intro k
      rw [kron_apply, hk0, Equiv.symm_apply_apply, hbi, if_neg, zero_mul]
      rw [ha0]
      intro hh
      have := congrFun hh ⟨0, hnb⟩
      simp at this
    have h01 : ∀ k, kron (bi nmax (grp (site e t) nmax) 0) (1 : Matrix (Fin ([[0]] : List (List Nat)).length) _ ℝ) k k1 =
        (Pi.single k0 (1 : ℝ) : Fin (np (grp (site e t) nmax) * [[0]].length) → ℝ) k := by
      intro k
      have hki : (finProdFinEquiv.symm k).2 = i0 := Fin.ext (by have := (finProdFinEquiv.symm k).2.2; simp at this ⊢)
      rw [kron_apply, hk1, Equiv.symm_apply_apply, hki, Matrix.one_apply_eq, mul_one, hbi, ha1]
      by_cases hkk : k = k0
      · rw [hkk, Pi.single_eq_same, hk0, Equiv.symm_apply_apply, ha0, if_pos]
        · simp
        · funext s
          obtain rfl : s = ⟨0, hnb⟩ := Fin.ext (by have := s.2; simp [site] at this ⊢; omega)
          simp
      · rw [Pi.single_eq_of_ne hkk, if_neg]
        intro hh
        apply hkk
        have hz : occ (site e t).nbasis ((perms (grp (site e t) nmax)).getD (finProdFinEquiv.symm k).1 []) = fun _ => 0 := by
          funext s
          obtain rfl : s = ⟨0, hnb⟩ := Fin.ext (by have := s.2; simp [site] at this ⊢; omega)
          have := congrFun hh ⟨0, hnb⟩
          rw [Function.update_self] at this
          omega
        have : (finProdFinEquiv.symm k).1 = a0 := (perms_inj hnb _ _).1 (hz.trans ha0.symm)
        rw [hk0, ← this, ← hki]
        exact (finProdFinEquiv.apply_symm_apply k).symm
    funext k
    simp only [Pi.add_apply, Pi.smul_apply, smul_eq_mul, Matrix.col_apply, h00, h01, zero_add]
  have hq := quadratic (ph := ph) (nmax := nmax) (ds := [[0]]) hnb v
  rw [hc] at hq
  have hsite : ∀ F : Fin (site e t).nbasis → ℝ, ∑ s, F s = F ⟨0, hnb⟩ := fun F => Fin.sum_univ_one (f := F)
  rw [hsite] at hq
  rw [hb0, site_rhoi, kron_one, Matrix.one_mulVec, hvv] at hq
  have d1 : (y • Pi.single k0 (1 : ℝ) : Fin (np (grp (site e t) nmax) * [[0]].length) → ℝ) ⬝ᵥ (y • Pi.single k0 1) = y ^ 2 := by
    rw [smul_dotProduct, dotProduct_smul]
    simp [sq]
  have d2 : v ⬝ᵥ (y • Pi.single k0 (1 : ℝ) : Fin (np (grp (site e t) nmax) * [[0]].length) → ℝ) = y := by
    rw [dotProduct_smul, hv, add_dotProduct, smul_dotProduct]
    simp [hk, Ne.symm hk]
  rw [d1, d2] at hq
  have hr := rayleigh (htot_symm _) h 0 v fun l hl => absurd hl (by omega)
  rw [hq, hvv] at hr
  have hlt : val 0 < c := by
    have e1 : ph.w0 * y ^ 2 + 2 * ph.g * y = -(ph.g ^ 2 / ph.w0) := by
      rw [hy]; field_simp; ring
    have e2 : 0 < ph.g ^ 2 / ph.w0 := by positivity
    have e3 : 0 < 1 + y ^ 2 := by positivity
    rw [e1] at hr
    nlinarith
  have hEel : expect (he (site e t) (grp (site e t) nmax) [[0]]) (vec 0) = c := by
    unfold expect
    rw [hc, hn, mul_one]
  have hneg : expect (heb (site e t) ph nmax (grp (site e t) nmax) [[0]]) (vec 0) < 0 := by linarith
  rw [hx] at hneg
  have hpos : 0 < ph.g * Real.sqrt (2 * ph.m * ph.w0) := mul_pos hg (Real.sqrt_pos.2 (by positivity))
  by_contra hge
  push Not at hge
  nlinarith [mul_nonneg hpos.le hge]

/-- The Monte Carlo code has the coupling `- g n x` (hubbard.py 81): there an occupied site is displaced to the positive
side, so the displacement printed by the exact diagonalisation has the opposite sign. -/
theorem displacement_monte_carlo (y : Holstein.Sys 1) (hg : 0 < y.g) (hw : 0 < y.w) (hm : 0 < y.m) (s : ℝ) (hs : s < 0) :
    (Holstein.energyAt y ![1, 0] fun _ => -s).re < (Holstein.energyAt y ![1, 0] fun _ => s).re := by
  have h : Holstein.energyAt y ![1, 0] (fun _ => -s) =
      Holstein.energyAt y ![1, 0] (fun _ => s) + ((2 * y.g * Real.sqrt (y.m * y.w * 2) * s : ℝ) : ℂ) := by
    simp only [Holstein.energyAt, Holstein.localHH, Holstein.Osc.laplacian, Fin.sum_univ_one]
    simp
    ring
  rw [h, Complex.add_re, Complex.ofReal_re]
  have : 0 < y.g * Real.sqrt (y.m * y.w * 2) := mul_pos hg (Real.sqrt_pos.2 (by positivity))
  nlinarith

/-- The electrons of a system with complex hopping as they are stored (ci.py 46-50): `csr_matrix` holds real numbers, so the
imaginary parts are dropped (with a warning). -/
noncomputable def helStored (sys : CI.System ℂ) (ds : List (List Nat)) : Matrix (Fin ds.length) (Fin ds.length) ℝ :=
  fun i j => (CI.fciMatrix sys ds i j).re

/-- One electron on two sites with the hopping of a ring with a twist of one half. -/
noncomputable def twisted : CI.System ℂ :=
  ⟨2, 1, 0, 0, fun p q => if p = 0 ∧ q = 1 then -(1 + Complex.I) else if p = 1 ∧ q = 0 then -(1 - Complex.I) else 0,
    fun _ _ _ _ => 0⟩

/-- With complex hopping the energies are wrong: the Hamiltonian has an eigenvalue `-√2`, the matrix that is diagonalised
none below `-1`. -/
theorem complex_dropped :
    (∀ p q, twisted.H1 p q = star (twisted.H1 q p)) ∧ CI.fciDets twisted = [[0], [1]] ∧
      (∃ u : Fin 2 → ℂ, u ≠ 0 ∧ (Matrix.of fun i j : Fin 2 =>
        CI.ham 2 0 twisted.H1 twisted.hijkl {(i : Nat)} {(j : Nat)}) *ᵥ u = (-(Real.sqrt 2 : ℂ)) • u) ∧
      ∀ u : Fin 2 → ℝ, -1 * (u ⬝ᵥ u) ≤ u ⬝ᵥ (helStored twisted [[0], [1]] *ᵥ u) := by
  have hdet : ∀ i : Nat, i < 4 → CI.Det 2 [i] := fun i hi => ⟨by simp, by simpa using hi⟩
  have hel : ∀ i j : Nat, i < 2 → j < 2 → (CI.getHmatel twisted [i] [j]).1 = twisted.H1 j i := by
    intro i j hi hj
    have d : CI.diff [0] [0] = [] ∧ CI.diff [1] [1] = [] ∧ CI.diff [0] [1] = [0] ∧ CI.diff [1] [0] = [1] := by decide +kernel
    interval_cases i <;> interval_cases j <;>
      simp [CI.getHmatel, d, CI.sc0, CI.sc0Loop, CI.sc0Inner, CI.sc1, CI.sc1Loop, CI.getPerm, CI.permLoop, CI.mapOrb, twisted]
  have hham : ∀ i j : Nat, i < 2 → j < 2 → CI.ham 2 0 twisted.H1 twisted.hijkl {i} {j} = twisted.H1 i j := by
    intro i j hi hj
    have h := (CI.hmatel_parts twisted (fun _ _ _ _ => rfl) (hdet j (by omega)) (hdet i (by omega))
      ⟨rfl, by interval_cases i <;> interval_cases j <;> decide⟩ rfl).1
    rw [hel j i hj hi] at h
    rw [h]
    rfl
  refine ⟨?_, rfl, ⟨![1 + Complex.I, (Real.sqrt 2 : ℂ)], ?_, ?_⟩, fun u => ?_⟩
  · intro p q
    simp only [twisted]
    by_cases h1 : p = 0 ∧ q = 1
    · obtain ⟨rfl, rfl⟩ := h1
      simp
      ring
    · by_cases h2 : p = 1 ∧ q = 0
      · obtain ⟨rfl, rfl⟩ := h2
        simp
        ring
      · rw [if_neg h1, if_neg h2, if_neg fun h => h2 ⟨h.2, h.1⟩, if_neg fun h => h1 ⟨h.2, h.1⟩, star_zero]
  · intro h
    have := congrFun h 0
    have := congrArg Complex.re this
    simp at this
  · have hs : (Real.sqrt 2 : ℂ) * (Real.sqrt 2 : ℂ) = 2 := by
      rw [← Complex.ofReal_mul, Real.mul_self_sqrt (by norm_num)]; norm_num
    funext i
    fin_cases i
    · simp only [mulVec, dotProduct, Fin.sum_univ_two, Matrix.of_apply]
      rw [hham _ _ (by norm_num) (by norm_num), hham _ _ (by norm_num) (by norm_num)]
      simp [twisted]
      ring
    · simp only [mulVec, dotProduct, Fin.sum_univ_two, Matrix.of_apply]
      rw [hham _ _ (by norm_num) (by norm_num), hham _ _ (by norm_num) (by norm_num)]
      simp [twisted]
      linear_combination hs + Complex.I_mul_I
  · have e : ∀ i j : Fin 2, helStored twisted [[0], [1]] i j = if i = j then 0 else -1 := by
      intro i j
      unfold helStored CI.fciMatrix
      have h00 := hel 0 0 (by norm_num) (by norm_num)
      have h01 := hel 0 1 (by norm_num) (by norm_num)
      have h11 := hel 1 1 (by norm_num) (by norm_num)
      fin_cases i <;> fin_cases j <;> simp [h00, h01, h11] <;> simp [twisted]
    change _ ≤ (∑ i : Fin 2, u i * ∑ j : Fin 2, helStored twisted [[0], [1]] i j * u j)
    change -1 * (∑ i : Fin 2, u i * u i) ≤ _
    simp only [e, Fin.sum_univ_two]
    simp
    nlinarith [sq_nonneg (u 0 - u 1)]

end Verif.BoseCI
