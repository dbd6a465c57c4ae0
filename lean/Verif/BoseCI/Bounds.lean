import Verif.BoseCI.Run

/-!
# Bounds on the lowest energy, and its limit for many phonons
-/

namespace Verif.BoseCI

open Matrix Kronecker Filter

section

variable {sys : CI.System ℝ} {ph : Ph} {nmax : Nat} {ds : List (List Nat)}

theorem kron_mul {a b : Nat} (A C : Matrix (Fin a) (Fin a) ℝ) (B D : Matrix (Fin b) (Fin b) ℝ) :
    kron A B * kron C D = kron (A * C) (B * D) := by
  unfold kron
  rw [Matrix.submatrix_mul_equiv, Matrix.mul_kronecker_mul]

theorem kron_add_left {a b : Nat} (A C : Matrix (Fin a) (Fin a) ℝ) (B : Matrix (Fin b) (Fin b) ℝ) :
    kron (A + C) B = kron A B + kron C B := by
  ext k l
  simp only [kron_apply, Matrix.add_apply, add_mul]

theorem kron_smul_left {a b : Nat} (c : ℝ) (A : Matrix (Fin a) (Fin a) ℝ) (B : Matrix (Fin b) (Fin b) ℝ) :
    kron (c • A) B = c • kron A B := by
  ext k l
  simp only [kron_apply, Matrix.smul_apply, smul_eq_mul, mul_assoc]

theorem kron_sum_left {ι : Type*} (s : Finset ι) {a b : Nat} (A : ι → Matrix (Fin a) (Fin a) ℝ)
    (B : Matrix (Fin b) (Fin b) ℝ) : kron (∑ i ∈ s, A i) B = ∑ i ∈ s, kron (A i) B := by
  ext k l
  simp only [kron_apply, Matrix.sum_apply, Finset.sum_mul]

/-- **C106**: on the states with at most the stated number of phonons the matrix of `b† b` counts the phonons of the
site, also for the states with the largest number. -/
theorem number_matrix (hnb : 0 < sys.nbasis) (s : Fin sys.nbasis) :
    (bi nmax (grp sys nmax) s)ᵀ * bi nmax (grp sys nmax) s =
      diagonal fun a : Fin (np (grp sys nmax)) => (occ sys.nbasis ((perms (grp sys nmax)).getD a []) s : ℝ) := by
  ext a b
  rw [Matrix.mul_apply, Matrix.diagonal_apply]
  set P := fun a : Fin (np (grp sys nmax)) => occ sys.nbasis ((perms (grp sys nmax)).getD a []) with hP
  have hinj : ∀ a b, P a = P b ↔ a = b := fun a b => perms_inj hnb a b
  have hbi : ∀ c a, bi nmax (grp sys nmax) s c a =
      if P a = Function.update (P c) s (P c s + 1) then Real.sqrt (P a s) else 0 := fun c a => bi_eq hnb s c a
  simp only [Matrix.transpose_apply, hbi]
  by_cases hab : a = b
  · subst hab
    rw [if_pos rfl]
    by_cases h0 : P a s = 0
    · change _ = (P a s : ℝ)
      rw [h0, Nat.cast_zero]
      refine Finset.sum_eq_zero fun c _ => ?_
      rw [if_neg, zero_mul]
      intro h
      rw [h, Function.update_self] at h0
      omega
    · have hpa := (mem_perms (nmax := nmax) hnb _).1 (getD_mem (perms (grp sys nmax)) a [])
      -- the state with one phonon less
      have hmem : List.ofFn (Function.update (P a) s (P a s - 1)) ∈ perms (grp sys nmax) := by
        refine (mem_perms (nmax := nmax) hnb _).2 ⟨by simp, ?_⟩
        rw [List.sum_ofFn, Finset.sum_update_of_mem (Finset.mem_univ _)]
        have e := Finset.sum_sdiff (Finset.subset_univ {s}) (f := P a)
        rw [Finset.sum_singleton] at e
        have e2 : ∑ t, P a t = _ := sum_occ hpa.1
        have := hpa.2
        omega
      obtain ⟨c, hc, ec⟩ := List.getElem_of_mem hmem
      have hPc : P ⟨c, hc⟩ = Function.update (P a) s (P a s - 1) := by
        simp only [hP, List.getD_eq_getElem?_getD, List.getElem?_eq_getElem hc, Option.getD_some, ec, ofFn_occ]
      rw [Finset.sum_eq_single ⟨c, hc⟩]
      · rw [if_pos, Real.mul_self_sqrt (Nat.cast_nonneg _)]
        rw [hPc, Function.update_self, Function.update_idem, show P a s - 1 + 1 = P a s by omega,
          Function.update_eq_self]
      · intro d _ hd
        rw [if_neg, zero_mul]
        intro h
        apply hd
        rw [← hinj, hPc, h]
        simp
      · simp
  · rw [if_neg hab]
    refine Finset.sum_eq_zero fun c _ => ?_
    by_cases h1 : P a = Function.update (P c) s (P c s + 1)
    · by_cases h2 : P b = Function.update (P c) s (P c s + 1)
      · exact absurd ((hinj a b).1 (h1.trans h2.symm)) hab
      · rw [if_neg h2, mul_zero]
    · rw [if_neg h1, zero_mul]

theorem hb_eq (hnb : 0 < sys.nbasis) : hb ph (grp sys nmax) =
    ph.w0 • ∑ s : Fin sys.nbasis, (bi nmax (grp sys nmax) s)ᵀ * bi nmax (grp sys nmax) s := by
  simp only [number_matrix hnb]
  ext a b
  rw [Matrix.smul_apply, Matrix.sum_apply]
  unfold hb
  simp only [Matrix.diagonal_apply]
  by_cases h : a = b
  · subst h
    have hpa := (mem_perms (nmax := nmax) hnb _).1 (getD_mem (perms (grp sys nmax)) a [])
    simp only [if_true, smul_eq_mul]
    rw [← Nat.cast_sum, sum_occ hpa.1]
  · simp [h]

/-- The energy with the phonon part as a sum over sites. -/
theorem quadratic (hnb : 0 < sys.nbasis) (v : Fin (np (grp sys nmax) * ds.length) → ℝ) :
    v ⬝ᵥ (htot sys ph nmax (grp sys nmax) ds *ᵥ v) = v ⬝ᵥ (he sys (grp sys nmax) ds *ᵥ v) +
      ∑ s : Fin sys.nbasis, (ph.w0 * ((kron (bi nmax (grp sys nmax) s) 1 *ᵥ v) ⬝ᵥ (kron (bi nmax (grp sys nmax) s) 1 *ᵥ v)) +
        2 * ph.g * ((kron 1 (rhoi sys ds s) *ᵥ v) ⬝ᵥ (kron (bi nmax (grp sys nmax) s) 1 *ᵥ v))) := by
  unfold htot
  rw [Matrix.add_mulVec, Matrix.add_mulVec, dotProduct_add, dotProduct_add, add_assoc]
  congr 1
  rw [Finset.sum_add_distrib]
  congr 1
  · unfold hbos
    rw [hb_eq hnb, kron_smul_left, kron_sum_left, Matrix.smul_mulVec, dotProduct_smul, smul_eq_mul, Matrix.sum_mulVec,
      dotProduct_sum, Finset.mul_sum]
    refine Finset.sum_congr rfl fun s _ => ?_
    congr 1
    have : kron ((bi nmax (grp sys nmax) s)ᵀ * bi nmax (grp sys nmax) s) (1 : Matrix (Fin ds.length) (Fin ds.length) ℝ) =
        (kron (bi nmax (grp sys nmax) s) 1)ᵀ * kron (bi nmax (grp sys nmax) s) 1 := by
      rw [kron_transpose, kron_mul, Matrix.transpose_one, Matrix.one_mul]
    rw [this, ← Matrix.mulVec_mulVec, Matrix.dotProduct_mulVec, Matrix.vecMul_transpose]
  · unfold heb
    rw [Matrix.sum_mulVec, dotProduct_sum, Finset.sum_range]
    refine Finset.sum_congr rfl fun s _ => ?_
    have hr : (rhoi sys ds s)ᵀ = rhoi sys ds s := by unfold rhoi; rw [Matrix.diagonal_transpose]
    have e1 : v ⬝ᵥ (kron (bi nmax (grp sys nmax) s) (rhoi sys ds s) *ᵥ v) =
        (kron 1 (rhoi sys ds s) *ᵥ v) ⬝ᵥ (kron (bi nmax (grp sys nmax) s) 1 *ᵥ v) := by
      have : kron (bi nmax (grp sys nmax) s) (rhoi sys ds s) =
          (kron 1 (rhoi sys ds s))ᵀ * kron (bi nmax (grp sys nmax) s) 1 := by
        rw [kron_transpose, kron_mul, Matrix.transpose_one, Matrix.one_mul, Matrix.mul_one, hr]
      rw [this, ← Matrix.mulVec_mulVec, Matrix.dotProduct_mulVec, Matrix.vecMul_transpose]
    have e2 : v ⬝ᵥ (kron (bi nmax (grp sys nmax) s)ᵀ (rhoi sys ds s) *ᵥ v) =
        v ⬝ᵥ (kron (bi nmax (grp sys nmax) s) (rhoi sys ds s) *ᵥ v) := by
      conv_lhs => rw [← hr, ← kron_transpose, Matrix.mulVec_transpose, dotProduct_comm, ← Matrix.dotProduct_mulVec]
    rw [Matrix.smul_mulVec, dotProduct_smul, kron_add_left, Matrix.add_mulVec, dotProduct_add, e2, e1, smul_eq_mul]
    ring

theorem dens_sq_le (n s : Nat) (S : Finset ℕ) : dens n s S ^ 2 ≤ 2 * dens n s S := by
  unfold dens
  split_ifs <;> norm_num

theorem sum_dens {n : Nat} {S : Finset ℕ} (h : S ⊆ Finset.range (2 * n)) :
    ∑ s : Fin n, dens n s S = S.card := by
  unfold dens
  rw [Finset.sum_add_distrib, ← Finset.sum_range (fun s => if s ∈ S then (1 : ℝ) else 0),
    ← Finset.sum_range (fun s => if s + n ∈ S then (1 : ℝ) else 0)]
  have e : (S.card : ℝ) = ∑ s ∈ Finset.range (2 * n), if s ∈ S then (1 : ℝ) else 0 := by
    rw [Finset.sum_ite_mem, Finset.inter_eq_right.2 h]
    simp
  rw [e, two_mul, Finset.sum_range_add]
  simp only [add_comm n]

/-- **C106**, from below: the coupling lowers the energy by at most `2 g² / w` for each electron. -/
theorem energy_ge (hnb : 0 < sys.nbasis) (hds : Dets sys ds) (hw : 0 < ph.w0) {ε : ℝ}
    (hε : ∀ u : Fin ds.length → ℝ, ε * (u ⬝ᵥ u) ≤ u ⬝ᵥ (hel sys ds *ᵥ u))
    (v : Fin (np (grp sys nmax) * ds.length) → ℝ) :
    (ε - 2 * (sys.nup + sys.ndown : ℕ) * ph.g ^ 2 / ph.w0) * (v ⬝ᵥ v) ≤
      v ⬝ᵥ (htot sys ph nmax (grp sys nmax) ds *ᵥ v) := by
  rw [quadratic hnb]
  -- electrons
  have h1 : ε * (v ⬝ᵥ v) ≤ v ⬝ᵥ (he sys (grp sys nmax) ds *ᵥ v) := by
    have ev : v ⬝ᵥ v = ∑ a, (fun i => v (finProdFinEquiv (a, i))) ⬝ᵥ (fun i => v (finProdFinEquiv (a, i))) := by
      unfold dotProduct
      rw [← finProdFinEquiv.sum_comp, Fintype.sum_prod_type]
    have eh : v ⬝ᵥ (he sys (grp sys nmax) ds *ᵥ v) = ∑ a, (fun i => v (finProdFinEquiv (a, i))) ⬝ᵥ
        (hel sys ds *ᵥ fun i => v (finProdFinEquiv (a, i))) := by
      unfold dotProduct mulVec dotProduct
      rw [← finProdFinEquiv.sum_comp, Fintype.sum_prod_type]
      refine Finset.sum_congr rfl fun a _ => Finset.sum_congr rfl fun i _ => ?_
      congr 1
      rw [← finProdFinEquiv.sum_comp, Fintype.sum_prod_type, Finset.sum_eq_single a]
      · refine Finset.sum_congr rfl fun j _ => ?_
        unfold he
        beta_reduce
        rw [kron_apply, Equiv.symm_apply_apply, Equiv.symm_apply_apply, Matrix.one_apply_eq, one_mul]
      · intro b _ hb
        refine Finset.sum_eq_zero fun j _ => ?_
        unfold he
        beta_reduce
        rw [kron_apply, Equiv.symm_apply_apply, Equiv.symm_apply_apply, Matrix.one_apply_ne (Ne.symm hb), zero_mul,
          zero_mul]
      · simp
    rw [ev, eh, Finset.mul_sum]
    exact Finset.sum_le_sum fun a _ => hε _
  -- each site
  have h2 : ∀ s : Fin sys.nbasis, -(ph.g ^ 2 / ph.w0) * ((kron (1 : Matrix (Fin (np (grp sys nmax))) (Fin (np (grp sys nmax))) ℝ)
        (rhoi sys ds s) *ᵥ v) ⬝ᵥ (kron 1 (rhoi sys ds s) *ᵥ v)) ≤
      ph.w0 * ((kron (bi nmax (grp sys nmax) s) 1 *ᵥ v) ⬝ᵥ (kron (bi nmax (grp sys nmax) s) 1 *ᵥ v)) +
        2 * ph.g * ((kron 1 (rhoi sys ds s) *ᵥ v) ⬝ᵥ (kron (bi nmax (grp sys nmax) s) 1 *ᵥ v)) := by
    intro s
    set B := kron (bi nmax (grp sys nmax) s) (1 : Matrix (Fin ds.length) (Fin ds.length) ℝ) *ᵥ v
    set R := kron (1 : Matrix (Fin (np (grp sys nmax))) (Fin (np (grp sys nmax))) ℝ) (rhoi sys ds s) *ᵥ v
    have h0 : 0 ≤ (B + (ph.g / ph.w0) • R) ⬝ᵥ (B + (ph.g / ph.w0) • R) :=
      Finset.sum_nonneg fun i _ => mul_self_nonneg _
    have h00 : 0 ≤ ph.w0 * ((B + (ph.g / ph.w0) • R) ⬝ᵥ (B + (ph.g / ph.w0) • R)) := mul_nonneg hw.le h0
    have e : ph.w0 * ((B + (ph.g / ph.w0) • R) ⬝ᵥ (B + (ph.g / ph.w0) • R)) =
        ph.w0 * (B ⬝ᵥ B) + 2 * ph.g * (R ⬝ᵥ B) + ph.g ^ 2 / ph.w0 * (R ⬝ᵥ R) := by
      rw [add_dotProduct, dotProduct_add, dotProduct_add, smul_dotProduct, smul_dotProduct, dotProduct_smul,
        dotProduct_smul, dotProduct_comm B R]
      simp only [smul_eq_mul]
      field_simp
      ring
    rw [e] at h00
    linarith
  -- electrons on the sites
  have h3 : ∑ s : Fin sys.nbasis, (kron (1 : Matrix (Fin (np (grp sys nmax))) (Fin (np (grp sys nmax))) ℝ)
      (rhoi sys ds s) *ᵥ v) ⬝ᵥ (kron 1 (rhoi sys ds s) *ᵥ v) ≤ 2 * (sys.nup + sys.ndown : ℕ) * (v ⬝ᵥ v) := by
    have ek : ∀ (s : Fin sys.nbasis) k, (kron (1 : Matrix (Fin (np (grp sys nmax))) (Fin (np (grp sys nmax))) ℝ)
        (rhoi sys ds s) *ᵥ v) k = dens sys.nbasis s (ds.getD (finProdFinEquiv.symm k).2 []).toFinset * v k := by
      intro s k
      have : kron (1 : Matrix (Fin (np (grp sys nmax))) (Fin (np (grp sys nmax))) ℝ) (rhoi sys ds s) =
          diagonal fun k => dens sys.nbasis s (ds.getD (finProdFinEquiv.symm k).2 []).toFinset := by
        ext k l
        rw [kron_apply, Matrix.diagonal_apply, Matrix.one_apply]
        unfold rhoi
        rw [Matrix.diagonal_apply, rho_eq (hds.det _ (getD_mem ds _ [])) s.2]
        by_cases hkl : k = l
        · subst hkl; simp
        · rw [if_neg hkl]
          by_cases e1 : (finProdFinEquiv.symm k).1 = (finProdFinEquiv.symm l).1
          · rw [if_neg (fun e2 => hkl (finProdFinEquiv.symm.injective (Prod.ext e1 e2))), mul_zero]
          · rw [if_neg e1, zero_mul]
      rw [this, Matrix.mulVec_diagonal]
    simp only [dotProduct, ek]
    rw [Finset.sum_comm, Finset.mul_sum]
    refine Finset.sum_le_sum fun k _ => ?_
    set S := (ds.getD (finProdFinEquiv.symm k).2 []).toFinset with hS
    have hd := hds.det _ (getD_mem ds (finProdFinEquiv.symm k).2 [])
    have hcard : (S.card : ℝ) = (sys.nup + sys.ndown : ℕ) := by
      rw [hS, List.toFinset_card_of_nodup hd.nodup, hds.len _ (getD_mem ds _ [])]
    calc ∑ s : Fin sys.nbasis, dens sys.nbasis s S * v k * (dens sys.nbasis s S * v k)
        = (∑ s : Fin sys.nbasis, dens sys.nbasis s S ^ 2) * (v k * v k) := by
          rw [Finset.sum_mul]
          exact Finset.sum_congr rfl fun s _ => by ring
      _ ≤ (∑ s : Fin sys.nbasis, 2 * dens sys.nbasis s S) * (v k * v k) :=
          mul_le_mul_of_nonneg_right (Finset.sum_le_sum fun s _ => dens_sq_le _ _ _) (mul_self_nonneg _)
      _ = 2 * (sys.nup + sys.ndown : ℕ) * (v k * v k) := by
          rw [← Finset.mul_sum, sum_dens hd.sub, hcard]
  have h4 : -(ph.g ^ 2 / ph.w0) * (2 * (sys.nup + sys.ndown : ℕ) * (v ⬝ᵥ v)) ≤
      -(ph.g ^ 2 / ph.w0) * ∑ s : Fin sys.nbasis, (kron (1 : Matrix (Fin (np (grp sys nmax))) (Fin (np (grp sys nmax))) ℝ)
      (rhoi sys ds s) *ᵥ v) ⬝ᵥ (kron 1 (rhoi sys ds s) *ᵥ v) := by
    have : 0 ≤ ph.g ^ 2 / ph.w0 := by positivity
    nlinarith
  have h5 := Finset.sum_le_sum fun (s : Fin sys.nbasis) (_ : s ∈ Finset.univ) => h2 s
  rw [← Finset.mul_sum] at h5
  have e6 : (ε - 2 * (sys.nup + sys.ndown : ℕ) * ph.g ^ 2 / ph.w0) * (v ⬝ᵥ v) =
      ε * (v ⬝ᵥ v) + -(ph.g ^ 2 / ph.w0) * (2 * (sys.nup + sys.ndown : ℕ) * (v ⬝ᵥ v)) := by ring
  rw [e6]
  linarith

/-- The vacuum is a phonon state. -/
theorem exists_vacuum (hnb : 0 < sys.nbasis) : ∃ a : Fin (np (grp sys nmax)),
    occ sys.nbasis ((perms (grp sys nmax)).getD a []) = 0 := by
  have hmem : List.replicate sys.nbasis 0 ∈ perms (grp sys nmax) := (mem_perms (nmax := nmax) hnb _).2 ⟨by simp, by simp⟩
  obtain ⟨c, hc, ec⟩ := List.getElem_of_mem hmem
  refine ⟨⟨c, hc⟩, ?_⟩
  funext s
  simp [occ, List.getD_eq_getElem?_getD, List.getElem?_eq_getElem hc, ec]

/-- The electrons alone, without phonons. -/
theorem vacuum_energy (hnb : 0 < sys.nbasis) (hsym : Sym sys) (hds : Dets sys ds) (u : Fin ds.length → ℝ) :
    ∃ v : Fin (np (grp sys nmax) * ds.length) → ℝ, v ⬝ᵥ v = u ⬝ᵥ u ∧
      v ⬝ᵥ (htot sys ph nmax (grp sys nmax) ds *ᵥ v) = u ⬝ᵥ (hel sys ds *ᵥ u) := by
  obtain ⟨a, ha⟩ := exists_vacuum (nmax := nmax) hnb
  have el : ∀ i j, htot sys ph nmax (grp sys nmax) ds (finProdFinEquiv (a, i)) (finProdFinEquiv (a, j)) = hel sys ds i j := by
    intro i j
    unfold htot he hbos heb
    rw [Matrix.add_apply, Matrix.add_apply, Matrix.sum_apply, kron_apply, kron_apply, Equiv.symm_apply_apply,
      Equiv.symm_apply_apply]
    have hpa := (mem_perms (nmax := nmax) hnb _).1 (getD_mem (perms (grp sys nmax)) a [])
    have hs0 : ((perms (grp sys nmax)).getD a []).sum = 0 := by rw [← sum_occ hpa.1, ha]; simp
    have hb0 : hb ph (grp sys nmax) a a = 0 := by
      unfold hb
      rw [Matrix.diagonal_apply_eq, hs0]; simp
    rw [Matrix.one_apply_eq, one_mul, hb0, zero_mul, add_zero, Finset.sum_range, Finset.sum_eq_zero, add_zero]
    intro s _
    rw [Matrix.smul_apply, kron_apply, Equiv.symm_apply_apply, Equiv.symm_apply_apply, Matrix.add_apply,
      Matrix.transpose_apply, bi_eq hnb, if_neg]
    · simp
    · rw [ha]
      intro h
      have := congrFun h s
      simp at this
  refine ⟨fun k => if (finProdFinEquiv.symm k).1 = a then u (finProdFinEquiv.symm k).2 else 0, ?_, ?_⟩
  · unfold dotProduct
    rw [← finProdFinEquiv.sum_comp, Fintype.sum_prod_type, Finset.sum_eq_single a]
    · simp
    · intro b _ hb; simp [hb]
    · simp
  · unfold dotProduct mulVec dotProduct
    rw [← finProdFinEquiv.sum_comp, Fintype.sum_prod_type, Finset.sum_eq_single a]
    · refine Finset.sum_congr rfl fun i _ => ?_
      simp only [Equiv.symm_apply_apply, if_true]
      congr 1
      rw [← finProdFinEquiv.sum_comp, Fintype.sum_prod_type, Finset.sum_eq_single a]
      · refine Finset.sum_congr rfl fun j _ => ?_
        simp only [Equiv.symm_apply_apply, if_true, el]
      · intro b _ hb; simp [hb]
      · simp
    · intro b _ hb; simp [hb]
    · simp

variable {eigsh : Solver} {occs : Option (List (List Nat × List Nat))}

/-- **C106**: the lowest energy lies between that of the electrons alone and the same less `2 g² / w` for each electron. -/
theorem bounds (hE : Solves eigsh) (hnb : 0 < sys.nbasis) (hsym : Sym sys) (hds : Dets sys (dsOf sys occs))
    (hw : 0 < ph.w0) {ε : ℝ} (hε : ∀ u : Fin (dsOf sys occs).length → ℝ, ε * (u ⬝ᵥ u) ≤ u ⬝ᵥ (hel sys (dsOf sys occs) *ᵥ u))
    {out : (Fin 3 → ℝ) × (Fin 3 → List ℝ)} (h : run eigsh sys ph nmax occs = some out) :
    ε - 2 * (sys.nup + sys.ndown : ℕ) * ph.g ^ 2 / ph.w0 ≤ out.1 0 ∧
      ∀ u : Fin (dsOf sys occs).length → ℝ, out.1 0 * (u ⬝ᵥ u) ≤ u ⬝ᵥ (hel sys (dsOf sys occs) *ᵥ u) := by
  rw [run_eq hnb] at h
  have hc := hE _ _ (htot_symm (sys := sys) (ph := ph) (nmax := nmax) (ds := dsOf sys occs) (grp sys nmax))
  rcases hr : eigsh _ (htot sys ph nmax (grp sys nmax) (dsOf sys occs)) with _ | ⟨val, vec⟩
  · rw [hr] at h; simp at h
  · rw [hr] at h hc
    obtain rfl : (val, fun k => List.ofFn (vec k)) = out := by simpa using h
    refine ⟨?_, fun u => ?_⟩
    · have h1 := energy_ge (ph := ph) (nmax := nmax) hnb hds hw hε (vec 0)
      rw [hc.2.1, dotProduct_smul, hc.2.2.1, if_pos rfl] at h1
      simpa using h1
    · obtain ⟨v, h1, h2⟩ := vacuum_energy (ph := ph) (nmax := nmax) hnb hsym hds u
      rw [← h1, ← h2]
      exact rayleigh (htot_symm _) hc 0 v fun l hl => absurd hl (by omega)

/-- The energies of the states of the electron space, with any number of phonons. -/
def energies (sys : CI.System ℝ) (ph : Ph) (ds : List (List Nat)) : Set ℝ :=
  {e | ∃ ψ, State (space ds) ψ ∧ 0 < braket ψ ψ ∧ e = braket ψ (ham' sys ph ds ψ) / braket ψ ψ}

theorem exists_atMost {n : Nat} {D : Finset (Finset ℕ)} {ψ : Amp n} (h : State D ψ) : ∃ N, AtMost N ψ := by
  obtain ⟨N, hN⟩ := (h.1.image fun x => ∑ s, x.1 s).bddAbove
  exact ⟨N, fun x hx => hN ⟨x, hx, rfl⟩⟩

/-- **C106**: with more and more phonons the lowest energy tends to the ground state energy of the Hamiltonian. -/
theorem converges (hE : Solves eigsh) (hnb : 0 < sys.nbasis) (hsym : Sym sys) (hds : Dets sys (dsOf sys occs))
    (hne : dsOf sys occs ≠ []) (hw : 0 < ph.w0) (out : ℕ → (Fin 3 → ℝ) × (Fin 3 → List ℝ))
    (h : ∀ N, 3 ≤ N → run eigsh sys ph N occs = some (out N)) :
    BddBelow (energies sys ph (dsOf sys occs)) ∧
      Tendsto (fun N => (out N).1 0) atTop (nhds (sInf (energies sys ph (dsOf sys occs)))) := by
  set ds := dsOf sys occs with hdsd
  -- the energy at a number of phonons is attained and is below all with fewer
  have hatt : ∀ N, 3 ≤ N → (out N).1 0 ∈ energies sys ph ds := by
    intro N hN
    obtain ⟨ψ, hψ, -, horth, -, heig, -⟩ := lowest hE hnb hsym hds (h N hN)
    refine ⟨ψ 0, (hψ 0).1, by rw [horth]; norm_num, ?_⟩
    rw [heig 0 (ψ 0) (hψ 0).1 (hψ 0).2, horth]
    simp
  have hlow : ∀ e ∈ energies sys ph ds, ∃ M, ∀ N, 3 ≤ N → M ≤ N → (out N).1 0 ≤ e := by
    rintro e ⟨ψ, h1, h2, rfl⟩
    obtain ⟨M, hM⟩ := exists_atMost h1
    refine ⟨M, fun N hN hMN => ?_⟩
    obtain ⟨φ, -, -, -, -, -, hl⟩ := lowest hE hnb hsym hds (h N hN)
    rw [le_div_iff₀ h2]
    exact hl 0 ψ h1 (hM.mono hMN) fun l hl => absurd hl (by omega)
  -- a lower bound for the electrons
  obtain ⟨ε, hε⟩ : ∃ ε, ∀ u : Fin ds.length → ℝ, ε * (u ⬝ᵥ u) ≤ u ⬝ᵥ (hel sys ds *ᵥ u) := by
    refine ⟨-∑ i, ∑ j, |hel sys ds i j|, fun u => ?_⟩
    have key : ∀ i j, |u i * (hel sys ds i j * u j)| ≤ |hel sys ds i j| * (u ⬝ᵥ u) := by
      intro i j
      have hi : u i ^ 2 ≤ u ⬝ᵥ u := by
        have := Finset.single_le_sum (f := fun i => u i * u i) (fun i _ => mul_self_nonneg _) (Finset.mem_univ i)
        simpa [dotProduct, sq] using this
      have hj : u j ^ 2 ≤ u ⬝ᵥ u := by
        have := Finset.single_le_sum (f := fun i => u i * u i) (fun i _ => mul_self_nonneg _) (Finset.mem_univ j)
        simpa [dotProduct, sq] using this
      have : |u i| * |u j| ≤ u ⬝ᵥ u := by
        have := two_mul_le_add_sq |u i| |u j|
        rw [sq_abs, sq_abs] at this
        linarith
      rw [abs_mul, abs_mul]
      calc |u i| * (|hel sys ds i j| * |u j|) = |hel sys ds i j| * (|u i| * |u j|) := by ring
        _ ≤ _ := mul_le_mul_of_nonneg_left this (abs_nonneg _)
    have e1 : u ⬝ᵥ (hel sys ds *ᵥ u) = ∑ i, ∑ j, u i * (hel sys ds i j * u j) := by
      simp only [dotProduct, mulVec, Finset.mul_sum]
    have e2 : -(∑ i, ∑ j, |hel sys ds i j|) * (u ⬝ᵥ u) = ∑ i, ∑ j, -(|hel sys ds i j| * (u ⬝ᵥ u)) := by
      simp only [neg_mul, Finset.sum_mul, Finset.sum_neg_distrib]
    rw [e1, e2]
    exact Finset.sum_le_sum fun i _ => Finset.sum_le_sum fun j _ => (abs_le.1 (key i j)).1
  have hbd : BddBelow (energies sys ph ds) := by
    refine ⟨ε - 2 * (sys.nup + sys.ndown : ℕ) * ph.g ^ 2 / ph.w0, fun e he => ?_⟩
    obtain ⟨M, hM⟩ := hlow e he
    exact (bounds hE hnb hsym hds hw hε (h (max 3 M) (le_max_left _ _))).1.trans
      (hM (max 3 M) (le_max_left _ _) (le_max_right _ _))
  refine ⟨hbd, ?_⟩
  rw [Metric.tendsto_atTop]
  intro δ hδ
  obtain ⟨e, he, hlt⟩ := exists_lt_of_csInf_lt ⟨_, hatt 3 le_rfl⟩ (lt_add_of_pos_right (sInf (energies sys ph ds)) hδ)
  obtain ⟨M, hM⟩ := hlow e he
  refine ⟨max 3 M, fun N hN => ?_⟩
  have h3 : 3 ≤ N := (le_max_left _ _).trans hN
  have h1 := csInf_le hbd (hatt N h3)
  have h2 := hM N h3 ((le_max_right _ _).trans hN)
  rw [Real.dist_eq, abs_of_nonneg (by linarith)]
  linarith

end

end Verif.BoseCI
