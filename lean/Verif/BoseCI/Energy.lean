import Verif.BoseCI.Embed
import Mathlib.LinearAlgebra.FiniteDimensional.Lemmas
import Mathlib.LinearAlgebra.Dimension.Constructions
import Mathlib.Algebra.Order.BigOperators.Ring.Finset

/-!
# Vectors as states; the eigenvalues as energies
-/

namespace Verif.BoseCI

open Matrix

section

variable {sys : CI.System ℝ} {ph : Ph} {nmax : Nat} {ds : List (List Nat)}

theorem embed_apply (v : Fin (np (grp sys nmax) * ds.length) → ℝ) (x : Basis sys.nbasis) :
    embed sys nmax ds v x = ∑ k, if x = basisOf sys nmax ds k then v k else 0 := by
  unfold embed
  rw [Finset.sum_apply]
  refine Finset.sum_congr rfl fun k _ => ?_
  simp [unit]

theorem embed_basisOf (hnb : 0 < sys.nbasis) (hds : Dets sys ds) (v : Fin (np (grp sys nmax) * ds.length) → ℝ)
    (k : Fin (np (grp sys nmax) * ds.length)) : embed sys nmax ds v (basisOf sys nmax ds k) = v k := by
  rw [embed_apply]
  simp only [(basisOf_inj hnb hds).eq_iff]
  simp

theorem embed_support (v : Fin (np (grp sys nmax) * ds.length) → ℝ) (x : Basis sys.nbasis)
    (h : embed sys nmax ds v x ≠ 0) : ∃ k, basisOf sys nmax ds k = x := by
  by_contra hne
  push Not at hne
  apply h
  rw [embed_apply]
  exact Finset.sum_eq_zero fun k _ => if_neg (hne k).symm

theorem embed_state (hnb : 0 < sys.nbasis) (v : Fin (np (grp sys nmax) * ds.length) → ℝ) :
    State (space ds) (embed sys nmax ds v) ∧ AtMost nmax (embed sys nmax ds v) := by
  refine ⟨⟨?_, fun x hx => ?_⟩, fun x hx => ?_⟩
  · exact (Set.finite_range (basisOf sys nmax ds)).subset fun x hx => embed_support v x hx
  · exact ((range_basisOf hnb x).1 (embed_support v x hx)).2
  · exact ((range_basisOf hnb x).1 (embed_support v x hx)).1

theorem embed_of_state (hnb : 0 < sys.nbasis) (hds : Dets sys ds) {ψ : Amp sys.nbasis} (h1 : State (space ds) ψ)
    (h2 : AtMost nmax ψ) : embed sys nmax ds (fun k => ψ (basisOf sys nmax ds k)) = ψ := by
  funext x
  by_cases hx : ∃ k, basisOf sys nmax ds k = x
  · obtain ⟨k, rfl⟩ := hx
    rw [embed_basisOf hnb hds]
  · have e1 : ψ x = 0 := by
      by_contra hne
      exact hx ((range_basisOf hnb x).2 ⟨h2 x hne, h1.2 x hne⟩)
    have e2 : embed sys nmax ds (fun k => ψ (basisOf sys nmax ds k)) x = 0 := by
      by_contra hne
      exact hx (embed_support _ x hne)
    rw [e1, e2]

theorem braket_embed (hnb : 0 < sys.nbasis) (hds : Dets sys ds) (v : Fin (np (grp sys nmax) * ds.length) → ℝ)
    (φ : Amp sys.nbasis) : braket (embed sys nmax ds v) φ = v ⬝ᵥ fun k => φ (basisOf sys nmax ds k) := by
  unfold braket
  rw [finsum_eq_sum_of_support_subset (s := Finset.univ.map ⟨_, basisOf_inj hnb hds⟩)]
  · rw [Finset.sum_map]
    unfold dotProduct
    refine Finset.sum_congr rfl fun k _ => ?_
    simp only [Function.Embedding.coeFn_mk]
    rw [embed_basisOf hnb hds]
  · intro x hx
    rw [Function.mem_support] at hx
    obtain ⟨k, hk⟩ := embed_support v x (left_ne_zero_of_mul hx)
    simp only [Finset.coe_map, Finset.coe_univ, Set.image_univ, Function.Embedding.coeFn_mk]
    exact ⟨k, hk⟩

theorem braket_embed_embed (hnb : 0 < sys.nbasis) (hds : Dets sys ds)
    (u v : Fin (np (grp sys nmax) * ds.length) → ℝ) :
    braket (embed sys nmax ds u) (embed sys nmax ds v) = u ⬝ᵥ v := by
  rw [braket_embed hnb hds]
  congr 1
  funext k
  exact embed_basisOf hnb hds v k

/-- The Hamiltonian of the parameters of the run. -/
noncomputable abbrev ham' (sys : CI.System ℝ) (ph : Ph) (ds : List (List Nat)) (ψ : Amp sys.nbasis) : Amp sys.nbasis :=
  hamOp sys.ecore sys.H1 sys.hijkl ph.w0 ph.g (space ds) ψ

theorem ham_embed (hnb : 0 < sys.nbasis) (hsym : Sym sys) (hds : Dets sys ds)
    (v : Fin (np (grp sys nmax) * ds.length) → ℝ) (k : Fin (np (grp sys nmax) * ds.length)) :
    ham' sys ph ds (embed sys nmax ds v) (basisOf sys nmax ds k) = (htot sys ph nmax (grp sys nmax) ds *ᵥ v) k := by
  have : ham' sys ph ds (embed sys nmax ds v) =
      ∑ l, v l • ham' sys ph ds (unit (basisOf sys nmax ds l)) := by
    change hamLin sys.ecore sys.H1 sys.hijkl ph.w0 ph.g (space ds) _ = _
    unfold embed
    rw [map_sum]
    refine Finset.sum_congr rfl fun l _ => ?_
    rw [map_smul]
    rfl
  rw [this, Finset.sum_apply]
  unfold mulVec dotProduct
  refine Finset.sum_congr rfl fun l _ => ?_
  beta_reduce
  rw [matrix_element hnb hsym hds, Pi.smul_apply, smul_eq_mul, mul_comm]

theorem braket_ham (hnb : 0 < sys.nbasis) (hsym : Sym sys) (hds : Dets sys ds)
    (u v : Fin (np (grp sys nmax) * ds.length) → ℝ) :
    braket (embed sys nmax ds u) (ham' sys ph ds (embed sys nmax ds v)) =
      u ⬝ᵥ (htot sys ph nmax (grp sys nmax) ds *ᵥ v) := by
  rw [braket_embed hnb hds]
  congr 1
  funext k
  exact ham_embed hnb hsym hds v k

/-! ### The matrix is symmetric -/

theorem kron_transpose {a b : Nat} (A : Matrix (Fin a) (Fin a) ℝ) (B : Matrix (Fin b) (Fin b) ℝ) :
    (kron A B)ᵀ = kron Aᵀ Bᵀ := by
  ext k l
  rfl

theorem hel_symm : (hel sys ds)ᵀ = hel sys ds := by
  ext i j
  simp only [Matrix.transpose_apply, hel, CI.fciMatrix]
  by_cases h : i = j
  · rw [h]
  · have : (i : Nat) ≠ j := fun e => h (Fin.ext e)
    split_ifs <;> first | rfl | omega

variable (se : List (List (List Nat)))

theorem he_symm : (he sys se ds)ᵀ = he sys se ds := by
  unfold he
  rw [kron_transpose, hel_symm, Matrix.transpose_one]

theorem hbos_symm : (hbos ph se ds)ᵀ = hbos ph se ds := by
  unfold hbos hb
  rw [kron_transpose, Matrix.transpose_one, Matrix.diagonal_transpose]

theorem heb_symm : (heb sys ph nmax se ds)ᵀ = heb sys ph nmax se ds := by
  unfold heb
  rw [Matrix.transpose_sum]
  refine Finset.sum_congr rfl fun s _ => ?_
  unfold rhoi
  rw [Matrix.transpose_smul, kron_transpose, Matrix.transpose_add, Matrix.transpose_transpose,
    Matrix.diagonal_transpose, add_comm]

theorem htot_symm : (htot sys ph nmax se ds)ᵀ = htot sys ph nmax se ds := by
  unfold htot
  rw [Matrix.transpose_add, Matrix.transpose_add, he_symm, hbos_symm, heb_symm]

end

/-! ### The eigensolver -/

theorem symm_dot {N : Nat} {H : Matrix (Fin N) (Fin N) ℝ} (hH : Hᵀ = H) (u v : Fin N → ℝ) :
    u ⬝ᵥ (H *ᵥ v) = v ⬝ᵥ (H *ᵥ u) := by
  rw [Matrix.dotProduct_mulVec, ← Matrix.mulVec_transpose, hH, dotProduct_comm]

/-- A vector orthogonal to the eigenvectors of the lower eigenvalues has no lower energy. -/
theorem rayleigh {N : Nat} {H : Matrix (Fin N) (Fin N) ℝ} (hH : Hᵀ = H) {val : Fin 3 → ℝ} {vec : Fin 3 → Fin N → ℝ}
    (h : Eigsh H (some (val, vec))) (k : Fin 3) (v : Fin N → ℝ) (hv : ∀ l < k, vec l ⬝ᵥ v = 0) :
    val k * (v ⬝ᵥ v) ≤ v ⬝ᵥ (H *ᵥ v) := by
  obtain ⟨-, heig, horth, hmono, hrest⟩ := h
  set c : Fin 3 → ℝ := fun l => vec l ⬝ᵥ v with hc
  set u := ∑ l, c l • vec l with hu
  set w := v - u with hw
  have hvw : v = u + w := by rw [hw]; abel
  have hlu : ∀ l, vec l ⬝ᵥ u = c l := by
    intro l
    rw [hu, dotProduct_sum]
    simp only [dotProduct_smul, horth, smul_eq_mul]
    simp
  have hlw : ∀ l, vec l ⬝ᵥ w = 0 := by
    intro l
    rw [hw, dotProduct_sub, hlu]
    exact sub_self _
  have huw : u ⬝ᵥ w = 0 := by
    rw [hu, sum_dotProduct]
    exact Finset.sum_eq_zero fun l _ => by rw [smul_dotProduct, hlw, smul_zero]
  have hHu : H *ᵥ u = ∑ l, (c l * val l) • vec l := by
    rw [hu, Matrix.mulVec_sum]
    refine Finset.sum_congr rfl fun l _ => ?_
    rw [Matrix.mulVec_smul, heig, smul_smul]
  have huu : u ⬝ᵥ u = ∑ l, c l ^ 2 := by
    conv_lhs => rw [hu]
    rw [sum_dotProduct]
    refine Finset.sum_congr rfl fun l _ => ?_
    rw [smul_dotProduct, hlu, smul_eq_mul, sq]
  have huHu : u ⬝ᵥ (H *ᵥ u) = ∑ l, val l * c l ^ 2 := by
    rw [hHu, dotProduct_sum]
    refine Finset.sum_congr rfl fun l _ => ?_
    rw [dotProduct_smul, dotProduct_comm, hlu, smul_eq_mul]
    ring
  have hwHu : w ⬝ᵥ (H *ᵥ u) = 0 := by
    rw [hHu, dotProduct_sum]
    refine Finset.sum_eq_zero fun l _ => ?_
    rw [dotProduct_smul, dotProduct_comm, hlw, smul_zero]
  have e1 : v ⬝ᵥ v = ∑ l, c l ^ 2 + w ⬝ᵥ w := by
    rw [hvw, add_dotProduct, dotProduct_add, dotProduct_add, huw, dotProduct_comm w u, huw, huu]
    ring
  have e2 : v ⬝ᵥ (H *ᵥ v) = ∑ l, val l * c l ^ 2 + w ⬝ᵥ (H *ᵥ w) := by
    rw [hvw, Matrix.mulVec_add, add_dotProduct, dotProduct_add, dotProduct_add, hwHu, symm_dot hH u w, hwHu, huHu]
    ring
  have h3 := hrest w hlw
  have hww : 0 ≤ w ⬝ᵥ w := Finset.sum_nonneg fun i _ => mul_self_nonneg _
  have h4 : val k * (w ⬝ᵥ w) ≤ val 2 * (w ⬝ᵥ w) :=
    mul_le_mul_of_nonneg_right (hmono (by omega)) hww
  have h5 : val k * ∑ l, c l ^ 2 ≤ ∑ l, val l * c l ^ 2 := by
    rw [Finset.mul_sum]
    refine Finset.sum_le_sum fun l _ => ?_
    by_cases hl : l < k
    · have : c l = 0 := hv l hl
      rw [this]; simp
    · exact mul_le_mul_of_nonneg_right (hmono (not_lt.1 hl)) (sq_nonneg _)
  rw [e1, e2, mul_add]
  linarith

/-- Among combinations of `k + 1` vectors one is orthogonal to `k` given ones. -/
theorem exists_orthogonal {N : Nat} (k : Nat) (u : Fin (k + 1) → Fin N → ℝ) (w : Fin k → Fin N → ℝ) :
    ∃ c : Fin (k + 1) → ℝ, c ≠ 0 ∧ ∀ l, w l ⬝ᵥ (∑ m, c m • u m) = 0 := by
  have : ∃ c : Fin (k + 1) → ℝ, c ≠ 0 ∧ (Matrix.of fun l m => w l ⬝ᵥ u m) *ᵥ c = 0 := by
    have hk := LinearMap.ker_ne_bot_of_finrank_lt
      (f := (Matrix.of fun (l : Fin k) (m : Fin (k + 1)) => w l ⬝ᵥ u m).mulVecLin) (by simp)
    obtain ⟨c, hc, h0⟩ := Submodule.exists_mem_ne_zero_of_ne_bot hk
    exact ⟨c, h0, hc⟩
  obtain ⟨c, hc, h⟩ := this
  refine ⟨c, hc, fun l => ?_⟩
  have := congrFun h l
  simp only [mulVec, dotProduct, Matrix.of_apply, Pi.zero_apply] at this
  rw [dotProduct_sum]
  simp only [dotProduct_smul, smul_eq_mul]
  rw [← this]
  exact Finset.sum_congr rfl fun m _ => mul_comm _ _

end Verif.BoseCI
