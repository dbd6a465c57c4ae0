import Verif.Step.Converge
import Mathlib.Analysis.Matrix.Spectrum

/-!
# Energies of free projection (C82)

The ratio of the averages of numerator and denominator of the projected energy converges, for many small
steps, to that of the state evolved in imaginary time, and for large imaginary time to the lowest energy
among the eigenstates that occur in the initial state and overlap with the trial state.
-/

namespace Verif.Step

open MeasureTheory Matrix Finset Filter Topology
open Verif.Energy (ovl oneBody twoBody hamil)

variable {κ : Type} [Fintype κ] [DecidableEq κ] {ι : Type} [Fintype ι] [DecidableEq ι] {m nx nb nu nd : Nat}

/-! ## Eigenstates -/

theorem exp_mulVec {X : Matrix κ κ ℂ} {u : κ → ℂ} {r : ℂ} (h : X *ᵥ u = r • u) :
    NormedSpace.exp X *ᵥ u = Complex.exp r • u := by
  letI : NormedRing (Matrix κ κ ℂ) := Matrix.linftyOpNormedRing
  letI : NormedAlgebra ℂ (Matrix κ κ ℂ) := Matrix.linftyOpNormedAlgebra
  have hp : ∀ k : ℕ, X ^ k *ᵥ u = r ^ k • u := by
    intro k
    induction k with
    | zero => simp
    | succ k ih => rw [pow_succ, ← Matrix.mulVec_mulVec, h, Matrix.mulVec_smul, ih, smul_smul, pow_succ, mul_comm]
  have h1 : HasSum (fun k : ℕ => (((k.factorial : ℂ)⁻¹) • X ^ k) *ᵥ u) (NormedSpace.exp X *ᵥ u) := by
    have hc : Continuous fun M : Matrix κ κ ℂ => M *ᵥ u := by
      refine continuous_pi fun g => ?_
      simp only [Matrix.mulVec, dotProduct]
      fun_prop
    exact (NormedSpace.exp_series_hasSum_exp' (𝕂 := ℂ) X).map
      ({ toFun := fun M => M *ᵥ u, map_zero' := Matrix.zero_mulVec u,
         map_add' := fun A B => Matrix.add_mulVec A B u } : Matrix κ κ ℂ →+ _) hc
  have h2 : HasSum (fun k : ℕ => (((k.factorial : ℂ)⁻¹) • X ^ k) *ᵥ u) (Complex.exp r • u) := by
    have := (NormedSpace.exp_series_hasSum_exp' (𝕂 := ℂ) r).smul_const u
    rw [← Complex.exp_eq_exp_ℂ] at this
    convert this using 2 with k
    rw [Matrix.smul_mulVec, hp, smul_smul, smul_eq_mul]
  exact h1.unique h2

/-- Every vector is a sum of eigenvectors of a Hermitian matrix. -/
theorem eigen_sum {H : Matrix κ κ ℂ} (hH : H.IsHermitian) (v : κ → ℂ) :
    ∃ (E : κ → ℝ) (u : κ → κ → ℂ), (∀ j, H *ᵥ u j = (E j : ℂ) • u j) ∧ ∑ j, u j = v := by
  refine ⟨hH.eigenvalues, fun j => (hH.eigenvectorBasis.repr (WithLp.toLp 2 v) j) • (hH.eigenvectorBasis j).ofLp,
    fun j => ?_, ?_⟩
  · rw [Matrix.mulVec_smul, hH.mulVec_eigenvectorBasis j, smul_comm]
    congr 1
  · have := hH.eigenvectorBasis.sum_repr (WithLp.toLp 2 v)
    have h2 := congrArg WithLp.ofLp this
    rw [WithLp.ofLp_sum] at h2
    simpa using h2

/-! ## Large imaginary time -/

/-- Expansion in eigenstates. -/
theorem evolve_sum {J : Type} [Fintype J] {H : Matrix κ κ ℂ} {E : J → ℝ} {u : J → κ → ℂ}
    (hu : ∀ j, H *ᵥ u j = (E j : ℂ) • u j) (α : κ → ℂ) (β : ℝ) :
    α ⬝ᵥ (NormedSpace.exp (-(β : ℂ) • H) *ᵥ ∑ j, u j) = ∑ j, Complex.exp (-β * E j) * (α ⬝ᵥ u j) := by
  rw [Matrix.mulVec_sum, dotProduct_sum]
  refine sum_congr rfl fun j _ => ?_
  have h : (-(β : ℂ) • H) *ᵥ u j = (-(β : ℂ) * E j) • u j := by rw [Matrix.smul_mulVec, hu, smul_smul]
  rw [exp_mulVec h, dotProduct_smul, smul_eq_mul]

/-- The overlap with the evolved state, less its exponential decay. -/
theorem project_den {J : Type} [Fintype J] {H : Matrix κ κ ℂ} {E : J → ℝ} {u : J → κ → ℂ}
    (hu : ∀ j, H *ᵥ u j = (E j : ℂ) • u j) (α : κ → ℂ) (E0 : ℝ) (hlow : ∀ j, E j < E0 → α ⬝ᵥ u j = 0) :
    (∀ j, Tendsto (fun β : ℝ => Complex.exp (-β * (E j - E0)) * (α ⬝ᵥ u j)) atTop
      (𝓝 (if E j = E0 then α ⬝ᵥ u j else 0))) ∧
    Tendsto (fun β : ℝ => Complex.exp (β * E0) * (α ⬝ᵥ (NormedSpace.exp (-(β : ℂ) • H) *ᵥ ∑ j, u j))) atTop
      (𝓝 (∑ j with E j = E0, α ⬝ᵥ u j)) := by
  have hterm : ∀ j, Tendsto (fun β : ℝ => Complex.exp (-β * (E j - E0)) * (α ⬝ᵥ u j)) atTop
      (𝓝 (if E j = E0 then α ⬝ᵥ u j else 0)) := by
    intro j
    rcases lt_trichotomy (E j) E0 with h | h | h
    · rw [hlow j h]; simp
    · simp [h]
    · rw [if_neg h.ne']
      have : Tendsto (fun β : ℝ => Complex.exp (-β * (E j - E0))) atTop (𝓝 0) := by
        rw [tendsto_zero_iff_norm_tendsto_zero]
        have e : ∀ β : ℝ, ‖Complex.exp (-β * (E j - E0))‖ = Real.exp (-(β * (E j - E0))) := by
          intro β
          rw [Complex.norm_exp]
          congr 1
          have : (-(β : ℂ) * (E j - E0)) = ((-(β * (E j - E0)) : ℝ) : ℂ) := by push_cast; ring
          rw [this, Complex.ofReal_re]
        simp only [e]
        exact Real.tendsto_exp_neg_atTop_nhds_zero.comp (tendsto_id.atTop_mul_const (sub_pos.2 h))
      simpa using this.mul_const (α ⬝ᵥ u j)
  have hden : Tendsto (fun β : ℝ => ∑ j, Complex.exp (-β * (E j - E0)) * (α ⬝ᵥ u j)) atTop
      (𝓝 (∑ j with E j = E0, α ⬝ᵥ u j)) := by
    rw [sum_filter]
    exact tendsto_finsetSum _ fun j _ => hterm j
  refine ⟨hterm, hden.congr fun β => ?_⟩
  rw [evolve_sum hu, mul_sum]
  refine sum_congr rfl fun j _ => ?_
  rw [← mul_assoc, ← Complex.exp_add]
  congr 2
  ring

/-- For large imaginary time the projected energy of the evolved state approaches `E0`, if the trial state has
no overlap with the components of lower energy and a non-zero one with the component of energy `E0`. -/
theorem project {J : Type} [Fintype J] {H : Matrix κ κ ℂ} {E : J → ℝ} {u : J → κ → ℂ}
    (hu : ∀ j, H *ᵥ u j = (E j : ℂ) • u j) (α : κ → ℂ) (E0 : ℝ) (hlow : ∀ j, E j < E0 → α ⬝ᵥ u j = 0)
    (h0 : ∑ j with E j = E0, α ⬝ᵥ u j ≠ 0) :
    Tendsto (fun β : ℝ => ((α ᵥ* H) ⬝ᵥ (NormedSpace.exp (-(β : ℂ) • H) *ᵥ ∑ j, u j)) /
      (α ⬝ᵥ (NormedSpace.exp (-(β : ℂ) • H) *ᵥ ∑ j, u j))) atTop (𝓝 (E0 : ℂ)) := by
  have hd : ∀ j, (α ᵥ* H) ⬝ᵥ u j = E j * (α ⬝ᵥ u j) := by
    intro j
    rw [← Matrix.dotProduct_mulVec, hu, dotProduct_smul, smul_eq_mul]
  obtain ⟨hterm, hden⟩ := project_den hu α E0 hlow
  have hnum : Tendsto (fun β : ℝ => ∑ j, E j * (Complex.exp (-β * (E j - E0)) * (α ⬝ᵥ u j))) atTop
      (𝓝 (E0 * ∑ j with E j = E0, α ⬝ᵥ u j)) := by
    rw [sum_filter, mul_sum]
    refine tendsto_finsetSum _ fun j _ => ?_
    have := (hterm j).const_mul (E j : ℂ)
    convert this using 2
    split_ifs with h
    · rw [h]
    · simp
  have hlim := hnum.div hden h0
  rw [mul_div_assoc, div_self h0, mul_one] at hlim
  refine hlim.congr fun β => ?_
  rw [Pi.div_apply]
  rw [evolve_sum hu, evolve_sum hu]
  have hE : ∀ j, Complex.exp (-β * (E j - E0)) = Complex.exp (β * E0) * Complex.exp (-β * E j) := by
    intro j
    rw [← Complex.exp_add]
    congr 1
    ring
  have e1 : ∑ j, (E j : ℂ) * (Complex.exp (-β * (E j - E0)) * (α ⬝ᵥ u j)) =
      Complex.exp (β * E0) * ∑ j, Complex.exp (-β * E j) * ((α ᵥ* H) ⬝ᵥ u j) := by
    rw [mul_sum]
    exact sum_congr rfl fun j _ => by rw [hE, hd]; ring
  rw [e1, mul_div_mul_left _ _ (Complex.exp_ne_zero _)]

/-! ## Many small steps -/

/-- The projected energy of a calculation with time step `β / N`: ratio of the averages after `N` steps of
weight × phase × `⟨α|H|φ⟩` and of weight × phase × `⟨α|φ⟩`. -/
noncomputable def projected (step : ℝ → (Fin nx → ℝ) → Slater.Wk nb nu nd → Slater.Wk nb nu nd)
    (α : (Fin nu ⊕ Fin nd → Fin nb) → ℂ) (H : Matrix (Fin nu ⊕ Fin nd → Fin nb) (Fin nu ⊕ Fin nd → Fin nb) ℂ)
    (w : Slater.Wk nb nu nd) (β : ℝ) (N : Nat) : ℂ :=
  avgSteps (step (β / N)) (signal (α ᵥ* H)) N w / avgSteps (step (β / N)) (signal α) N w

theorem Converges.tendsto {step : ℝ → (Fin nx → ℝ) → Slater.Wk nb nu nd → Slater.Wk nb nu nd}
    {w : Slater.Wk nb nu nd} {α : (Fin nu ⊕ Fin nd → Fin nb) → ℂ}
    {H : Matrix (Fin nu ⊕ Fin nd → Fin nb) (Fin nu ⊕ Fin nd → Fin nb) ℂ} {c : ℂ}
    (h : Converges step w α H c) {β : ℝ} (hβ : 0 ≤ β) :
    Tendsto (fun N : Nat => avgSteps (step (β / N)) (signal α) N w) atTop
      (𝓝 (w.weight * w.phase * (Complex.exp (β * c) *
        (α ⬝ᵥ (NormedSpace.exp (-(β : ℂ) • H) *ᵥ prodState (orbs w.phi)))))) := by
  obtain ⟨L, hL⟩ := h β hβ
  have hs : Tendsto (fun N : Nat => L / Real.sqrt N) atTop (𝓝 0) :=
    Tendsto.div_atTop tendsto_const_nhds (Real.tendsto_sqrt_atTop.comp tendsto_natCast_atTop_atTop)
  rw [← tendsto_sub_nhds_zero_iff]
  refine squeeze_zero_norm' ?_ hs
  filter_upwards [eventually_gt_atTop 0, eventually_ge_atTop ⌈β⌉₊] with N hN hNβ
  have := hL N hN (Nat.ceil_le.1 hNβ)
  rwa [exp_sub_smul, Matrix.smul_mulVec, dotProduct_smul, smul_eq_mul] at this

/-- The projected energy converges for many small steps. -/
theorem projected_tendsto {step : ℝ → (Fin nx → ℝ) → Slater.Wk nb nu nd → Slater.Wk nb nu nd}
    {w : Slater.Wk nb nu nd} {α : (Fin nu ⊕ Fin nd → Fin nb) → ℂ}
    {H : Matrix (Fin nu ⊕ Fin nd → Fin nb) (Fin nu ⊕ Fin nd → Fin nb) ℂ} {c : ℂ}
    (h : Converges step w α H c) (hH : Converges step w (α ᵥ* H) H c) (hw : (w.weight : ℂ) * w.phase ≠ 0)
    {β : ℝ} (hβ : 0 ≤ β) (hα : α ⬝ᵥ (NormedSpace.exp (-(β : ℂ) • H) *ᵥ prodState (orbs w.phi)) ≠ 0) :
    Tendsto (projected step α H w β) atTop (𝓝 (((α ᵥ* H) ⬝ᵥ (NormedSpace.exp (-(β : ℂ) • H) *ᵥ
      prodState (orbs w.phi))) / (α ⬝ᵥ (NormedSpace.exp (-(β : ℂ) • H) *ᵥ prodState (orbs w.phi))))) := by
  have := (hH.tendsto hβ).div (h.tendsto hβ) (mul_ne_zero hw (mul_ne_zero (Complex.exp_ne_zero _) hα))
  rwa [mul_div_mul_left _ _ hw, mul_div_mul_left _ _ (Complex.exp_ne_zero _)] at this

/-- What is averaged in the denominator is the overlap, and in the numerator the matrix element of the
Hamiltonian. -/
theorem signal_slater (A : Slater.Wfn nb nu nd) (w : Slater.Wk nb nu nd) :
    signal (slater A) w = w.weight * w.phase * ovl2 A w.phi := by
  rw [signal, ovl2_eq]

theorem signal_energy (A : Slater.Wfn nb nu nd)
    (H : Matrix (Fin nu ⊕ Fin nd → Fin nb) (Fin nu ⊕ Fin nd → Fin nb) ℂ) (w : Slater.Wk nb nu nd) :
    signal (slater A ᵥ* H) w = w.weight * w.phase * (slater A ⬝ᵥ (H *ᵥ prodState (orbs w.phi))) := by
  rw [signal, Matrix.dotProduct_mulVec]

/-- The two limits: many small steps, then large imaginary time. -/
def Projects (step : ℝ → (Fin nx → ℝ) → Slater.Wk nb nu nd → Slater.Wk nb nu nd) (α : (Fin nu ⊕ Fin nd → Fin nb) → ℂ)
    (H : Matrix (Fin nu ⊕ Fin nd → Fin nb) (Fin nu ⊕ Fin nd → Fin nb) ℂ) (w : Slater.Wk nb nu nd) (E0 : ℝ) : Prop :=
  ∃ lim : ℝ → ℂ, (∀ᶠ β in atTop, Tendsto (projected step α H w β) atTop (𝓝 (lim β))) ∧
    Tendsto lim atTop (𝓝 (E0 : ℂ))

/-- `E0` is the lowest energy among the eigenstates of `H` that occur in the state `v` and have an overlap with
`α`: `v` is a sum of eigenvectors of distinct energies, those below `E0` do not overlap, that of `E0` does. -/
def Lowest (H : Matrix κ κ ℂ) (α v : κ → ℂ) (E0 : ℝ) : Prop :=
  ∃ (S : Finset ℝ) (u : ℝ → κ → ℂ), (∀ E ∈ S, H *ᵥ u E = (E : ℂ) • u E) ∧ ∑ E ∈ S, u E = v ∧
    (∀ E ∈ S, E < E0 → α ⬝ᵥ u E = 0) ∧ E0 ∈ S ∧ α ⬝ᵥ u E0 ≠ 0

/-- Such an energy exists for a Hermitian matrix, if the states overlap. -/
theorem lowest_exists {H : Matrix κ κ ℂ} (hH : H.IsHermitian) {α v : κ → ℂ} (h : α ⬝ᵥ v ≠ 0) :
    ∃ E0, Lowest H α v E0 := by
  classical
  obtain ⟨E, u, hu, hs⟩ := eigen_sum hH v
  set U : ℝ → κ → ℂ := fun e => ∑ j with E j = e, u j with hU
  have hsum : ∑ e ∈ univ.image E, U e = v := by
    rw [← hs, hU]
    exact Finset.sum_fiberwise_of_maps_to (fun j _ => mem_image_of_mem E (mem_univ j)) u
  have hne : ((univ.image E).filter fun e => α ⬝ᵥ U e ≠ 0).Nonempty := by
    by_contra hcon
    rw [not_nonempty_iff_eq_empty, filter_eq_empty_iff] at hcon
    apply h
    rw [← hsum, dotProduct_sum]
    exact sum_eq_zero fun e he => not_not.1 (hcon he)
  obtain ⟨e0, he0, hmin⟩ := exists_min_image _ id hne
  rw [mem_filter] at he0
  refine ⟨e0, univ.image E, U, fun e _ => ?_, hsum, fun e he hlt => ?_, he0.1, he0.2⟩
  · rw [hU]
    beta_reduce
    rw [Matrix.mulVec_sum, smul_sum]
    refine sum_congr rfl fun j hj => ?_
    rw [hu, (mem_filter.1 hj).2]
  · by_contra hcon
    exact absurd (hmin e (mem_filter.2 ⟨he, hcon⟩)) (not_le.2 hlt)

theorem projects {step : ℝ → (Fin nx → ℝ) → Slater.Wk nb nu nd → Slater.Wk nb nu nd}
    {w : Slater.Wk nb nu nd} {α : (Fin nu ⊕ Fin nd → Fin nb) → ℂ}
    {H : Matrix (Fin nu ⊕ Fin nd → Fin nb) (Fin nu ⊕ Fin nd → Fin nb) ℂ} {c : ℂ}
    (h : Converges step w α H c) (hH : Converges step w (α ᵥ* H) H c) (hw : (w.weight : ℂ) * w.phase ≠ 0)
    (E0 : ℝ) (hlow : Lowest H α (prodState (orbs w.phi)) E0) :
    Projects step α H w E0 := by
  obtain ⟨S, u, hu, hsum, hl, hS, h0⟩ := hlow
  have hu' : ∀ j : S, H *ᵥ u j = ((j : ℝ) : ℂ) • u j := fun j => hu j j.2
  have hl' : ∀ j : S, (j : ℝ) < E0 → α ⬝ᵥ u j = 0 := fun j => hl j j.2
  have h0' : ∑ j ∈ univ.filter (fun j : S => (j : ℝ) = E0), α ⬝ᵥ u j ≠ 0 := by
    have : (univ.filter fun j : S => (j : ℝ) = E0) = {⟨E0, hS⟩} := by
      ext j
      simp [Subtype.ext_iff]
    rw [this, sum_singleton]
    exact h0
  have hsum' : ∑ j : S, u j = prodState (orbs w.phi) := by rw [← hsum]; exact sum_coe_sort S u
  have hp := project hu' α E0 hl' h0'
  have hd := (project_den hu' α E0 hl').2.eventually_ne h0'
  rw [hsum'] at hp hd
  refine ⟨_, ?_, hp⟩
  filter_upwards [hd, eventually_ge_atTop 0] with β h1 h2
  exact projected_tendsto h hH hw h2 (right_ne_zero_of_mul h1)

/-! ## The Hamiltonians are Hermitian -/

theorem onP_herm (a : ι) {X : Matrix (Fin m) (Fin m) ℂ} (h : Xᴴ = X) : (onP a X)ᴴ = onP a X := by
  ext f g
  rw [Matrix.conjTranspose_apply, onP_apply, onP_apply, star_mul', star_prod]
  congr 1
  · refine prod_congr rfl fun b _ => ?_
    rw [Matrix.one_apply, Matrix.one_apply]
    by_cases hb : f b = g b
    · simp [hb]
    · simp [hb, Ne.symm hb]
  · conv_rhs => rw [← h]
    rfl

theorem onP_comm {a b : ι} (h : b ≠ a) (X Y : Matrix (Fin m) (Fin m) ℂ) : onP a X * onP b Y = onP b Y * onP a X := by
  ext f g
  rw [onP_pair h, onP_pair h.symm, erase_right_comm]
  ring

theorem sum_herm {κ' : Type*} (S : Finset κ') (X : κ' → Matrix κ κ ℂ) (h : ∀ k ∈ S, (X k)ᴴ = X k) :
    (∑ k ∈ S, X k)ᴴ = ∑ k ∈ S, X k := by
  rw [Matrix.conjTranspose_sum]
  exact sum_congr rfl h

theorem hamOp_herm {h : Fin 2 → Matrix (Fin m) (Fin m) ℂ} {L : Fin nx → Matrix (Fin m) (Fin m) ℂ} {ecore : ℂ}
    (hh : ∀ s, (h s)ᴴ = h s) (hL : ∀ x, (L x)ᴴ = L x) (he : star ecore = ecore) (σ : ι → Fin 2) :
    (hamOp h L ecore σ).IsHermitian := by
  unfold Matrix.IsHermitian hamOp
  rw [Matrix.conjTranspose_add, Matrix.conjTranspose_add, Matrix.conjTranspose_smul, Matrix.conjTranspose_smul,
    Matrix.conjTranspose_one, he, sum_herm univ _ fun a _ => onP_herm a (hh (σ a)),
    sum_herm univ _ fun x _ => sum_herm univ _ fun a _ => sum_herm _ _ fun b hb => ?_]
  · congr 2
    simp
  · rw [Matrix.conjTranspose_mul, onP_herm a (hL x), onP_herm b (hL x), onP_comm (ne_of_mem_erase hb)]

theorem site_herm (i : Fin m) : (site i : Matrix (Fin m) (Fin m) ℂ)ᴴ = site i := by
  ext r c
  rw [Matrix.conjTranspose_apply, site, Matrix.single_apply, Matrix.single_apply]
  by_cases h : i = r ∧ i = c
  · rw [if_pos h, if_pos ⟨h.2, h.1⟩]; simp
  · rw [if_neg h, if_neg fun hh => h ⟨hh.2, hh.1⟩]; simp

theorem hubOp_herm {h : Fin 2 → Matrix (Fin m) (Fin m) ℂ} (U : ℝ) (hh : ∀ s, (h s)ᴴ = h s) (σ : ι → Fin 2) :
    (hubOp h U σ).IsHermitian := by
  unfold Matrix.IsHermitian hubOp
  rw [Matrix.conjTranspose_add, Matrix.conjTranspose_smul, sum_herm univ _ fun a _ => onP_herm a (hh (σ a)),
    sum_herm univ _ fun x _ => sum_herm univ _ fun a _ => sum_herm _ _ fun b _ => ?_]
  · congr 2
    simp
  · split_ifs with hs
    · have hab : b ≠ a := by rintro rfl; exact absurd (hs.1.symm.trans hs.2) (by decide)
      rw [Matrix.conjTranspose_mul, onP_herm a (site_herm x), onP_herm b (site_herm x), onP_comm hab]
    · simp

theorem hubOp_sym (h : Fin 2 → Matrix (Fin m) (Fin m) ℂ) (U : ℂ) (σ : ι → Fin 2) : Sym σ (hubOp h U σ) := by
  have e : ∀ i : Fin m, (∑ a, ∑ b, if σ a = 0 ∧ σ b = 1 then onP a (site i) * onP b (site i) else 0) =
      spinOp σ (fun s => if s = 0 then site i else 0) * spinOp σ (fun s => if s = 1 then site i else 0) := by
    intro i
    rw [spinOp, spinOp, allP, allP, sum_mul_sum]
    refine sum_congr rfl fun a _ => sum_congr rfl fun b _ => ?_
    have h0 : ∀ a : ι, onP a (0 : Matrix (Fin m) (Fin m) ℂ) = 0 := fun a => by
      have := onP_smul a 0 (0 : Matrix (Fin m) (Fin m) ℂ); simpa using this
    by_cases ha : σ a = 0 <;> by_cases hb : σ b = 1 <;> simp [ha, hb, h0]
  rw [hubOp]
  simp only [e]
  exact (Sym.spinOp σ h).add ((Sym.sum univ fun i => (Sym.spinOp σ _).mul (Sym.spinOp σ _)).smul U)

theorem coulombOp_herm {h : Fin 2 → Matrix (Fin m) (Fin m) ℂ} {eri : Energy.Eri m} (hh : ∀ s, (h s)ᴴ = h s)
    (he : ∀ p r q s, star (eri p r q s) = eri r p s q) (σ : ι → Fin 2) : (coulombOp h eri σ).IsHermitian := by
  unfold Matrix.IsHermitian coulombOp
  rw [Matrix.conjTranspose_add, Matrix.conjTranspose_smul, sum_herm univ _ fun a _ => onP_herm a (hh (σ a))]
  congr 1
  have hs : ∀ (a : ι) (p r : Fin m), (onP a (Matrix.single p r (1 : ℂ)))ᴴ = onP a (Matrix.single r p 1) := by
    intro a p r
    ext f g
    rw [Matrix.conjTranspose_apply, onP_apply, onP_apply, star_mul', star_prod]
    congr 1
    · refine prod_congr rfl fun b _ => ?_
      rw [Matrix.one_apply, Matrix.one_apply]
      by_cases hb : f b = g b
      · simp [hb]
      · simp [hb, Ne.symm hb]
    · rw [Matrix.single_apply, Matrix.single_apply]
      by_cases h : p = g a ∧ r = f a
      · rw [if_pos h, if_pos ⟨h.2, h.1⟩]; simp
      · rw [if_neg h, if_neg fun hh => h ⟨hh.2, hh.1⟩]; simp
  congr 1
  · simp
  · simp only [Matrix.conjTranspose_sum, Matrix.conjTranspose_smul, he, Matrix.conjTranspose_mul, hs]
    rw [sum_comm]
    refine sum_congr rfl fun p _ => sum_congr rfl fun r _ => ?_
    rw [sum_comm]
    refine sum_congr rfl fun q _ => sum_congr rfl fun s _ => ?_
    congr 1
    refine sum_congr rfl fun a _ => sum_congr rfl fun b hb => ?_
    exact onP_comm (ne_of_mem_erase hb).symm _ _

/-! ## The four propagators -/

/-- **C82 (generic systems, energy)**: for a real core energy, Hermitian one-body part and real symmetric
Cholesky vectors, a free projection from a walker that overlaps with the trial state gives the lowest
energy among the eigenstates that occur in the walker's state and overlap with the trial state. -/
theorem generic_projects (n : Nat) (hn : 2 ≤ n) (g : Gen nx nb) (hh : ∀ s, (g.h1 s)ᴴ = g.h1 s)
    (hL : ∀ a, (g.chol a)ᵀ = g.chol a) (hR : ∀ a, (g.chol a)ᴴ = g.chol a) (he : star g.ecore = g.ecore)
    (mf : Fin nx → ℂ) (psi : Slater.Wfn nb nu nd) (e : ℂ) (w : Slater.Wk nb nu nd)
    (hw : (w.weight : ℂ) * w.phase ≠ 0) (hO : ovl2 psi w.phi ≠ 0) :
    ∃ E0, Lowest (hamOp g.h1 g.chol g.ecore spin) (slater psi) (prodState (orbs w.phi)) E0 ∧
      Projects (fun dt xi v => propagateFree n dt (g.tables dt mf) psi e xi v) (slater psi)
        (hamOp g.h1 g.chol g.ecore spin) w E0 := by
  obtain ⟨E0, h⟩ := lowest_exists (hamOp_herm hh hR he spin) (α := slater psi) (v := prodState (orbs w.phi))
    (by rwa [← ovl2_eq])
  exact ⟨E0, h, projects (generic_converges n hn g hL mf psi e w _) (generic_converges n hn g hL mf psi e w _) hw E0 h⟩

/-- **C82 (charge decomposition, energy)** -/
theorem charge_projects (n : Nat) (hn : 2 ≤ n) (h : Hub nb) (hh : ∀ s, (h.h1 s)ᴴ = h.h1 s) (mf : Fin nb → ℂ)
    (psi : Slater.Wfn nb nu nd) (e : ℂ) (w : Slater.Wk nb nu nd)
    (hw : (w.weight : ℂ) * w.phase ≠ 0) (hO : ovl2 psi w.phi ≠ 0) :
    ∃ E0, Lowest (hubOp h.h1 h.U spin) (slater psi) (prodState (orbs w.phi)) E0 ∧
      Projects (fun dt xi v => propagateFree n dt (h.charge dt mf) psi e xi v) (slater psi)
        (hubOp h.h1 h.U spin) w E0 := by
  obtain ⟨E0, hE⟩ := lowest_exists (hubOp_herm h.U hh spin) (α := slater psi) (v := prodState (orbs w.phi))
    (by rwa [← ovl2_eq])
  exact ⟨E0, hE, projects (charge_converges n hn h mf psi e w _ (slater_anti psi))
    (charge_converges n hn h mf psi e w _ ((slater_anti psi).vecMul (hubOp_sym h.h1 h.U spin))) hw E0 hE⟩

/-- **C82 (spin decomposition, energy)** without mean-field shift. -/
theorem spin_projects_partial (n : Nat) (hn : 2 ≤ n) (h : Hub nb) (hh : ∀ s, (h.h1 s)ᴴ = h.h1 s)
    (G : Fin 2 → Matrix (Fin nb) (Fin nb) ℂ) (hG : ∀ i, G 0 i i = G 1 i i)
    (psi : Slater.Wfn nb nu nd) (e : ℂ) (w : Slater.Wk nb nu nd)
    (hw : (w.weight : ℂ) * w.phase ≠ 0) (hO : ovl2 psi w.phi ≠ 0) :
    ∃ E0, Lowest (hubOp h.h1 h.U spin) (slater psi) (prodState (orbs w.phi)) E0 ∧
      Projects (fun dt xi v => propagateFree n dt (h.spin dt (h.mfShiftSpin G)) psi e xi v) (slater psi)
        (hubOp h.h1 h.U spin) w E0 := by
  obtain ⟨E0, hE⟩ := lowest_exists (hubOp_herm h.U hh spin) (α := slater psi) (v := prodState (orbs w.phi))
    (by rwa [← ovl2_eq])
  exact ⟨E0, hE, projects (spin_converges_partial n hn h G hG psi e w _ (slater_anti psi))
    (spin_converges_partial n hn h G hG psi e w _ ((slater_anti psi).vecMul (hubOp_sym h.h1 h.U spin))) hw E0 hE⟩

/-- **C82 (plane waves, energy)** -/
theorem planeWave_projects (n : Nat) (hn : 2 ≤ n) (I : UEG.Inp) (hk : 0 < I.kfac) (hv : 0 < I.vol)
    (ht : I.twist = 0) (psi : Slater.Wfn (UEG.nb I) nu nd) (e : ℂ) (w : Slater.Wk (UEG.nb I) nu nd)
    (hw : (w.weight : ℂ) * w.phase ≠ 0) (hO : ovl2 psi w.phi ≠ 0) :
    ∃ E0, Lowest (coulombOp (UEG.kin I) (UEG.coulomb I) spin) (slater psi) (prodState (orbs w.phi)) E0 ∧
      Projects (fun dt xi v => propagateFree n dt (uegTables dt I) psi e xi v) (slater psi)
        (coulombOp (UEG.kin I) (UEG.coulomb I) spin) w E0 := by
  have hH : (coulombOp (UEG.kin I) (UEG.coulomb I) (spin : Fin nu ⊕ Fin nd → Fin 2)).IsHermitian := by
    refine coulombOp_herm (fun s => ?_) (fun p r q s => ?_) spin
    · rw [UEG.kin, Matrix.diagonal_conjTranspose]
      congr 1
      funext i
      simp
    · rw [UEG.coulomb, UEG.coulomb, UEG.hijkl_swap I p q r s]
      simp
  obtain ⟨E0, hE⟩ := lowest_exists hH (α := slater psi) (v := prodState (orbs w.phi)) (by rwa [← ovl2_eq])
  exact ⟨E0, hE, projects (planeWave_converges n hn I hk hv ht psi e w _)
    (planeWave_converges n hn I hk hv ht psi e w _) hw E0 hE⟩

end Verif.Step
