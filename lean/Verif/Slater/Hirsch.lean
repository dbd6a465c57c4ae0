import Verif.Slater.HirschModel
import Verif.Slater.Exist
import Verif.Slater.Props
import Verif.Util.StepIntegral
import Mathlib.Tactic.LinearCombination
import Mathlib.Analysis.SpecialFunctions.Trigonometric.Complex

/-!
# Discrete Hubbard propagation: properties C30, C31, C32 and parts of C15, C24
-/

namespace Verif.Hirsch

open Matrix Slater

variable {nb nu nd k : Nat}

/-! ## C30 -/

theorem cosh_spinGamma {dt U : ℝ} (h : 0 ≤ dt * U) :
    Real.cosh (spinGamma dt U) = Real.exp (dt * U / 2) :=
  Real.cosh_arcosh (Real.one_le_exp (by linarith))

theorem exp_half (x : ℂ) : Complex.exp (x / 2) * Complex.exp (-(x / 2)) = 1 := by
  rw [← Complex.exp_add]; simp

theorem exp_neg_half_sq (x : ℂ) :
    Complex.exp (-(x / 2)) * Complex.exp (-(x / 2)) = Complex.exp (-x) := by
  rw [← Complex.exp_add]; congr 1; ring

/-- Both decompositions: average over the two fields for given factors. -/
theorem hs_algebra (A : Fin 2 → Fin 2 → ℂ) (W : Fin 2 → ℂ) (E : ℂ)
    (h00 : W 0 + W 1 = 2) (h10 : W 0 * A 0 0 + W 1 * A 1 0 = 2)
    (h01 : W 0 * A 0 1 + W 1 * A 1 1 = 2)
    (h11 : W 0 * (A 0 0 * A 0 1) + W 1 * (A 1 0 * A 1 1) = 2 * E) (n0 n1 : Fin 2) :
    (1 / 2) * ∑ xi, W xi * (A xi 0 ^ (n0 : Nat) * A xi 1 ^ (n1 : Nat)) =
      if n0 = 1 ∧ n1 = 1 then E else 1 := by
  rw [Fin.sum_univ_two]
  fin_cases n0 <;> fin_cases n1
  · simp [h00]
  · simp [h01]
  · simp [h10]
  · simp [h11]

theorem exp_occ (x : ℂ) (n0 n1 : Fin 2) :
    Complex.exp (-(x * (n0 : Nat) * (n1 : Nat))) = if n0 = 1 ∧ n1 = 1 then Complex.exp (-x) else 1 := by
  fin_cases n0 <;> fin_cases n1 <;> simp

/-- **C30** Spin decomposition: for every occupation of the two spin states of a site, the average
over the two fields of the one-body factors is the factor of the interaction. -/
theorem hs_spin (dt U : ℝ) (h : 0 ≤ dt * U) (bt2 : Fin 2 → Matrix (Fin nb) (Fin nb) ℂ)
    (n0 n1 : Fin 2) :
    (1 / 2) * ∑ xi, (spinPar dt U bt2).wfac xi * ((spinPar dt U bt2).auxf xi 0 ^ (n0 : Nat) *
      (spinPar dt U bt2).auxf xi 1 ^ (n1 : Nat)) = Complex.exp (-(dt * U * (n0 : Nat) * (n1 : Nat))) := by
  have hcc : Complex.exp (spinGamma dt U) + Complex.exp (-(spinGamma dt U)) =
      2 * Complex.exp (dt * U / 2) := by
    have h1 : Complex.cosh (spinGamma dt U) = Complex.exp (dt * U / 2) := by
      rw [← Complex.ofReal_cosh, cosh_spinGamma h]; push_cast; rfl
    rw [← h1, Complex.cosh]; ring
  have he := exp_half ((dt : ℂ) * U)
  have h2 := exp_neg_half_sq ((dt : ℂ) * U)
  have hg : Complex.exp (spinGamma dt U) * Complex.exp (-(spinGamma dt U)) = 1 := by
    rw [← Complex.exp_add]; simp
  have e00 : (spinPar dt U bt2).auxf 0 0 =
      Complex.exp (spinGamma dt U) * Complex.exp (-(dt * U / 2)) := by simp [spinPar, spinAux]
  have e01 : (spinPar dt U bt2).auxf 0 1 =
      Complex.exp (-(spinGamma dt U)) * Complex.exp (-(dt * U / 2)) := by simp [spinPar, spinAux]
  have e10 : (spinPar dt U bt2).auxf 1 0 =
      Complex.exp (-(spinGamma dt U)) * Complex.exp (-(dt * U / 2)) := by simp [spinPar, spinAux]
  have e11 : (spinPar dt U bt2).auxf 1 1 =
      Complex.exp (spinGamma dt U) * Complex.exp (-(dt * U / 2)) := by simp [spinPar, spinAux]
  have hw : ∀ xi, (spinPar dt U bt2).wfac xi = 1 := fun _ => rfl
  rw [exp_occ]
  refine hs_algebra _ _ _ ?_ ?_ ?_ ?_ n0 n1
  · rw [hw, hw]; norm_num
  · rw [hw, hw, e00, e10]; linear_combination Complex.exp (-(dt * U / 2)) * hcc + 2 * he
  · rw [hw, hw, e01, e11]; linear_combination Complex.exp (-(dt * U / 2)) * hcc + 2 * he
  · rw [hw, hw, e00, e01, e10, e11]
    linear_combination 2 * Complex.exp (-(dt * U / 2)) * Complex.exp (-(dt * U / 2)) * hg + 2 * h2

/-- **C30** Charge decomposition, including the field-dependent scalar factor; for every real `U`. -/
theorem hs_charge (dt U : ℝ) (γ : ℂ) (h : IsChargeGamma dt U γ)
    (bt2 : Fin 2 → Matrix (Fin nb) (Fin nb) ℂ) (n0 n1 : Fin 2) :
    (1 / 2) * ∑ xi, (chargePar dt U γ bt2).wfac xi * ((chargePar dt U γ bt2).auxf xi 0 ^ (n0 : Nat) *
      (chargePar dt U γ bt2).auxf xi 1 ^ (n1 : Nat)) =
      Complex.exp (-(dt * U * (n0 : Nat) * (n1 : Nat))) := by
  have hcc : Complex.exp γ + Complex.exp (-γ) = 2 * Complex.exp (-(dt * U / 2)) := by
    rw [← h, Complex.cosh]; ring
  have he := exp_half ((dt : ℂ) * U)
  have h2 := exp_neg_half_sq ((dt : ℂ) * U)
  have hg : Complex.exp γ * Complex.exp (-γ) = 1 := by
    rw [← Complex.exp_add]; simp
  have e0 : ∀ s, (chargePar dt U γ bt2).auxf 0 s =
      Complex.exp γ * Complex.exp (-(dt * U / 2)) := by simp [chargePar, chargeAux]
  have e1 : ∀ s, (chargePar dt U γ bt2).auxf 1 s =
      Complex.exp (-γ) * Complex.exp (-(dt * U / 2)) := by simp [chargePar, chargeAux]
  have w0 : (chargePar dt U γ bt2).wfac 0 = Complex.exp (dt * U / 2) * Complex.exp (-γ) := by
    simp [chargePar, chargeWfac]
  have w1 : (chargePar dt U γ bt2).wfac 1 = Complex.exp (dt * U / 2) * Complex.exp γ := by
    simp [chargePar, chargeWfac]
  rw [exp_occ]
  refine hs_algebra _ _ _ ?_ ?_ ?_ ?_ n0 n1
  · rw [w0, w1]; linear_combination Complex.exp (dt * U / 2) * hcc + 2 * he
  · rw [w0, w1, e0, e1]
    linear_combination 2 * Complex.exp (dt * U / 2) * Complex.exp (-(dt * U / 2)) * hg + 2 * he
  · rw [w0, w1, e0, e1]
    linear_combination 2 * Complex.exp (dt * U / 2) * Complex.exp (-(dt * U / 2)) * hg + 2 * he
  · rw [w0, w1, e0, e1, e0, e1]
    generalize Complex.exp γ = a at *
    generalize Complex.exp (-γ) = b at *
    generalize Complex.exp (dt * U / 2) = d at *
    generalize Complex.exp (-(dt * U / 2)) = c at *
    linear_combination d * c ^ 2 * (a + b) * hg + d * c ^ 2 * hcc + 2 * c ^ 2 * he + 2 * h2

/-- **C30** All sites: the average over all field configurations of the product of the one-site
factors is the product of the interaction factors, for any propagator data with the one-site
identity. -/
theorem hs_all_sites (p : Par nb) (E : Fin 2 → Fin 2 → ℂ)
    (h : ∀ n0 n1 : Fin 2, (1 / 2) * ∑ xi, p.wfac xi * (p.auxf xi 0 ^ (n0 : Nat) *
      p.auxf xi 1 ^ (n1 : Nat)) = E n0 n1) (occ : Fin nb → Fin 2 × Fin 2) :
    (1 / 2) ^ nb * ∑ fields : Fin nb → Fin 2, ∏ i, (p.wfac (fields i) *
      (p.auxf (fields i) 0 ^ ((occ i).1 : Nat) * p.auxf (fields i) 1 ^ ((occ i).2 : Nat))) =
      ∏ i, E (occ i).1 (occ i).2 := by
  have hp := Finset.prod_univ_sum (t := fun _ : Fin nb => (Finset.univ : Finset (Fin 2)))
    (f := fun i xi => p.wfac xi *
      (p.auxf xi 0 ^ ((occ i).1 : Nat) * p.auxf xi 1 ^ ((occ i).2 : Nat)))
  rw [Fintype.piFinset_univ] at hp
  rw [← hp]
  conv_rhs => rw [show (∏ i, E (occ i).1 (occ i).2) = ∏ i, ((1 / 2) * ∑ xi, p.wfac xi *
    (p.auxf xi 0 ^ ((occ i).1 : Nat) * p.auxf xi 1 ^ ((occ i).2 : Nat))) from
      Finset.prod_congr rfl fun i _ => (h _ _).symm]
  rw [Finset.prod_mul_distrib]
  simp

/-- The contract of the complex inverse hyperbolic cosine can be met. -/
theorem exists_chargeGamma (dt U : ℝ) : ∃ γ, IsChargeGamma dt U γ := by
  obtain ⟨z, hz⟩ := Complex.cos_surjective (Complex.exp (-(dt * U / 2)))
  exact ⟨z * Complex.I, by rw [IsChargeGamma, Complex.cosh_mul_I, hz]⟩

/-! ## C31 -/

theorem addRow_eq (φ : Matrix (Fin nb) (Fin k) ℂ) (i : Fin nb) (δ : ℂ) :
    addRow φ i δ = φ + Matrix.of fun a j => if a = i then φ i j * δ else 0 := by
  ext a j
  by_cases h : a = i
  · subst h; simp [addRow]
  · simp [addRow, h]

/-- Determinant of the overlap after the change of one row. -/
theorem det_addRow (A B : Matrix (Fin nb) (Fin k) ℂ) (i : Fin nb) (δ : ℂ) (h : (Aᴴ * B).det ≠ 0) :
    (Aᴴ * addRow B i δ).det = (Aᴴ * B).det *
      (1 + δ * ((fun a => star (A i a)) ⬝ᵥ ((Aᴴ * B)⁻¹ᵀ *ᵥ fun a => B i a))) := by
  rw [addRow_eq, overlap_row, RankOne.det_add _ h]
  congr 2
  rw [show (fun j => B i j * δ) = δ • (fun j => B i j) by funext j; simp [mul_comm],
    smul_dotProduct, smul_eq_mul]
  congr 1
  rw [Matrix.mulVec_transpose, dotProduct_comm (fun a => star (A i a)), Matrix.dotProduct_mulVec]

/-- The stored inverses are right and the overlap is not zero. -/
structure Good (psi : Wfn nb nu nd) (w : Wk nb nu nd) : Prop where
  invUp : w.invUp = ((up psi)ᴴ * up w.phi)⁻¹
  invDn : w.invDn = ((dn psi)ᴴ * dn w.phi)⁻¹
  ne : overlap psi w.phi ≠ 0

/-- The orbitals after site `i` has been multiplied by the factors of field `xi`. -/
theorem applyField_phi (p : Par nb) (psi : Wfn nb nu nd) (w : Wk nb nu nd) (i : Fin nb) (xi : Fin 2) :
    up (applyField p psi w i xi).phi = addRow (up w.phi) i (p.delta xi 0) ∧
    dn (applyField p psi w i xi).phi = addRow (dn w.phi) i (p.delta xi 1) :=
  ⟨up_join _ _, dn_join _ _⟩

/-- The ratio computed for a field is the ratio of overlaps, times one half and the scalar factor. -/
theorem probs_eq (p : Par nb) (psi : Wfn nb nu nd) (w : Wk nb nu nd) (i : Fin nb) (xi : Fin 2)
    (h : Good psi w) :
    probs p psi w i xi = (1 / 2) * (overlap psi (applyField p psi w i xi).phi / overlap psi w.phi) *
      p.wfac xi := by
  obtain ⟨eu, ed⟩ := applyField_phi p psi w i xi
  have hu := left_ne_zero_of_mul h.ne
  have hd := right_ne_zero_of_mul h.ne
  have h1 := det_addRow (up psi) (up w.phi) i (p.delta xi 0) hu
  have h2 := det_addRow (dn psi) (dn w.phi) i (p.delta xi 1) hd
  rw [probs, overlap, overlap, eu, ed, h1, h2]
  simp only [gii, h.invUp, h.invDn, if_true, one_ne_zero, if_false]
  field_simp

theorem applyField_good (p : Par nb) (psi : Wfn nb nu nd) (w : Wk nb nu nd) (i : Fin nb) (xi : Fin 2)
    (h : Good psi w) (hp : probs p psi w i xi ≠ 0) : Good psi (applyField p psi w i xi) := by
  have hpe := probs_eq p psi w i xi h
  have hne : overlap psi (applyField p psi w i xi).phi ≠ 0 := by
    intro h0
    apply hp
    rw [hpe, h0]; simp
  obtain ⟨eu, ed⟩ := applyField_phi p psi w i xi
  have := updateInverseOverlap_eq psi { w with
    weight := w.weight * norm p psi w i
    phi := w.phi
    ot := 2 * w.ot * probs p psi w i xi } (applyField p psi w i xi) i
    (fun j => up w.phi i j * p.delta xi 0) (fun j => dn w.phi i j * p.delta xi 1)
    (by
      intro a j
      rw [eu, addRow_eq]; rfl)
    (by
      intro a j
      rw [ed, addRow_eq]; rfl)
    (left_ne_zero_of_mul h.ne) (right_ne_zero_of_mul h.ne) (left_ne_zero_of_mul hne)
    (right_ne_zero_of_mul hne) h.invUp h.invDn
  exact ⟨this.1, this.2, hne⟩

theorem trunc_nonneg (p : Par nb) (psi : Wfn nb nu nd) (w : Wk nb nu nd) (i : Fin nb) (xi : Fin 2) :
    0 ≤ trunc p psi w i xi := le_max_right _ _

/-- A field with truncated ratio zero is never chosen. -/
theorem trunc_choose_pos (p : Par nb) (psi : Wfn nb nu nd) (w : Wk nb nu nd) (i : Fin nb) (r : ℝ)
    (h0 : 0 ≤ r) (h1 : r < 1) (hn : 0 < norm p psi w i) :
    0 < trunc p psi w i (choose p psi w i r) := by
  unfold choose
  have t0 := trunc_nonneg p psi w i 0
  have t1 := trunc_nonneg p psi w i 1
  split_ifs with h
  · have : 0 < trunc p psi w i 0 / norm p psi w i := lt_of_le_of_lt h0 h
    exact (div_pos_iff_of_pos_right hn).1 this
  · rcases t1.lt_or_eq with h' | h'
    · exact h'
    · exfalso
      apply h
      have : norm p psi w i = trunc p psi w i 0 := by rw [norm, ← h', add_zero]
      rw [this] at hn ⊢
      rw [div_self hn.ne']; exact h1

theorem probs_choose (p : Par nb) (psi : Wfn nb nu nd) (w : Wk nb nu nd) (i : Fin nb) (r : ℝ)
    (h0 : 0 ≤ r) (h1 : r < 1) (hn : 0 < norm p psi w i) :
    0 < (probs p psi w i (choose p psi w i r)).re ∧
    trunc p psi w i (choose p psi w i r) = (probs p psi w i (choose p psi w i r)).re := by
  have := trunc_choose_pos p psi w i r h0 h1 hn
  rw [trunc, lt_max_iff] at this
  rcases this with h | h
  · exact ⟨h, max_eq_left h.le⟩
  · exact absurd h (lt_irrefl 0)

/-- **C31** One site: averaged over the uniform random number, the new weight times any function of
the chosen field is the old weight times the sum over the fields of the truncated overlap ratio
(with the scalar factor) times the function; and the weight stays non-negative. -/
theorem site_sampling (p : Par nb) (psi : Wfn nb nu nd) (w : Wk nb nu nd) (i : Fin nb) (h : Good psi w)
    (f : Fin 2 → ℝ) :
    (∫ r in (0 : ℝ)..1, (if 0 < norm p psi w i then
        (applyField p psi w i (choose p psi w i r)).weight * f (choose p psi w i r) else 0)) =
      w.weight * ∑ xi, max ((1 / 2) * (overlap psi (applyField p psi w i xi).phi /
        overlap psi w.phi) * p.wfac xi).re 0 * f xi := by
  have hr : ∀ xi, max ((1 / 2) * (overlap psi (applyField p psi w i xi).phi /
        overlap psi w.phi) * p.wfac xi).re 0 = trunc p psi w i xi := fun xi => by
    rw [← probs_eq p psi w i xi h]; rfl
  simp only [hr, Fin.sum_univ_two]
  have t0 := trunc_nonneg p psi w i 0
  have t1 := trunc_nonneg p psi w i 1
  by_cases hn : 0 < norm p psi w i
  · simp only [if_pos hn]
    have hfun : ∀ r : ℝ, (applyField p psi w i (choose p psi w i r)).weight *
        f (choose p psi w i r) = if r < trunc p psi w i 0 / norm p psi w i then
          w.weight * norm p psi w i * f 0 else w.weight * norm p psi w i * f 1 := by
      intro r
      show w.weight * norm p psi w i * f (choose p psi w i r) = _
      unfold choose
      split_ifs <;> rfl
    simp only [hfun]
    rw [StepIntegral.integral_step _ _ _ (div_nonneg t0 hn.le)
      ((div_le_one hn).2 (by rw [norm]; linarith))]
    have hq : norm p psi w i * (trunc p psi w i 0 / norm p psi w i) = trunc p psi w i 0 :=
      mul_div_cancel₀ _ hn.ne'
    have hq' : norm p psi w i * (1 - trunc p psi w i 0 / norm p psi w i) = trunc p psi w i 1 := by
      rw [mul_sub, hq, mul_one]
      show trunc p psi w i 0 + trunc p psi w i 1 - _ = _
      ring
    linear_combination w.weight * f 0 * hq + w.weight * f 1 * hq'
  · simp only [if_neg hn]
    have h0 : norm p psi w i = 0 := le_antisymm (not_lt.1 hn) (add_nonneg t0 t1)
    have z0 : trunc p psi w i 0 = 0 := by rw [norm] at h0; linarith
    have z1 : trunc p psi w i 1 = 0 := by rw [norm] at h0; linarith
    rw [z0, z1]; simp

/-- What is known after the sweep over sites if the walker survives. -/
structure Swept (p : Par nb) (psi : Wfn nb nu nd) (l : List (Fin nb)) (w w' : Wk nb nu nd)
    (fs : List (Fin 2)) : Prop where
  len : fs.length = l.length
  good : Good psi w'
  up : up w'.phi = (l.zip fs).foldl (fun φ x => addRow φ x.1 (p.delta x.2 0)) (up w.phi)
  dn : dn w'.phi = (l.zip fs).foldl (fun φ x => addRow φ x.1 (p.delta x.2 1)) (dn w.phi)
  ot : w'.ot * overlap psi w.phi = w.ot * (fs.map p.wfac).prod * overlap psi w'.phi

theorem singleSite_swept (p : Par nb) (psi : Wfn nb nu nd) (rs : Fin nb → ℝ)
    (hrs : ∀ i, 0 ≤ rs i ∧ rs i < 1) (l : List (Fin nb)) : ∀ w : Wk nb nu nd, Good psi w →
    (singleSite p psi rs l w).1.weight ≠ 0 →
    Swept p psi l w (singleSite p psi rs l w).1 (singleSite p psi rs l w).2 := by
  induction l with
  | nil => intro w h _; exact ⟨rfl, h, rfl, rfl, by simp [singleSite]⟩
  | cons i l ih =>
    intro w h hw
    rw [singleSite] at hw ⊢
    by_cases hn : 0 < norm p psi w i
    · simp only [if_pos hn] at hw ⊢
      have hp := probs_choose p psi w i (rs i) (hrs i).1 (hrs i).2 hn
      have hp0 : probs p psi w i (choose p psi w i (rs i)) ≠ 0 := by
        intro h0
        rw [h0] at hp
        simp at hp
      have hg := applyField_good p psi w i _ h hp0
      have s := ih _ hg hw
      obtain ⟨eu, ed⟩ := applyField_phi p psi w i (choose p psi w i (rs i))
      refine ⟨by simp [s.len], s.good, ?_, ?_, ?_⟩
      · rw [s.up, eu]; rfl
      · rw [s.dn, ed]; rfl
      · have e1 := s.ot
        have e2 := probs_eq p psi w i (choose p psi w i (rs i)) h
        have e3 : (applyField p psi w i (choose p psi w i (rs i))).ot =
            2 * w.ot * probs p psi w i (choose p psi w i (rs i)) := rfl
        rw [e3, e2] at e1
        rw [List.map_cons, List.prod_cons]
        have n1 := h.ne
        have n2 := hg.ne
        generalize overlap psi (applyField p psi w i (choose p psi w i (rs i))).phi = o1 at *
        have e4 : 2 * w.ot * (1 / 2 * (o1 / overlap psi w.phi) * p.wfac (choose p psi w i (rs i))) *
            overlap psi w.phi = w.ot * o1 * p.wfac (choose p psi w i (rs i)) := by
          field_simp
        refine mul_right_cancel₀ n2 ?_
        linear_combination overlap psi w.phi * e1 + (List.map p.wfac (singleSite p psi rs l
          (applyField p psi w i (choose p psi w i (rs i)))).2).prod * overlap psi (singleSite p psi rs
          l (applyField p psi w i (choose p psi w i (rs i)))).1.phi * e4
    · simp only [if_neg hn] at hw
      exact absurd rfl hw

theorem foldl_addRow (l : List (Fin nb)) (hl : l.Nodup) (d : Fin nb → ℂ) :
    ∀ φ : Matrix (Fin nb) (Fin k) ℂ, l.foldl (fun φ i => addRow φ i (d i)) φ =
      diagonal (fun i => if i ∈ l then 1 + d i else 1) * φ := by
  induction l with
  | nil =>
    intro φ
    have e : (diagonal fun i : Fin nb => if i ∈ ([] : List (Fin nb)) then 1 + d i else 1) = 1 := by
      rw [← diagonal_one]; congr 1
    rw [e, Matrix.one_mul]; rfl
  | cons i l ih =>
    intro φ
    rw [List.foldl_cons, ih (List.nodup_cons.1 hl).2]
    have hi := (List.nodup_cons.1 hl).1
    ext a j
    rw [diagonal_mul, diagonal_mul]
    by_cases h : a = i
    · subst h
      rw [if_neg hi, if_pos List.mem_cons_self, addRow, if_pos rfl]; ring
    · rw [addRow, if_neg h]
      have : (a ∈ i :: l) ↔ a ∈ l := by simp [h]
      simp only [this]

theorem foldl_addRow_all (d : Fin nb → ℂ) (φ : Matrix (Fin nb) (Fin k) ℂ) :
    (List.finRange nb).foldl (fun φ i => addRow φ i (d i)) φ = diagonal (fun i => 1 + d i) * φ := by
  rw [foldl_addRow _ (List.nodup_finRange nb)]
  congr 2
  funext i
  rw [if_pos (List.mem_finRange i)]

theorem zip_finRange (fs : List (Fin 2)) (h : fs.length = nb) :
    (List.finRange nb).zip fs = (List.finRange nb).map fun i : Fin nb => (i, fs.getD (i : Nat) 0) := by
  apply List.ext_getElem
  · simp [h]
  · intro j h1 h2
    have hj : j < fs.length := by
      rw [List.length_zip] at h1; omega
    simp [List.getD_eq_getElem?_getD, List.getElem?_eq_getElem hj]

theorem prod_wfac (p : Par nb) (fs : List (Fin 2)) (h : fs.length = nb) :
    (fs.map p.wfac).prod = ∏ i : Fin nb, p.wfac (fs.getD i 0) := by
  have e : fs.map p.wfac = (List.finRange nb).map fun i : Fin nb => p.wfac (fs.getD i 0) := by
    apply List.ext_getElem
    · simp [h]
    · intro j h1 h2
      have hj : j < fs.length := by simpa using h1
      simp [List.getD_eq_getElem?_getD, List.getElem?_eq_getElem hj]
  rw [e, Fin.prod_univ_def]

/-- The sweep over all sites multiplies the orbitals by the diagonal matrices of the chosen
factors. -/
theorem swept_all (p : Par nb) (psi : Wfn nb nu nd) (w w' : Wk nb nu nd) (fs : List (Fin 2))
    (s : Swept p psi (List.finRange nb) w w' fs) :
    up w'.phi = diagonal (fun i : Fin nb => p.auxf (fs.getD i 0) 0) * up w.phi ∧
    dn w'.phi = diagonal (fun i : Fin nb => p.auxf (fs.getD i 0) 1) * dn w.phi ∧
    w'.ot * overlap psi w.phi = w.ot * (∏ i : Fin nb, p.wfac (fs.getD i 0)) * overlap psi w'.phi := by
  have hlen : fs.length = nb := by rw [s.len, List.length_finRange]
  have hd : ∀ sp : Fin 2, (fun i : Fin nb => 1 + p.delta (fs.getD i 0) sp) =
      fun i : Fin nb => p.auxf (fs.getD i 0) sp := fun sp => by
    funext i; simp [Par.delta]
  refine ⟨?_, ?_, ?_⟩
  · rw [s.up, zip_finRange fs hlen, List.foldl_map,
      foldl_addRow_all (fun i : Fin nb => p.delta (fs.getD i 0) 0), hd]
  · rw [s.dn, zip_finRange fs hlen, List.foldl_map,
      foldl_addRow_all (fun i : Fin nb => p.delta (fs.getD i 0) 1), hd]
  · rw [s.ot, prod_wfac p fs hlen]

/-- **C31** (stored overlap) A walker that survives the sweep over all sites has been multiplied by
the diagonal matrices of the chosen fields, its stored inverses are the inverse overlap matrices of
the new orbitals, and its stored overlap is the overlap of the new orbitals with the trial times the
product of the scalar factors of the chosen fields. -/
theorem singleSite_overlap (p : Par nb) (psi : Wfn nb nu nd) (rs : Fin nb → ℝ)
    (hrs : ∀ i, 0 ≤ rs i ∧ rs i < 1) (w : Wk nb nu nd) (h : Good psi w)
    (hot : w.ot = overlap psi w.phi) :
    let w' := (singleSite p psi rs (List.finRange nb) w).1
    w'.weight ≠ 0 → ∃ fields : Fin nb → Fin 2,
      (∀ i, fields i = (singleSite p psi rs (List.finRange nb) w).2.getD i 0) ∧
      up w'.phi = diagonal (fun i => p.auxf (fields i) 0) * up w.phi ∧
      dn w'.phi = diagonal (fun i => p.auxf (fields i) 1) * dn w.phi ∧
      Good psi w' ∧ w'.ot = (∏ i, p.wfac (fields i)) * overlap psi w'.phi := by
  intro w' hw
  have s := singleSite_swept p psi rs hrs (List.finRange nb) w h hw
  obtain ⟨h1, h2, h3⟩ := swept_all p psi w _ _ s
  refine ⟨_, fun _ => rfl, h1, h2, s.good, ?_⟩
  refine mul_right_cancel₀ h.ne ?_
  show (singleSite p psi rs (List.finRange nb) w).1.ot * _ = _
  rw [h3, hot]
  show _ = _ * overlap psi (singleSite p psi rs (List.finRange nb) w).1.phi * overlap psi w.phi
  ring

/-- **C31** (part that holds) Spin decomposition: the stored overlap is the overlap of the updated
walker with the trial.  What is missing: the charge decomposition, where the stored overlap has an
extra factor (`singleSite_overlap`, `chargeWfac_ne_one`). -/
theorem singleSite_overlap_partial (dt U : ℝ) (bt2 : Fin 2 → Matrix (Fin nb) (Fin nb) ℂ)
    (psi : Wfn nb nu nd) (rs : Fin nb → ℝ) (hrs : ∀ i, 0 ≤ rs i ∧ rs i < 1) (w : Wk nb nu nd)
    (h : Good psi w) (hot : w.ot = overlap psi w.phi) :
    let w' := (singleSite (spinPar dt U bt2) psi rs (List.finRange nb) w).1
    w'.weight ≠ 0 → Good psi w' ∧ w'.ot = overlap psi w'.phi := by
  intro w' hw
  obtain ⟨f, -, -, -, h4, h5⟩ := singleSite_overlap (spinPar dt U bt2) psi rs hrs w h hot hw
  refine ⟨h4, ?_⟩
  rw [show (∏ i, (spinPar dt U bt2).wfac (f i)) = 1 from Finset.prod_eq_one fun _ _ => rfl,
    one_mul] at h5
  exact h5

/-- **C31** (failure) In the charge decomposition the extra factor of a field is not 1 unless the
interaction vanishes. -/
theorem chargeWfac_ne_one (dt U : ℝ) (γ : ℂ) (h : IsChargeGamma dt U γ) (hU : dt * U ≠ 0) (xi : Fin 2) :
    chargeWfac dt U γ xi ≠ 1 := by
  intro h1
  have hg : Complex.exp γ * Complex.exp (-γ) = 1 := by rw [← Complex.exp_add]; simp
  have he := exp_half ((dt : ℂ) * U)
  have hcc : Complex.exp γ + Complex.exp (-γ) = 2 * Complex.exp (-(dt * U / 2)) := by
    rw [← h, Complex.cosh]; ring
  have hsq : Complex.exp (-(dt * U / 2)) * Complex.exp (-(dt * U / 2)) = 1 := by
    fin_cases xi
    · have h1' : Complex.exp (dt * U / 2) * Complex.exp (-γ) = 1 := by
        simpa [chargeWfac] using h1
      generalize Complex.exp γ = a at *
      generalize Complex.exp (-γ) = b at *
      generalize Complex.exp (dt * U / 2) = d at *
      generalize Complex.exp (-(dt * U / 2)) = c at *
      have hb : b = c := by linear_combination c * h1' - b * he
      have ha : a = c := by linear_combination hcc - hb
      rw [ha, hb] at hg; exact hg
    · have h1' : Complex.exp (dt * U / 2) * Complex.exp γ = 1 := by
        simpa [chargeWfac] using h1
      generalize Complex.exp γ = a at *
      generalize Complex.exp (-γ) = b at *
      generalize Complex.exp (dt * U / 2) = d at *
      generalize Complex.exp (-(dt * U / 2)) = c at *
      have ha : a = c := by linear_combination c * h1' - a * he
      have hb : b = c := by linear_combination hcc - ha
      rw [ha, hb] at hg; exact hg
  rw [exp_neg_half_sq] at hsq
  have : Real.exp (-(dt * U)) = 1 := by
    have h2 : ((Real.exp (-(dt * U)) : ℝ) : ℂ) = 1 := by push_cast; exact hsq
    exact_mod_cast h2
  rw [Real.exp_eq_one_iff] at this
  exact hU (by linarith)

/-! ### Weights -/

theorem singleSite_weight_nonneg (p : Par nb) (psi : Wfn nb nu nd) (rs : Fin nb → ℝ)
    (l : List (Fin nb)) : ∀ w : Wk nb nu nd, 0 ≤ w.weight → 0 ≤ (singleSite p psi rs l w).1.weight := by
  induction l with
  | nil => intro w h; exact h
  | cons i l ih =>
    intro w h
    rw [singleSite]
    by_cases hn : 0 < norm p psi w i
    · simp only [if_pos hn]
      refine ih _ ?_
      show 0 ≤ w.weight * norm p psi w i
      exact mul_nonneg h hn.le
    · simp only [if_neg hn]; exact le_refl _

theorem kineticIS_weight_nonneg (p : Par nb) (psi : Wfn nb nu nd) (w : Wk nb nu nd)
    (h : 0 ≤ w.weight) : 0 ≤ (kineticIS p psi w).weight := by
  unfold kineticIS
  simp only
  split_ifs with hc
  · rw [Complex.abs_arg_lt_pi_div_two_iff] at hc
    refine mul_nonneg h ?_
    rcases hc with hc | hc
    · exact hc.le
    · rw [hc]; simp
  · exact le_refl _

/-- **C31** A non-negative weight stays non-negative in the whole constrained step. -/
theorem constrainedStep_weight_nonneg (p : Par nb) (psi : Wfn nb nu nd) (eshift : ℝ) (rs : Fin nb → ℝ)
    (w : Wk nb nu nd) (h : 0 ≤ w.weight) : 0 ≤ (constrainedStep p psi eshift rs w).weight := by
  unfold constrainedStep
  simp only
  refine mul_nonneg ?_ (Real.exp_pos _).le
  split_ifs <;>
    first
      | exact h
      | exact kineticIS_weight_nonneg _ _ _ h
      | exact singleSite_weight_nonneg _ _ _ _ _ (kineticIS_weight_nonneg _ _ _ h)
      | exact singleSite_weight_nonneg _ _ _ _ _ h
      | exact kineticIS_weight_nonneg _ _ _ (singleSite_weight_nonneg _ _ _ _ _
          (kineticIS_weight_nonneg _ _ _ h))
      | exact kineticIS_weight_nonneg _ _ _ (singleSite_weight_nonneg _ _ _ _ _ h)
      | exact kineticIS_weight_nonneg _ _ _ (kineticIS_weight_nonneg _ _ _ h)

/-- Real entries. -/
def RealM {a b : Nat} (A : Matrix (Fin a) (Fin b) ℂ) : Prop := ∀ i j, star (A i j) = A i j

theorem RealM.mul {a b c : Nat} {A : Matrix (Fin a) (Fin b) ℂ} {B : Matrix (Fin b) (Fin c) ℂ}
    (hA : RealM A) (hB : RealM B) : RealM (A * B) := by
  intro i j
  rw [Matrix.mul_apply, star_sum]
  refine Finset.sum_congr rfl fun l _ => ?_
  rw [star_mul', hA, hB]

theorem RealM.conjTranspose {a b : Nat} {A : Matrix (Fin a) (Fin b) ℂ} (hA : RealM A) : RealM Aᴴ := by
  intro i j
  rw [Matrix.conjTranspose_apply, hA, hA]

theorem RealM.det {a : Nat} {A : Matrix (Fin a) (Fin a) ℂ} (hA : RealM A) : star A.det = A.det := by
  have : Aᴴ = Aᵀ := by ext i j; rw [Matrix.conjTranspose_apply, Matrix.transpose_apply, hA]
  rw [← Matrix.det_conjTranspose, this, Matrix.det_transpose]

theorem RealM.up {φ : Wfn nb nu nd} (h : RealM φ) : RealM (Slater.up φ) := fun i j => h i _

theorem RealM.dn {φ : Wfn nb nu nd} (h : RealM φ) : RealM (Slater.dn φ) := fun i j => h i _

theorem RealM.overlap {psi φ : Wfn nb nu nd} (h : RealM psi) (h' : RealM φ) :
    star (overlap psi φ) = overlap psi φ := by
  rw [Slater.overlap, star_mul', (h.up.conjTranspose.mul h'.up).det,
    (h.dn.conjTranspose.mul h'.dn).det]

theorem RealM.join {a : Matrix (Fin nb) (Fin nu) ℂ} {b : Matrix (Fin nb) (Fin nd) ℂ} (ha : RealM a)
    (hb : RealM b) : RealM (Slater.join a b) := by
  intro i j
  refine Fin.addCases (fun l => ?_) (fun l => ?_) j
  · simp only [Slater.join, Fin.addCases_left]; exact ha i l
  · simp only [Slater.join, Fin.addCases_right]; exact hb i l

/-- Propagator data with real numbers. -/
structure RealPar (p : Par nb) : Prop where
  auxf : ∀ xi s, star (p.auxf xi s) = p.auxf xi s
  wfac : ∀ xi, star (p.wfac xi) = p.wfac xi
  bt2 : ∀ s, RealM (p.bt2 s)

theorem RealPar.delta {p : Par nb} (h : RealPar p) (xi s : Fin 2) :
    star (p.delta xi s) = p.delta xi s := by
  rw [Par.delta, star_sub, h.auxf, star_one]

theorem RealM.addRow {φ : Matrix (Fin nb) (Fin k) ℂ} (h : RealM φ) (i : Fin nb) {δ : ℂ}
    (hδ : star δ = δ) : RealM (Hirsch.addRow φ i δ) := by
  intro a j
  rw [Hirsch.addRow]
  split_ifs
  · rw [star_add, star_mul', h, hδ]
  · exact h a j

theorem applyField_real {p : Par nb} (hp : RealPar p) (psi : Wfn nb nu nd) (w : Wk nb nu nd)
    (h : RealM w.phi) (i : Fin nb) (xi : Fin 2) : RealM (applyField p psi w i xi).phi :=
  (h.up.addRow i (hp.delta xi 0)).join (h.dn.addRow i (hp.delta xi 1))

theorem probs_real {p : Par nb} (hp : RealPar p) (psi : Wfn nb nu nd) (hpsi : RealM psi)
    (w : Wk nb nu nd) (h : RealM w.phi) (hg : Good psi w) (i : Fin nb) (xi : Fin 2) :
    (((probs p psi w i xi).re : ℝ) : ℂ) = probs p psi w i xi := by
  have : star (probs p psi w i xi) = probs p psi w i xi := by
    rw [probs_eq p psi w i xi hg]
    have e12 : star (1 / 2 : ℂ) = 1 / 2 := by simp
    rw [star_mul', star_mul', e12, star_div₀, hpsi.overlap h,
      hpsi.overlap (applyField_real hp psi w h i xi), hp.wfac]
  exact Complex.conj_eq_iff_re.1 this

/-- Weight and sampling probability of a sweep, real case. -/
theorem singleSite_weight {p : Par nb} (hp : RealPar p) (psi : Wfn nb nu nd) (hpsi : RealM psi)
    (rs : Fin nb → ℝ) (hrs : ∀ i, 0 ≤ rs i ∧ rs i < 1) (l : List (Fin nb)) : ∀ w : Wk nb nu nd,
    RealM w.phi → Good psi w → (singleSite p psi rs l w).1.weight ≠ 0 →
    RealM (singleSite p psi rs l w).1.phi ∧ 0 < pathProb p psi rs l w ∧
    ((singleSite p psi rs l w).1.weight : ℂ) * pathProb p psi rs l w * overlap psi w.phi =
      w.weight * (1 / 2) ^ l.length * ((singleSite p psi rs l w).2.map p.wfac).prod *
        overlap psi (singleSite p psi rs l w).1.phi := by
  induction l with
  | nil => intro w h _ _; exact ⟨h, one_pos, by simp [singleSite, pathProb]⟩
  | cons i l ih =>
    intro w h hg hw
    rw [singleSite] at hw ⊢
    rw [pathProb]
    by_cases hn : 0 < norm p psi w i
    · simp only [if_pos hn] at hw ⊢
      have hpc := probs_choose p psi w i (rs i) (hrs i).1 (hrs i).2 hn
      have hp0 : probs p psi w i (choose p psi w i (rs i)) ≠ 0 := by
        intro h0
        rw [h0] at hpc
        simp at hpc
      have hg' := applyField_good p psi w i _ hg hp0
      obtain ⟨r1, r2, r3⟩ := ih _ (applyField_real hp psi w h i _) hg' hw
      refine ⟨r1, mul_pos (div_pos (by rw [hpc.2]; exact hpc.1) hn) r2, ?_⟩
      have hre := probs_real hp psi hpsi w h hg i (choose p psi w i (rs i))
      have e2 := probs_eq p psi w i (choose p psi w i (rs i)) hg
      have e3 : (applyField p psi w i (choose p psi w i (rs i))).weight = w.weight * norm p psi w i :=
        rfl
      rw [e3] at r3
      rw [hpc.2, List.map_cons, List.prod_cons, List.length_cons, pow_succ]
      push_cast at r3 ⊢
      rw [hre, e2]
      have n1 := hg.ne
      have n2 := hg'.ne
      have n3 : (norm p psi w i : ℂ) ≠ 0 := by exact_mod_cast hn.ne'
      generalize overlap psi (applyField p psi w i (choose p psi w i (rs i))).phi = o1 at *
      field_simp
      linear_combination p.wfac (choose p psi w i (rs i)) * r3
    · simp only [if_neg hn] at hw
      exact absurd rfl hw

/-- What `kinetic_importance_sampling` does to a walker that survives. -/
theorem kineticIS_spec (p : Par nb) (psi : Wfn nb nu nd) (w : Wk nb nu nd)
    (hw : (kineticIS p psi w).weight ≠ 0) :
    let w' := kineticIS p psi w
    Good psi w' ∧ w'.phi = kineticReal p.bt2 w.phi ∧ w'.logShift = w.logShift ∧
    w'.ot = overlap psi w'.phi * Complex.exp (w.logShift : ℂ) ∧
    w'.weight = w.weight * (w'.ot / w.ot).re := by
  intro w'
  have hot : calcOtrial (inverseOverlap psi { w with phi := kineticReal p.bt2 w.phi }) =
      overlap psi (kineticReal p.bt2 w.phi) * Complex.exp (w.logShift : ℂ) :=
    calcOtrial_eq psi (inverseOverlap psi { w with phi := kineticReal p.bt2 w.phi }) rfl rfl
  by_cases hc : |Complex.arg (calcOtrial (inverseOverlap psi { w with phi := kineticReal p.bt2 w.phi })
      / w.ot)| < Real.pi / 2
  · have e : w' = { inverseOverlap psi { w with phi := kineticReal p.bt2 w.phi } with
        weight := w.weight * (calcOtrial (inverseOverlap psi
          { w with phi := kineticReal p.bt2 w.phi }) / w.ot).re
        ot := calcOtrial (inverseOverlap psi { w with phi := kineticReal p.bt2 w.phi }) } := by
      simp only [w', kineticIS, if_pos hc]
    have hphi : w'.phi = kineticReal p.bt2 w.phi := by rw [e]; rfl
    have hot' : w'.ot = overlap psi w'.phi * Complex.exp (w.logShift : ℂ) := by
      rw [hphi, ← hot, e]
    have hw' : w'.weight = w.weight * (w'.ot / w.ot).re := by rw [e]
    refine ⟨⟨?_, ?_, ?_⟩, hphi, ?_, hot', hw'⟩
    · rw [hphi, e]; rfl
    · rw [hphi, e]; rfl
    · intro h0
      apply hw
      show w'.weight = 0
      rw [hw', hot', h0]; simp
    · rw [e]; rfl
  · exfalso
    apply hw
    simp only [kineticIS, if_neg hc]

theorem kineticReal_real {p : Par nb} (hp : RealPar p) {φ : Wfn nb nu nd} (h : RealM φ) :
    RealM (kineticReal p.bt2 φ) := ((hp.bt2 0).mul h.up).join ((hp.bt2 1).mul h.dn)

theorem re_of_real {z : ℂ} (h : star z = z) : ((z.re : ℝ) : ℂ) = z := Complex.conj_eq_iff_re.1 h

theorem singleSite_logShift (p : Par nb) (psi : Wfn nb nu nd) (rs : Fin nb → ℝ) (l : List (Fin nb)) :
    ∀ w : Wk nb nu nd, (singleSite p psi rs l w).1.logShift = w.logShift := by
  induction l with
  | nil => intro w; rfl
  | cons i l ih =>
    intro w
    rw [singleSite]
    split_ifs
    · exact ih _
    · rfl

/-- Whole constrained step with real numbers, for a walker that survives: the orbitals are
multiplied by the propagator of the chosen fields, the stored overlap is the overlap of the new
orbitals, and new weight times sampling probability is old weight times `2^-nb` times the ratio of
overlaps times the shift factor.  The scalar factors of the fields do not enter. -/
theorem constrainedStep_weight {p : Par nb} (hp : RealPar p) (psi : Wfn nb nu nd) (hpsi : RealM psi)
    (eshift : ℝ) (rs : Fin nb → ℝ) (hrs : ∀ i, 0 ≤ rs i ∧ rs i < 1) (w : Wk nb nu nd)
    (hphi : RealM w.phi) (hwf : ∀ xi, p.wfac xi ≠ 0) (hne : overlap psi w.phi ≠ 0)
    (hot : w.ot = overlap psi w.phi * Complex.exp (w.logShift : ℂ)) :
    let w' := constrainedStep p psi eshift rs w
    w'.weight ≠ 0 → ∃ fields : Fin nb → Fin 2, ∃ P : ℝ,
      P = pathProb p psi rs (List.finRange nb) (kineticIS p psi w) ∧ 0 < P ∧
      (∀ i, fields i = (singleSite p psi rs (List.finRange nb) (kineticIS p psi w)).2.getD i 0) ∧
      up w'.phi = forwardMatrix p fields 0 * up w.phi ∧
      dn w'.phi = forwardMatrix p fields 1 * dn w.phi ∧
      w'.ot = overlap psi w'.phi * Complex.exp (w'.logShift : ℂ) ∧ overlap psi w'.phi ≠ 0 ∧
      w'.logShift = w.logShift ∧ RealM w'.phi ∧
      (w'.weight : ℂ) * P = w.weight * (1 / 2) ^ nb * (overlap psi w'.phi / overlap psi w.phi) *
        Real.exp (p.dt * eshift) := by
  intro w' hw
  -- the walker survives every part
  have hw0 : w.weight ≠ 0 := by
    intro h0
    apply hw
    simp [w', constrainedStep, h0]
  set w1 := kineticIS p psi w with hw1
  have e1 : (if 0 < |w.weight| then kineticIS p psi w else w) = w1 := if_pos (abs_pos.2 hw0)
  have hw1' : w1.weight ≠ 0 := by
    intro h0
    apply hw
    simp only [w', constrainedStep, e1]
    simp [h0]
  set r := singleSite p psi rs (List.finRange nb) w1 with hr
  have e2 : (if 0 < |w1.weight| then r.1 else w1) = r.1 := if_pos (abs_pos.2 hw1')
  have hw2 : r.1.weight ≠ 0 := by
    intro h0
    apply hw
    simp only [w', constrainedStep, e1, ← hr, e2]
    simp [h0]
  set w3 := kineticIS p psi r.1 with hw3
  have e3 : (if 0 < |r.1.weight| then kineticIS p psi r.1 else r.1) = w3 := if_pos (abs_pos.2 hw2)
  have ew : w' = { w3 with weight := w3.weight * Real.exp (p.dt * eshift) } := by
    simp only [w', constrainedStep, e1, ← hr, e2, e3]
  have hw3' : w3.weight ≠ 0 := by
    intro h0
    apply hw
    rw [ew]; simp [h0]
  obtain ⟨g1, p1, s1, o1, k1⟩ := kineticIS_spec p psi w hw1'
  rw [← hw1] at g1 p1 s1 o1 k1
  have sw := singleSite_swept p psi rs hrs (List.finRange nb) w1 g1 hw2
  rw [← hr] at sw
  obtain ⟨u2, d2, o2⟩ := swept_all p psi w1 _ _ sw
  have real1 : RealM w1.phi := by rw [p1]; exact kineticReal_real hp hphi
  obtain ⟨real2, P0, W2⟩ := singleSite_weight hp psi hpsi rs hrs (List.finRange nb) w1 real1 g1 hw2
  rw [← hr] at real2 W2
  obtain ⟨g3, p3, s3, o3, k3⟩ := kineticIS_spec p psi r.1 hw3'
  rw [← hw3] at g3 p3 s3 o3 k3
  have hls : r.1.logShift = w.logShift := by rw [hr, singleSite_logShift, s1]
  have real3 : RealM w3.phi := by rw [p3]; exact kineticReal_real hp real2
  have hlen : r.2.length = nb := by rw [sw.len, List.length_finRange]
  have starexp : ∀ x : ℝ, star (Complex.exp (x : ℂ)) = Complex.exp (x : ℂ) := fun x => by
    rw [← Complex.ofReal_exp]; exact Complex.conj_ofReal _
  have sot : star w.ot = w.ot := by rw [hot, star_mul', hpsi.overlap hphi, starexp]
  have sot1 : star w1.ot = w1.ot := by rw [o1, star_mul', hpsi.overlap real1, starexp]
  have sot3 : star w3.ot = w3.ot := by rw [o3, star_mul', hpsi.overlap real3, starexp]
  have hQ : star (∏ i : Fin nb, p.wfac (r.2.getD i 0)) = ∏ i : Fin nb, p.wfac (r.2.getD i 0) := by
    rw [star_prod]; exact Finset.prod_congr rfl fun i _ => hp.wfac _
  have hQ0 : (∏ i : Fin nb, p.wfac (r.2.getD i 0)) ≠ 0 :=
    Finset.prod_ne_zero_iff.2 fun i _ => hwf _
  have n1 := g1.ne
  have n2 := sw.good.ne
  have ot2 : r.1.ot = w1.ot * (∏ i : Fin nb, p.wfac (r.2.getD i 0)) * overlap psi r.1.phi /
      overlap psi w1.phi := by
    rw [eq_div_iff n1]; exact o2
  have sot2 : star r.1.ot = r.1.ot := by
    rw [ot2, star_div₀, star_mul', star_mul', sot1, hQ, hpsi.overlap real2, hpsi.overlap real1]
  have K1 : (w1.weight : ℂ) = w.weight * (w1.ot / w.ot) := by
    rw [k1]; push_cast
    rw [re_of_real (by rw [star_div₀, sot1, sot])]
  have K3 : (w3.weight : ℂ) = r.1.weight * (w3.ot / r.1.ot) := by
    rw [k3]; push_cast
    rw [re_of_real (by rw [star_div₀, sot3, sot2])]
  refine ⟨fun i => r.2.getD i 0, _, rfl, P0, fun _ => rfl, ?_, ?_, ?_, ?_, ?_, ?_, ?_⟩
  · rw [ew]
    show up w3.phi = _
    rw [p3, kineticReal, up_join, u2, p1, kineticReal, up_join, forwardMatrix]
    simp only [Matrix.mul_assoc]
  · rw [ew]
    show dn w3.phi = _
    rw [p3, kineticReal, dn_join, d2, p1, kineticReal, dn_join, forwardMatrix]
    simp only [Matrix.mul_assoc]
  · rw [ew]
    show w3.ot = overlap psi w3.phi * Complex.exp (w3.logShift : ℂ)
    rw [o3, s3]
  · rw [ew]; exact g3.ne
  · rw [ew]; show w3.logShift = _; rw [s3, hls]
  · rw [ew]; exact real3
  · rw [ew]
    show ((w3.weight * Real.exp (p.dt * eshift) : ℝ) : ℂ) * _ = _ *
      (overlap psi w3.phi / overlap psi w.phi) * _
    have W2' : (r.1.weight : ℂ) * pathProb p psi rs (List.finRange nb) w1 = w1.weight * (1 / 2) ^ nb *
        (∏ i : Fin nb, p.wfac (r.2.getD i 0)) * (overlap psi r.1.phi / overlap psi w1.phi) := by
      rw [prod_wfac p _ hlen, List.length_finRange] at W2
      field_simp
      field_simp at W2
      linear_combination W2
    have hexp := Complex.exp_ne_zero (w.logShift : ℂ)
    push_cast
    calc (w3.weight : ℂ) * Complex.exp (p.dt * eshift) * pathProb p psi rs (List.finRange nb) w1
        = ((r.1.weight : ℂ) * pathProb p psi rs (List.finRange nb) w1) * (w3.ot / r.1.ot) *
          Complex.exp (p.dt * eshift) := by rw [K3]; ring
      _ = _ := by
        rw [W2', K1, ot2, o3, o1, hls, hot]
        field_simp

/-- The spin decomposition with real one-body propagators has real numbers only. -/
theorem spinPar_real (dt U : ℝ) (bt2 : Fin 2 → Matrix (Fin nb) (Fin nb) ℂ) (h : ∀ s, RealM (bt2 s)) :
    RealPar (spinPar dt U bt2) := by
  refine ⟨fun xi s => ?_, fun xi => star_one ℂ, h⟩
  have e : (spinPar dt U bt2).auxf xi s = (((if xi = s then Real.exp (spinGamma dt U) else
      Real.exp (-spinGamma dt U)) * Real.exp (-(dt * U / 2)) : ℝ) : ℂ) := by
    show spinAux (spinGamma dt U) xi s * Complex.exp (-(dt * U / 2)) = _
    rw [spinAux]
    split_ifs <;> push_cast <;> rfl
  rw [e]; exact Complex.conj_ofReal _

/-- So does the charge decomposition with a real `gamma`, i.e. for attractive interactions. -/
theorem chargePar_real (dt U γ : ℝ) (bt2 : Fin 2 → Matrix (Fin nb) (Fin nb) ℂ)
    (h : ∀ s, RealM (bt2 s)) : RealPar (chargePar dt U γ bt2) := by
  refine ⟨fun xi s => ?_, fun xi => ?_, h⟩
  · have e : (chargePar dt U γ bt2).auxf xi s = (((if xi = 0 then Real.exp γ else
        Real.exp (-γ)) * Real.exp (-(dt * U / 2)) : ℝ) : ℂ) := by
      show chargeAux γ xi s * Complex.exp (-(dt * U / 2)) = _
      rw [chargeAux]
      split_ifs <;> push_cast <;> rfl
    rw [e]; exact Complex.conj_ofReal _
  · have e : (chargePar dt U γ bt2).wfac xi = ((Real.exp (dt * U / 2) * (if xi = 0 then
        Real.exp (-γ) else Real.exp γ) : ℝ) : ℂ) := by
      show chargeWfac dt U γ xi = _
      rw [chargeWfac]
      split_ifs <;> push_cast <;> rfl
    rw [e]; exact Complex.conj_ofReal _

/-- **C31** (part that holds) Spin decomposition, real numbers, whole constrained step of a walker
that survives: new weight times the probability with which the fields were sampled is the old weight
times `(1/2)^nb`, times the scalar factors of the fields, times the ratio of the overlaps of the
propagated and the old walker, times the shift factor; the stored overlap is right.
What is missing: the charge decomposition (`charge_weight_wrong`). -/
theorem constrained_weight_partial (dt U : ℝ) (bt2 : Fin 2 → Matrix (Fin nb) (Fin nb) ℂ)
    (hbt : ∀ s, RealM (bt2 s)) (psi : Wfn nb nu nd) (hpsi : RealM psi)
    (eshift : ℝ) (rs : Fin nb → ℝ) (hrs : ∀ i, 0 ≤ rs i ∧ rs i < 1) (w : Wk nb nu nd)
    (hphi : RealM w.phi) (hne : overlap psi w.phi ≠ 0)
    (hot : w.ot = overlap psi w.phi * Complex.exp (w.logShift : ℂ)) :
    let p := spinPar dt U bt2
    let w' := constrainedStep p psi eshift rs w
    w'.weight ≠ 0 → ∃ fields : Fin nb → Fin 2, ∃ P : ℝ,
      P = pathProb p psi rs (List.finRange nb) (kineticIS p psi w) ∧ 0 < P ∧
      up w'.phi = forwardMatrix p fields 0 * up w.phi ∧
      dn w'.phi = forwardMatrix p fields 1 * dn w.phi ∧
      w'.ot = overlap psi w'.phi * Complex.exp (w'.logShift : ℂ) ∧
      (w'.weight : ℂ) * P = w.weight * ((1 / 2) ^ nb * ∏ i, p.wfac (fields i)) *
        (overlap psi w'.phi / overlap psi w.phi) * Real.exp (dt * eshift) := by
  intro p w' hw
  obtain ⟨f, P, h1, h2, -, h4, h5, h6, -, -, -, h10⟩ := constrainedStep_weight
    (spinPar_real dt U bt2 hbt) psi hpsi eshift rs hrs w hphi (fun _ => one_ne_zero) hne hot hw
  refine ⟨f, P, h1, h2, h4, h5, h6, ?_⟩
  rw [show (∏ i, p.wfac (f i)) = 1 from Finset.prod_eq_one fun _ _ => rfl, mul_one]
  exact h10

/-- **C31** (failure) Charge decomposition: for every step that a walker of a one-site system
survives, new weight times sampling probability is not the product it should be: the scalar factor
of the field is missing. -/
theorem charge_weight_wrong (dt U γ : ℝ) (hγ : IsChargeGamma dt U γ) (hU : dt * U ≠ 0)
    (bt2 : Fin 2 → Matrix (Fin 1) (Fin 1) ℂ) (hbt : ∀ s, RealM (bt2 s)) (psi : Wfn 1 nu nd)
    (hpsi : RealM psi) (eshift : ℝ) (rs : Fin 1 → ℝ) (hrs : ∀ i, 0 ≤ rs i ∧ rs i < 1)
    (w : Wk 1 nu nd) (hphi : RealM w.phi) (hne : overlap psi w.phi ≠ 0)
    (hot : w.ot = overlap psi w.phi * Complex.exp (w.logShift : ℂ)) :
    let p := chargePar dt U γ bt2
    let w' := constrainedStep p psi eshift rs w
    w'.weight ≠ 0 → ∃ fields : Fin 1 → Fin 2, ∃ P : ℝ,
      P = pathProb p psi rs (List.finRange 1) (kineticIS p psi w) ∧
      up w'.phi = forwardMatrix p fields 0 * up w.phi ∧
      dn w'.phi = forwardMatrix p fields 1 * dn w.phi ∧
      (w'.weight : ℂ) * P ≠ w.weight * ((1 / 2) ^ 1 * ∏ i, p.wfac (fields i)) *
        (overlap psi w'.phi / overlap psi w.phi) * Real.exp (dt * eshift) := by
  intro p w' hw
  have hwf : ∀ xi, p.wfac xi ≠ 0 := fun xi => by
    show chargeWfac dt U γ xi ≠ 0
    rw [chargeWfac]
    split_ifs <;> exact mul_ne_zero (Complex.exp_ne_zero _) (Complex.exp_ne_zero _)
  obtain ⟨f, P, h1, h2, -, h4, h5, -, -, -, -, h10⟩ := constrainedStep_weight
    (chargePar_real dt U γ bt2 hbt) psi hpsi eshift rs hrs w hphi hwf hne hot hw
  refine ⟨f, P, h1, h4, h5, fun hc => ?_⟩
  have hne0 : (w'.weight : ℂ) * P ≠ 0 :=
    mul_ne_zero (by exact_mod_cast hw) (by exact_mod_cast h2.ne')
  have h10' : (w'.weight : ℂ) * P = w.weight * (1 / 2) ^ 1 *
    (overlap psi w'.phi / overlap psi w.phi) * Real.exp (dt * eshift) := h10
  have h11 : (w'.weight : ℂ) * P = (∏ i, p.wfac (f i)) * ((w'.weight : ℂ) * P) := by
    nth_rewrite 2 [h10']; rw [hc]; ring
  have : (∏ i, p.wfac (f i)) = 1 := by
    refine mul_right_cancel₀ hne0 ?_
    rw [← h11, one_mul]
  rw [Fin.prod_univ_one] at this
  exact chargeWfac_ne_one dt U γ hγ hU (f 0) this

/-! ## C32 -/

theorem re_exp_mul (z : ℂ) : (Complex.exp z).re * (Complex.exp (-z)).re = Real.cos z.im ^ 2 := by
  rw [Complex.exp_re, Complex.exp_re, Complex.neg_re, Complex.neg_im, Real.cos_neg]
  have : Real.exp z.re * Real.exp (-z.re) = 1 := by rw [← Real.exp_add]; simp
  linear_combination Real.cos z.im ^ 2 * this

/-- Probability with which the loop of `two_body_direct` chooses the fields it chooses. -/
noncomputable def fbProb (γ : ℂ) : List (ℂ × ℝ) → ℝ
  | [] => 1
  | (f, r) :: l => fbWeight γ f (fbChoose γ f r) / (fbWeight γ f 0 + fbWeight γ f 1) * fbProb γ l

theorem fbFactor_mul (γ f : ℂ) (xi : Fin 2) (h : fbWeight γ f 0 + fbWeight γ f 1 ≠ 0) :
    fbFactor γ f xi * (fbWeight γ f xi / (fbWeight γ f 0 + fbWeight γ f 1)) =
      1 / 4 * Real.cos (γ * f).im ^ 2 := by
  have e : fbFactor γ f xi * (fbWeight γ f xi / (fbWeight γ f 0 + fbWeight γ f 1)) =
      1 / 4 * ((Complex.exp (γ * f)).re * (Complex.exp (-(γ * f))).re) := by
    generalize hN : fbWeight γ f 0 + fbWeight γ f 1 = N at *
    fin_cases xi
    · simp [fbFactor, fbWeight, neg_mul] at hN ⊢
      rw [← mul_add] at hN
      field_simp
      rw [← hN]; ring
    · simp [fbFactor, fbWeight, neg_mul] at hN ⊢
      rw [← mul_add] at hN
      field_simp
      rw [← hN]; ring
  rw [e, re_exp_mul]

/-- **C32** (what the code does) The correction factor times the probability of the chosen fields is
the product of `cos²/4` over the sites.  It does not depend on the fields chosen. -/
theorem fbLoop_factor (γ : ℂ) (l : List (ℂ × ℝ))
    (h : ∀ x ∈ l, fbWeight γ x.1 0 + fbWeight γ x.1 1 ≠ 0) :
    (fbLoop γ l ([], 1)).2 * fbProb γ l = (l.map fun x => 1 / 4 * Real.cos (γ * x.1).im ^ 2).prod := by
  have key : ∀ (l : List (ℂ × ℝ)) s, (∀ x ∈ l, fbWeight γ x.1 0 + fbWeight γ x.1 1 ≠ 0) →
      (fbLoop γ l s).2 * fbProb γ l =
        s.2 * (l.map fun x => 1 / 4 * Real.cos (γ * x.1).im ^ 2).prod := by
    intro l
    induction l with
    | nil => intro s _; simp [fbLoop, fbProb]
    | cons x l ih =>
      intro s hl
      obtain ⟨f, r⟩ := x
      have h1 := ih (s.1 ++ [fbChoose γ f r], s.2 * fbFactor γ f (fbChoose γ f r))
        fun x hx => hl x (List.mem_cons_of_mem _ hx)
      have h2 := fbFactor_mul γ f (fbChoose γ f r) (hl (f, r) List.mem_cons_self)
      rw [fbLoop, fbProb, List.map_cons, List.prod_cons]
      show _ = s.2 * (1 / 4 * Real.cos (γ * f).im ^ 2 * _)
      rw [← h2]
      linear_combination fbWeight γ f (fbChoose γ f r) / (fbWeight γ f 0 + fbWeight γ f 1) * h1
  simpa using key l ([], 1) h

/-- The fields chosen: one per site, each by its own force bias and random number. -/
theorem fbLoop_fields (γ : ℂ) (l : List (ℂ × ℝ)) :
    (fbLoop γ l ([], 1)).1 = l.map fun x => fbChoose γ x.1 x.2 := by
  have key : ∀ (l : List (ℂ × ℝ)) s, (fbLoop γ l s).1 = s.1 ++ l.map fun x => fbChoose γ x.1 x.2 := by
    intro l
    induction l with
    | nil => intro s; simp [fbLoop]
    | cons x l ih => intro s; obtain ⟨f, r⟩ := x; simp [fbLoop, ih]
  simpa using key l ([], 1)

/-- **C32** (part that holds) For real exponents the correction factor times the probability of the
chosen fields is the probability without force bias, `(1/2)^n`, up to the constant `(1/2)^n`.
What is missing: the constant (`force_bias_wrong`) and complex exponents. -/
theorem force_bias_partial (γ : ℂ) (l : List (ℂ × ℝ)) (h : ∀ x ∈ l, (γ * x.1).im = 0) :
    (fbLoop γ l ([], 1)).2 * fbProb γ l = (1 / 2) ^ l.length * (1 / 2) ^ l.length := by
  have hpos : ∀ x ∈ l, fbWeight γ x.1 0 + fbWeight γ x.1 1 ≠ 0 := by
    intro x hx
    have h0 : 0 < fbWeight γ x.1 0 := by
      rw [fbWeight, if_pos rfl, Complex.exp_re, h x hx, Real.cos_zero, mul_one]
      exact mul_pos (by norm_num) (Real.exp_pos _)
    have h1 : 0 < fbWeight γ x.1 1 := by
      rw [fbWeight, if_neg (by decide), Complex.exp_re, neg_mul, Complex.neg_im, h x hx, neg_zero,
        Real.cos_zero, mul_one]
      exact mul_pos (by norm_num) (Real.exp_pos _)
    exact (add_pos h0 h1).ne'
  rw [fbLoop_factor γ l hpos, ← mul_pow]
  have : (l.map fun x => 1 / 4 * Real.cos (γ * x.1).im ^ 2) = l.map fun _ => (1 / 2 * (1 / 2) : ℝ) :=
    List.map_congr_left fun x hx => by rw [h x hx, Real.cos_zero]; norm_num
  rw [this, List.map_const', List.prod_replicate]

/-- **C32** (failure) With at least one site the correction factor is wrong for every choice of
fields, also for real exponents. -/
theorem force_bias_wrong (γ : ℂ) (l : List (ℂ × ℝ)) (hl : l ≠ []) (h : ∀ x ∈ l, (γ * x.1).im = 0) :
    (fbLoop γ l ([], 1)).2 * fbProb γ l ≠ (1 / 2) ^ l.length := by
  rw [force_bias_partial γ l h]
  intro hc
  have hp : (0 : ℝ) < (1 / 2) ^ l.length := by positivity
  have h1 : ((1 : ℝ) / 2) ^ l.length = 1 := by
    refine mul_right_cancel₀ hp.ne' ?_
    rw [hc, one_mul]
  exact absurd h1 (pow_lt_one₀ (by norm_num) (by norm_num) (fun h0 => hl (List.length_eq_zero_iff.1 h0))).ne

theorem RealM.transpose {a b : Nat} {A : Matrix (Fin a) (Fin b) ℂ} (hA : RealM A) : RealM Aᵀ :=
  fun i j => hA j i

theorem RealM.inv {a : Nat} {A : Matrix (Fin a) (Fin a) ℂ} (hA : RealM A) : RealM A⁻¹ := by
  have h : Aᴴ = Aᵀ := by ext i j; rw [Matrix.conjTranspose_apply, Matrix.transpose_apply, hA]
  have h2 : (A⁻¹)ᴴ = (A⁻¹)ᵀ := by rw [conjTranspose_nonsing_inv, h, transpose_nonsing_inv]
  intro i j
  have := congrFun (congrFun h2 j) i
  rwa [Matrix.conjTranspose_apply, Matrix.transpose_apply] at this

theorem RealM.mapStar {a b : Nat} {A : Matrix (Fin a) (Fin b) ℂ} (hA : RealM A) :
    RealM (A.map star) := by
  intro i j
  rw [Matrix.map_apply, hA, hA]

/-- The Green's function of real orbitals and a real trial is real. -/
theorem greensFunction_real (psi : Wfn nb nu nd) (hpsi : RealM psi) (w : Wk nb nu nd)
    (h : RealM w.phi) : RealM (greensFunction psi w).gUp ∧ RealM (greensFunction psi w).gDn :=
  ⟨hpsi.up.mapStar.mul ((h.up.transpose.mul hpsi.up.mapStar).inv.mul h.up.transpose),
    hpsi.dn.mapStar.mul ((h.dn.transpose.mul hpsi.dn.mapStar).inv.mul h.dn.transpose)⟩

/-- The force bias and random numbers of the sites, as the loop of `two_body_direct` sees them. -/
noncomputable def directSites (charge : Bool) (psi : Wfn nb nu nd) (rs : Fin nb → ℝ)
    (w : Wk nb nu nd) : List (ℂ × ℝ) :=
  (List.finRange nb).map fun i => (fbTerm charge ((greensFunction psi w).gUp i i)
    ((greensFunction psi w).gDn i i), rs i)

/-- **C32** (what the whole direct update does) Real numbers, equal numbers of electrons, no log
shift, walker that survives: orbitals, stored overlap, and new weight times sampling probability.
The latter has the extra factor `(1/2)^nb`. -/
theorem direct_weight {p : Par nb} (hp : RealPar p) (charge : Bool) (γ : ℝ) (psi : Wfn nb nu nu)
    (hpsi : RealM psi) (rs : Fin nb → ℝ) (w : Wk nb nu nu) (hphi : RealM w.phi)
    (hls : w.logShift = 0) (hot : w.ot = overlap psi w.phi) :
    let w' := direct p charge γ psi rs w
    w'.weight ≠ 0 → ∃ f : Fin nb → Fin 2,
      (∀ i, f i = fbChoose γ (fbTerm charge ((gab (up psi) (up w.phi)) i i)
        ((gab (dn psi) (dn w.phi)) i i)) (rs i)) ∧
      up w'.phi = diagonal (fun i => p.auxf (f i) 0) * up w.phi ∧
      dn w'.phi = diagonal (fun i => p.auxf (f i) 1) * dn w.phi ∧
      w'.ot = overlap psi w'.phi ∧ w'.ovlp = w'.ot ∧
      (w'.weight : ℂ) * fbProb γ (directSites charge psi rs w) =
        w.weight * ((1 / 2) ^ nb * ((1 / 2) ^ nb * ∏ i, p.wfac (f i))) *
          (overlap psi w'.phi / overlap psi w.phi) := by
  intro w' hw
  set s := fbLoop γ (directSites charge psi rs w) ([], 1) with hs
  set f : Fin nb → Fin 2 := fun i => s.1.getD i 0 with hf
  set φ : Wfn nb nu nu := join (diagonal (fun i => p.auxf (f i) 0) * up w.phi)
    (diagonal (fun i => p.auxf (f i) 1) * dn w.phi) with hφ
  have hφr : RealM φ := by
    have hd : ∀ s : Fin 2, RealM (diagonal fun i => p.auxf (f i) s) := fun s i j => by
      rw [diagonal_apply]
      split_ifs
      · exact hp.auxf _ _
      · exact star_zero _
    exact ((hd 0).mul hphi.up).join ((hd 1).mul hphi.dn)
  have hov : calcOverlap psi { w with phi := φ } = overlap psi φ := by
    rw [calcOverlap_eq]
    show overlap psi φ * Complex.exp (-((w.logShift : ℝ) : ℂ)) = _
    rw [hls]; simp
  have hw' : w' = if |Complex.arg ((∏ i, p.wfac (f i)) * calcOverlap psi { w with phi := φ } / w.ot)| <
      Real.pi / 2 then
        { w with phi := φ, ot := calcOverlap psi { w with phi := φ }, ovlp :=
          calcOverlap psi { w with phi := φ }, weight := w.weight * (s.2 * ((∏ i, p.wfac (f i)) *
            calcOverlap psi { w with phi := φ } / w.ot)).re }
      else { w with phi := φ, weight := 0 } := by
    simp only [w', direct]
    rfl
  rw [hov, hot] at hw'
  by_cases hc : |Complex.arg ((∏ i, p.wfac (f i)) * overlap psi φ / overlap psi w.phi)| < Real.pi / 2
  · rw [if_pos hc] at hw'
    have hphi' : w'.phi = φ := by rw [hw']
    have hrr : star ((∏ i, p.wfac (f i)) * overlap psi φ / overlap psi w.phi) =
        (∏ i, p.wfac (f i)) * overlap psi φ / overlap psi w.phi := by
      rw [star_div₀, star_mul', star_prod, hpsi.overlap hφr, hpsi.overlap hphi]
      congr 2
      exact Finset.prod_congr rfl fun i _ => hp.wfac _
    refine ⟨f, fun i => ?_, ?_, ?_, ?_, ?_, ?_⟩
    · rw [hf]
      show s.1.getD i 0 = _
      rw [hs, fbLoop_fields, directSites, List.map_map]
      rw [List.getD_eq_getElem?_getD]
      have e := greensFunction_eq psi w
      simp [e]
    · rw [hphi', hφ, up_join]
    · rw [hphi', hφ, dn_join]
    · rw [hphi', hw']
    · rw [hw']
    · have him : ∀ x ∈ directSites charge psi rs w, ((γ : ℂ) * x.1).im = 0 := by
        intro x hx
        obtain ⟨i, -, rfl⟩ := List.mem_map.1 hx
        obtain ⟨g1, g2⟩ := greensFunction_real psi hpsi w hphi
        have r1 := Complex.conj_eq_iff_im.1 (g1 i i)
        have r2 := Complex.conj_eq_iff_im.1 (g2 i i)
        cases charge <;> simp [fbTerm, r1, r2]
      have hP := force_bias_partial γ (directSites charge psi rs w) him
      rw [← hs] at hP
      have hlen : (directSites charge psi rs w).length = nb := by simp [directSites]
      rw [hlen] at hP
      have hwt : (w'.weight : ℂ) = w.weight * (s.2 * ((∏ i, p.wfac (f i)) * overlap psi φ /
          overlap psi w.phi)) := by
        rw [hw']
        show ((w.weight * ((s.2 : ℂ) * ((∏ i, p.wfac (f i)) * overlap psi φ /
          overlap psi w.phi)).re : ℝ) : ℂ) = _
        push_cast
        rw [re_of_real]
        rw [star_mul', hrr]
        congr 1
        exact Complex.conj_ofReal _
      have hP' : (s.2 : ℂ) * fbProb γ (directSites charge psi rs w) = (1 / 2) ^ nb * (1 / 2) ^ nb := by
        have h2 := congrArg (fun x : ℝ => (x : ℂ)) hP
        push_cast at h2
        exact h2
      rw [hwt, hphi']
      calc _ = w.weight * ((s.2 : ℂ) * fbProb γ (directSites charge psi rs w)) *
            ((∏ i, p.wfac (f i)) * overlap psi φ / overlap psi w.phi) := by ring
        _ = _ := by rw [hP']; ring
  · rw [if_neg hc] at hw'
    exact absurd (by rw [hw']) hw

/-! ## Free projection -/

/-- What a free-projection step does. -/
theorem freeStep_spec (p : Par nb) (psi : Wfn nb nu nd) (eshift : ℝ) (fields : Fin nb → Fin 2)
    (w : Wk nb nu nd) :
    let w' := freeStep p psi eshift fields w
    up w'.phi = forwardMatrix p fields 0 * up w.phi ∧ dn w'.phi = forwardMatrix p fields 1 * dn w.phi ∧
    (w'.weight : ℂ) * w'.phase =
      w.weight * w.phase * (Real.exp (p.dt * eshift) * ∏ i, p.wfac (fields i)) ∧
    w'.ot = overlap psi w'.phi * Complex.exp (w.logShift : ℂ) ∧ w'.ovlp = w'.ot ∧
    w'.invUp = ((up psi)ᴴ * up w'.phi)⁻¹ ∧ w'.invDn = ((dn psi)ᴴ * dn w'.phi)⁻¹ ∧
    w'.logShift = w.logShift ∧ w'.detRShift = w.detRShift := by
  intro w'
  have hd : ∀ s : Fin 2, (fun i : Fin nb => 1 + p.delta (fields i) s) =
      fun i : Fin nb => p.auxf (fields i) s := fun s => by funext i; simp [Par.delta]
  refine ⟨?_, ?_, ?_, ?_, rfl, rfl, rfl, rfl, rfl⟩
  · show up (kineticReal p.bt2 (join _ _)) = _
    rw [kineticReal, up_join, up_join, foldl_addRow_all (fun i => p.delta (fields i) 0), hd,
      kineticReal, up_join, forwardMatrix]
    simp only [Matrix.mul_assoc]
  · show dn (kineticReal p.bt2 (join _ _)) = _
    rw [kineticReal, dn_join, dn_join, foldl_addRow_all (fun i => p.delta (fields i) 1), hd,
      kineticReal, dn_join, forwardMatrix]
    simp only [Matrix.mul_assoc]
  · show ((w.weight * (Real.exp (p.dt * eshift) * ‖∏ i, p.wfac (fields i)‖) : ℝ) : ℂ) *
      (w.phase * Complex.exp (Complex.I * (Complex.arg (∏ i, p.wfac (fields i)) : ℂ))) = _
    have := Complex.norm_mul_exp_arg_mul_I (∏ i, p.wfac (fields i))
    rw [mul_comm (Complex.arg _ : ℂ)] at this
    push_cast
    nth_rewrite 3 [← this]
    ring
  · exact calcOtrial_eq psi w' rfl rfl

/-- An operation of a free-projection run: a step with given fields and shift, or the
reorthogonalisation of the walkers. -/
abbrev FreeOp (nb : Nat) := Option ((Fin nb → Fin 2) × ℝ)

noncomputable def freeOp (p : Par nb) (qr : QR nb) (psi : Wfn nb nu nd) (w : Wk nb nu nd) :
    FreeOp nb → Wk nb nu nd
  | none => orthogonalise qr true w
  | some (fields, eshift) => freeStep p psi eshift fields w

/-- Product of the step matrices of a run, and of its scalar factors. -/
noncomputable def opsMatrix (p : Par nb) (s : Fin 2) : List (FreeOp nb) → Matrix (Fin nb) (Fin nb) ℂ
  | [] => 1
  | none :: l => opsMatrix p s l
  | some (f, _) :: l => opsMatrix p s l * forwardMatrix p f s

noncomputable def opsFactor (p : Par nb) : List (FreeOp nb) → ℂ
  | [] => 1
  | none :: l => opsFactor p l
  | some (f, e) :: l => Real.exp (p.dt * e) * (∏ i, p.wfac (f i)) * opsFactor p l

theorem overlap_adj (psi : Wfn nb nu nd) (M N : Matrix (Fin nb) (Fin nb) ℂ) (φ : Wfn nb nu nd) :
    overlap psi (join (M * up φ) (N * dn φ)) = overlap (join (Mᴴ * up psi) (Nᴴ * dn psi)) φ := by
  rw [overlap, overlap, up_join, dn_join, up_join, dn_join]
  simp only [Matrix.conjTranspose_mul, Matrix.conjTranspose_conjTranspose, Matrix.mul_assoc]

/-- **C24**, **C30** Free projection with reorthogonalisations anywhere: the walker represents, as
weight times phase times determinant, exactly the product of the step matrices and scalar factors
applied to the starting walker, seen from any bra; and the stored overlap is the overlap of its
orbitals. -/
theorem free_run (p : Par nb) (qr : QR nb) (hqr : QRSpec qr) (psi : Wfn nb nu nd)
    (hdet : ∀ f s, (forwardMatrix p f s).det ≠ 0) (ops : List (FreeOp nb)) : ∀ (w : Wk nb nu nd),
    FullRank (up w.phi) → FullRank (dn w.phi) → w.detRShift = 0 → w.logShift = 0 →
    w.ot = overlap psi w.phi →
    let w' := ops.foldl (freeOp p qr psi) w
    (∀ bra : Wfn nb nu nd, (w'.weight : ℂ) * w'.phase * overlap bra w'.phi =
      w.weight * w.phase * opsFactor p ops *
        overlap bra (join (opsMatrix p 0 ops * up w.phi) (opsMatrix p 1 ops * dn w.phi))) ∧
    w'.ot = overlap psi w'.phi := by
  induction ops with
  | nil =>
    intro w hu hd hs hl hot w'
    refine ⟨fun bra => ?_, hot⟩
    show _ = _ * (1 : ℂ) * overlap bra (join (1 * up w.phi) (1 * dn w.phi))
    rw [Matrix.one_mul, Matrix.one_mul, join_up_dn, mul_one]; rfl
  | cons op l ih =>
    intro w hu hd hs hl hot
    cases op with
    | some x =>
      obtain ⟨f, e⟩ := x
      obtain ⟨h1, h2, h3, h4, -, -, -, h8, h9⟩ := freeStep_spec p psi e f w
      have := ih (freeStep p psi e f w) (by rw [h1]; exact hu.mul (hdet f 0))
        (by rw [h2]; exact hd.mul (hdet f 1)) (h9.trans hs) (h8.trans hl)
        (by rw [h4, hl]; simp)
      refine ⟨fun bra => ?_, this.2⟩
      have t := this.1 bra
      rw [h1, h2, h3] at t
      rw [opsFactor, opsMatrix, opsMatrix, List.foldl_cons, freeOp, Matrix.mul_assoc,
        Matrix.mul_assoc]
      rw [t]; ring
    | none =>
      obtain ⟨⟨a1, a2⟩, -, hpos, a4, a5, -, -⟩ := reortho_facts qr hqr w hu hd
      have hR0 : ((reortho qr w).detR : ℂ) ≠ 0 := by exact_mod_cast hpos.ne'
      have hov : ∀ bra : Wfn nb nu nd, overlap bra w.phi =
          (reortho qr w).detR * overlap bra (reortho qr w).phi := fun bra => by
        rw [a4 bra, hs]; simp
      have := ih (orthogonalise qr true w)
        (by show ((up (reortho qr w).phi)ᴴ * up (reortho qr w).phi).det ≠ 0
            rw [a1, Matrix.det_one]; exact one_ne_zero)
        (by show ((dn (reortho qr w).phi)ᴴ * dn (reortho qr w).phi).det ≠ 0
            rw [a2, Matrix.det_one]; exact one_ne_zero)
        hs hl
        (by show (reortho qr w).ot = overlap psi (reortho qr w).phi
            rw [a5, hot, hov psi]; field_simp)
      refine ⟨fun bra => ?_, this.2⟩
      have t := this.1 bra
      rw [opsFactor, opsMatrix, opsMatrix, List.foldl_cons, freeOp]
      rw [t]
      have hp := Complex.norm_mul_exp_arg_mul_I ((reortho qr w).detR : ℂ)
      rw [mul_comm (Complex.arg _ : ℂ)] at hp
      have hwp : ((orthogonalise qr true w).weight : ℂ) * (orthogonalise qr true w).phase =
          w.weight * w.phase * (reortho qr w).detR := by
        show ((w.weight * ‖((reortho qr w).detR : ℂ)‖ : ℝ) : ℂ) * (w.phase *
          Complex.exp (Complex.I * (Complex.arg ((reortho qr w).detR : ℂ) : ℂ))) = _
        nth_rewrite 3 [← hp]
        push_cast; ring
      rw [hwp, overlap_adj, overlap_adj, hov]
      show _ * overlap _ (reortho qr w).phi = _
      ring

/-! ## C15: the matrices of back propagation -/

/-- **C15** Spin decomposition: the matrix that back propagation applies (before conjugation) is the
matrix of the forward step up to the positive constant `exp(dt*U/2)`, the same for every field
configuration. -/
theorem bpMatrix_spin (dt U : ℝ) (bt2 : Fin 2 → Matrix (Fin nb) (Fin nb) ℂ) (f : Fin nb → Fin 2)
    (s : Fin 2) : forwardMatrix (spinPar dt U bt2) f s =
      Complex.exp (-(dt * U / 2)) • bpMatrix dt U (bt2 s) f s := by
  rw [forwardMatrix, bpMatrix]
  show bt2 s * diagonal (fun i => spinAux (spinGamma dt U) (f i) s * Complex.exp (-(dt * U / 2))) *
    bt2 s = _
  have : diagonal (fun i => spinAux (spinGamma dt U) (f i) s * Complex.exp (-(dt * U / 2))) =
      Complex.exp (-(dt * U / 2)) • diagonal (fun i => spinAux (spinGamma dt U) (f i) s) := by
    rw [← diagonal_smul]; congr 1; funext i; simp [mul_comm]
  rw [this, Matrix.mul_smul, Matrix.smul_mul, Matrix.mul_assoc]

/-- **C15** (failure) Charge decomposition of a repulsive model: back propagation applies matrices
that are not even proportional to those of the forward step. -/
theorem bpMatrix_charge_ne (dt U : ℝ) (hU : 0 < dt * U) (γ : ℂ) :
    ¬ ∃ c : Fin 2 → ℂ, ∀ s, forwardMatrix (chargePar dt U γ fun _ => (1 : Matrix (Fin 2) (Fin 2) ℂ))
      ![0, 1] s = c s • bpMatrix dt U 1 ![0, 1] s := by
  rintro ⟨c, hc⟩
  set g := spinGamma dt U with hg
  have hE := Complex.exp_ne_zero (-(dt * U / 2 : ℂ))
  have e : ∀ s, (∀ i : Fin 2, chargeAux γ ((![0, 1] : Fin 2 → Fin 2) i) s *
      Complex.exp (-(dt * U / 2)) = c s * spinAux g ((![0, 1] : Fin 2 → Fin 2) i) s) := by
    intro s i
    have h := congrFun (congrFun (hc s) i) i
    simpa [forwardMatrix, bpMatrix, chargePar] using h
  have h00 := e 0 0
  have h01 := e 0 1
  have h10 := e 1 0
  have h11 := e 1 1
  simp [chargeAux, spinAux] at h00 h01 h10 h11
  have a1 : Complex.exp (g : ℂ) * Complex.exp (-(g : ℂ)) = 1 := by rw [← Complex.exp_add]; simp
  have hga := Complex.exp_ne_zero γ
  have hgb := Complex.exp_ne_zero (-γ)
  have hc0 : c 0 ≠ 0 := by
    intro h0
    rw [h0, zero_mul] at h00
    exact mul_ne_zero hga hE h00
  have hc1 : c 1 ≠ 0 := by
    intro h0
    rw [h0, zero_mul] at h10
    exact mul_ne_zero hga hE h10
  generalize Complex.exp (-(dt * U / 2 : ℂ)) = E at *
  generalize Complex.exp γ = a at *
  generalize Complex.exp (-γ) = b at *
  have hEne : Complex.exp (g : ℂ) ^ 4 = 1 := by
    generalize hx : Complex.exp (g : ℂ) = x at *
    generalize Complex.exp (-(g : ℂ)) = y at *
    have hy : y ≠ 0 := right_ne_zero_of_mul_eq_one a1
    -- a/b = x/y and a/b = y/x
    have q1 : c 0 * c 1 * (x * x - y * y) = 0 := by
      have : (c 0 * x) * (c 1 * x) = (c 1 * y) * (c 0 * y) := by
        rw [← h00, ← h11, ← h10, ← h01]
      linear_combination this
    have q2 : x * x = y * y := by
      have := mul_eq_zero.1 q1
      rcases this with h | h
      · exact absurd h (mul_ne_zero hc0 hc1)
      · linear_combination h
    calc x ^ 4 = (x * x) * (x * x) := by ring
      _ = (x * x) * (y * y) := by rw [← q2]
      _ = (x * y) ^ 2 := by ring
      _ = 1 := by rw [a1]; ring
  have hreal : Real.exp g ^ 4 = 1 := by
    have : ((Real.exp g ^ 4 : ℝ) : ℂ) = 1 := by push_cast; exact hEne
    exact_mod_cast this
  rw [← Real.exp_nat_mul, Real.exp_eq_one_iff] at hreal
  have g0 : g = 0 := by
    push_cast at hreal; linarith
  have hch := cosh_spinGamma hU.le
  rw [← hg, g0, Real.cosh_zero] at hch
  have := Real.one_lt_exp_iff.2 (show 0 < dt * U / 2 by linarith)
  linarith

/-! ## The hypotheses can be met

With one electron of each spin, positive orbitals and positive propagators no walker dies, so the
theorems above about surviving walkers speak about every step. -/

def IsPos (z : ℂ) : Prop := ∃ r : ℝ, 0 < r ∧ z = r

theorem IsPos.mul {a b : ℂ} : IsPos a → IsPos b → IsPos (a * b) := by
  rintro ⟨r, hr, rfl⟩ ⟨s, hs, rfl⟩
  exact ⟨r * s, mul_pos hr hs, by push_cast; rfl⟩

theorem IsPos.div {a b : ℂ} : IsPos a → IsPos b → IsPos (a / b) := by
  rintro ⟨r, hr, rfl⟩ ⟨s, hs, rfl⟩
  exact ⟨r / s, div_pos hr hs, by push_cast; rfl⟩

theorem IsPos.re {a : ℂ} : IsPos a → 0 < a.re := by rintro ⟨r, hr, rfl⟩; exact hr

theorem IsPos.ne {a : ℂ} (h : IsPos a) : a ≠ 0 := by
  obtain ⟨r, hr, rfl⟩ := h; exact_mod_cast hr.ne'

theorem IsPos.star {a : ℂ} (h : IsPos a) : star a = a := by
  obtain ⟨r, hr, rfl⟩ := h; exact Complex.conj_ofReal _

theorem IsPos.exp (x : ℝ) : IsPos (Complex.exp (x : ℂ)) :=
  ⟨Real.exp x, Real.exp_pos x, by push_cast; rfl⟩

theorem IsPos.sum {ι : Type*} {s : Finset ι} (hs : s.Nonempty) {f : ι → ℂ} (h : ∀ i ∈ s, IsPos (f i)) :
    IsPos (∑ i ∈ s, f i) := by
  refine ⟨∑ i ∈ s, (f i).re, Finset.sum_pos (fun i hi => (h i hi).re) hs, ?_⟩
  push_cast
  refine Finset.sum_congr rfl fun i hi => ?_
  obtain ⟨r, -, e⟩ := h i hi
  rw [e]; simp

def PosM {a b : Nat} (A : Matrix (Fin a) (Fin b) ℂ) : Prop := ∀ i j, IsPos (A i j)

theorem PosM.real {a b : Nat} {A : Matrix (Fin a) (Fin b) ℂ} (h : PosM A) : RealM A :=
  fun i j => (h i j).star

theorem PosM.mul {a b c : Nat} (hb : 0 < b) {A : Matrix (Fin a) (Fin b) ℂ} {B : Matrix (Fin b) (Fin c) ℂ}
    (hA : PosM A) (hB : PosM B) : PosM (A * B) := by
  intro i j
  rw [Matrix.mul_apply]
  exact IsPos.sum ⟨⟨0, hb⟩, Finset.mem_univ _⟩ fun l _ => (hA i l).mul (hB l j)

theorem PosM.overlap (hnb : 0 < nb) {psi φ : Wfn nb 1 1} (h : PosM psi) (h' : PosM φ) :
    IsPos (overlap psi φ) := by
  have a : ∀ (A B : Matrix (Fin nb) (Fin 1) ℂ), PosM A → PosM B → IsPos (Aᴴ * B).det := by
    intro A B hA hB
    rw [Matrix.det_fin_one]
    refine (PosM.mul hnb (A := Aᴴ) (fun i j => ?_) hB) 0 0
    rw [Matrix.conjTranspose_apply, (hA j i).star]
    exact hA j i
  rw [Slater.overlap]
  exact (a _ _ (fun i j => h i _) (fun i j => h' i _)).mul (a _ _ (fun i j => h i _) (fun i j => h' i _))

theorem PosM.join {a b : Nat} {A : Matrix (Fin nb) (Fin a) ℂ} {B : Matrix (Fin nb) (Fin b) ℂ}
    (hA : PosM A) (hB : PosM B) : PosM (Slater.join A B) := by
  intro i j
  refine Fin.addCases (fun l => ?_) (fun l => ?_) j
  · simp only [Slater.join, Fin.addCases_left]; exact hA i l
  · simp only [Slater.join, Fin.addCases_right]; exact hB i l

structure PosPar (p : Par nb) : Prop where
  auxf : ∀ xi s, IsPos (p.auxf xi s)
  wfac : ∀ xi, IsPos (p.wfac xi)
  bt2 : ∀ s, PosM (p.bt2 s)

theorem applyField_pos {p : Par nb} (hp : PosPar p) (psi : Wfn nb 1 1) (w : Wk nb 1 1) (h : PosM w.phi)
    (i : Fin nb) (xi : Fin 2) : PosM (applyField p psi w i xi).phi := by
  have a : ∀ (s : Fin 2) (A : Matrix (Fin nb) (Fin 1) ℂ), PosM A → PosM (addRow A i (p.delta xi s)) := by
    intro s A hA x j
    rw [addRow]
    split_ifs
    · have : A x j + A x j * p.delta xi s = A x j * p.auxf xi s := by rw [Par.delta]; ring
      rw [this]; exact (hA x j).mul (hp.auxf xi s)
    · exact hA x j
  exact (a 0 _ fun i j => h i _).join (a 1 _ fun i j => h i _)

theorem singleSite_survives {p : Par nb} (hp : PosPar p) (psi : Wfn nb 1 1) (hpsi : PosM psi)
    (rs : Fin nb → ℝ) (hrs : ∀ i, 0 ≤ rs i ∧ rs i < 1) (l : List (Fin nb)) : ∀ w : Wk nb 1 1,
    PosM w.phi → Good psi w → w.weight ≠ 0 →
    (singleSite p psi rs l w).1.weight ≠ 0 ∧ PosM (singleSite p psi rs l w).1.phi := by
  induction l with
  | nil => intro w h _ hw; exact ⟨hw, h⟩
  | cons i l ih =>
    intro w h hg hw
    have hnb : 0 < nb := Nat.lt_of_le_of_lt (Nat.zero_le _) i.2
    have half : IsPos (1 / 2 : ℂ) := ⟨1 / 2, by norm_num, by push_cast; rfl⟩
    have hpr : ∀ xi, IsPos (probs p psi w i xi) := fun xi => by
      rw [probs_eq p psi w i xi hg]
      exact (half.mul ((hpsi.overlap hnb (applyField_pos hp psi w h i xi)).div
        (hpsi.overlap hnb h))).mul (hp.wfac xi)
    have ht : ∀ xi, 0 < trunc p psi w i xi := fun xi => lt_of_lt_of_le (hpr xi).re (le_max_left _ _)
    have hn : 0 < norm p psi w i := add_pos (ht 0) (ht 1)
    rw [singleSite]
    simp only [if_pos hn]
    exact ih _ (applyField_pos hp psi w h i _) (applyField_good p psi w i _ hg (hpr _).ne)
      (mul_ne_zero hw hn.ne')

theorem kineticIS_survives {p : Par nb} (psi : Wfn nb nu nd) (w : Wk nb nu nd) (hw : w.weight ≠ 0)
    (h : IsPos (overlap psi (kineticReal p.bt2 w.phi) * Complex.exp (w.logShift : ℂ) / w.ot)) :
    (kineticIS p psi w).weight ≠ 0 := by
  have hot : calcOtrial (inverseOverlap psi { w with phi := kineticReal p.bt2 w.phi }) =
      overlap psi (kineticReal p.bt2 w.phi) * Complex.exp (w.logShift : ℂ) :=
    calcOtrial_eq psi (inverseOverlap psi { w with phi := kineticReal p.bt2 w.phi }) rfl rfl
  rw [← hot] at h
  have hc : |Complex.arg (calcOtrial (inverseOverlap psi { w with phi := kineticReal p.bt2 w.phi })
      / w.ot)| < Real.pi / 2 := Complex.abs_arg_lt_pi_div_two_iff.2 (Or.inl h.re)
  simp only [kineticIS, if_pos hc]
  exact mul_ne_zero hw h.re.ne'

theorem constrainedStep_survives {p : Par nb} (hnb : 0 < nb) (hp : PosPar p) (psi : Wfn nb 1 1)
    (hpsi : PosM psi) (eshift : ℝ) (rs : Fin nb → ℝ) (hrs : ∀ i, 0 ≤ rs i ∧ rs i < 1) (w : Wk nb 1 1)
    (hphi : PosM w.phi) (hot : w.ot = overlap psi w.phi * Complex.exp (w.logShift : ℂ))
    (hw : w.weight ≠ 0) : (constrainedStep p psi eshift rs w).weight ≠ 0 := by
  have hk : ∀ φ : Wfn nb 1 1, PosM φ → PosM (kineticReal p.bt2 φ) := fun φ h =>
    ((hp.bt2 0).mul hnb fun i j => h i _).join ((hp.bt2 1).mul hnb fun i j => h i _)
  have s1 : (kineticIS p psi w).weight ≠ 0 := by
    refine kineticIS_survives psi w hw ?_
    rw [hot]
    exact ((hpsi.overlap hnb (hk _ hphi)).mul (IsPos.exp _)).div
      ((hpsi.overlap hnb hphi).mul (IsPos.exp _))
  obtain ⟨g1, p1, l1, o1, -⟩ := kineticIS_spec p psi w s1
  have pos1 : PosM (kineticIS p psi w).phi := by rw [p1]; exact hk _ hphi
  obtain ⟨s2, pos2⟩ := singleSite_survives hp psi hpsi rs hrs (List.finRange nb) _ pos1 g1 s1
  have sw := singleSite_swept p psi rs hrs (List.finRange nb) _ g1 s2
  obtain ⟨-, -, o2⟩ := swept_all p psi _ _ _ sw
  have hprod : IsPos (∏ i : Fin nb, p.wfac ((singleSite p psi rs (List.finRange nb)
      (kineticIS p psi w)).2.getD i 0)) := by
    refine Finset.prod_induction _ IsPos (fun _ _ => IsPos.mul) ⟨1, one_pos, by simp⟩ fun i _ => hp.wfac _
  have ot2 : IsPos (singleSite p psi rs (List.finRange nb) (kineticIS p psi w)).1.ot := by
    have := (eq_div_iff g1.ne).2 o2
    rw [this, o1]
    exact (((((hpsi.overlap hnb pos1).mul (IsPos.exp _))).mul hprod).mul
      (hpsi.overlap hnb pos2)).div (hpsi.overlap hnb pos1)
  have s3 := kineticIS_survives (p := p) psi _ s2
    (((hpsi.overlap hnb (hk _ pos2)).mul (IsPos.exp _)).div ot2)
  simp only [constrainedStep]
  rw [if_pos (abs_pos.2 hw), if_pos (abs_pos.2 s1), if_pos (abs_pos.2 s2)]
  exact mul_ne_zero s3 (Real.exp_pos _).ne'

theorem spinPar_pos (dt U : ℝ) (bt2 : Fin 2 → Matrix (Fin nb) (Fin nb) ℂ) (h : ∀ s, PosM (bt2 s)) :
    PosPar (spinPar dt U bt2) := by
  refine ⟨fun xi s => ?_, fun xi => ⟨1, one_pos, by simp [spinPar]⟩, h⟩
  show IsPos (spinAux (spinGamma dt U) xi s * Complex.exp (-(dt * U / 2)))
  have e : Complex.exp (-(dt * U / 2)) = Complex.exp ((-(dt * U / 2) : ℝ) : ℂ) := by push_cast; rfl
  rw [spinAux, e]
  refine IsPos.mul ?_ (IsPos.exp _)
  split_ifs
  · exact IsPos.exp _
  · have := IsPos.exp (-spinGamma dt U); push_cast at this; exact this

theorem chargePar_pos (dt U γ : ℝ) (bt2 : Fin 2 → Matrix (Fin nb) (Fin nb) ℂ) (h : ∀ s, PosM (bt2 s)) :
    PosPar (chargePar dt U γ bt2) := by
  have e2 := IsPos.exp (-γ)
  push_cast at e2
  refine ⟨fun xi s => ?_, fun xi => ?_, h⟩
  · show IsPos (chargeAux γ xi s * Complex.exp (-(dt * U / 2)))
    have e : Complex.exp (-(dt * U / 2)) = Complex.exp ((-(dt * U / 2) : ℝ) : ℂ) := by push_cast; rfl
    rw [chargeAux, e]
    refine IsPos.mul ?_ (IsPos.exp _)
    split_ifs
    · exact IsPos.exp _
    · exact e2
  · show IsPos (chargeWfac dt U γ xi)
    have e : Complex.exp (dt * U / 2) = Complex.exp ((dt * U / 2 : ℝ) : ℂ) := by push_cast; rfl
    rw [chargeWfac, e]
    refine (IsPos.exp _).mul ?_
    split_ifs
    · exact e2
    · exact IsPos.exp _

/-- Three sites, one electron of each spin, everything positive. -/
def exPsi3 : Wfn 3 1 1 := fun _ _ => 1

noncomputable def exW3 : Wk 3 1 1 := { fresh (fun _ _ => 1 : Wfn 3 1 1) with ot := overlap exPsi3 (fun _ _ => 1) }

def exBt (n : Nat) : Fin 2 → Matrix (Fin n) (Fin n) ℂ := fun _ i j => if i = j then 2 else 1

theorem exBt_pos (n : Nat) (s : Fin 2) : PosM (exBt n s) := by
  intro i j
  rw [exBt]
  split_ifs
  · exact ⟨2, by norm_num, by simp⟩
  · exact ⟨1, by norm_num, by simp⟩

/-- The hypotheses of `constrained_weight_partial` are met by a walker on three sites. -/
example : ∃ P : ℝ, 0 < P ∧ ∃ f : Fin 3 → Fin 2,
    let p := spinPar (1 / 10) 4 (exBt 3)
    let w' := constrainedStep p exPsi3 (1 / 2) (fun _ => 1 / 3) exW3
    w'.weight ≠ 0 ∧ up w'.phi = forwardMatrix p f 0 * up exW3.phi ∧
    (w'.weight : ℂ) * P = exW3.weight * ((1 / 2) ^ 3 * ∏ i, p.wfac (f i)) *
      (overlap exPsi3 w'.phi / overlap exPsi3 exW3.phi) * Real.exp (1 / 10 * (1 / 2)) := by
  have one : ∀ a b : Nat, PosM (fun _ _ => 1 : Matrix (Fin a) (Fin b) ℂ) := fun a b i j =>
    ⟨1, one_pos, by simp⟩
  have hpsi : PosM exPsi3 := one _ _
  have hphi : PosM exW3.phi := one _ _
  have hot : exW3.ot = overlap exPsi3 exW3.phi * Complex.exp (exW3.logShift : ℂ) := by
    show overlap exPsi3 (fun _ _ => 1) = overlap exPsi3 (fun _ _ => 1) * Complex.exp ((0 : ℝ) : ℂ)
    simp
  have hrs : ∀ i : Fin 3, (0 : ℝ) ≤ 1 / 3 ∧ (1 / 3 : ℝ) < 1 := fun _ => by norm_num
  have hs := constrainedStep_survives (by norm_num) (spinPar_pos (1 / 10) 4 _ (exBt_pos 3)) exPsi3 hpsi
    (1 / 2) (fun _ => 1 / 3) hrs exW3 hphi hot (by show (1 : ℝ) ≠ 0; norm_num)
  obtain ⟨f, P, -, h2, h3, -, -, h6⟩ := constrained_weight_partial (1 / 10) 4 (exBt 3)
    (fun s => (exBt_pos 3 s).real) exPsi3 hpsi.real (1 / 2) (fun _ => 1 / 3) hrs exW3 hphi.real
    (hpsi.overlap (by norm_num) hphi).ne hot hs
  exact ⟨P, h2, f, hs, h3, h6⟩

def exPsi1 : Wfn 1 1 1 := fun _ _ => 1

noncomputable def exW1 : Wk 1 1 1 := { fresh exPsi1 with ot := overlap exPsi1 exPsi1 }

/-- The hypotheses of `charge_weight_wrong` are met: an attractive site, with a walker that
survives. -/
example : ∃ γ : ℝ, IsChargeGamma (1 / 10) (-4) γ ∧
    (constrainedStep (chargePar (1 / 10) (-4) γ (exBt 1)) exPsi1 0 (fun _ => 1 / 3) exW1).weight ≠ 0 ∧
    exW1.ot = overlap exPsi1 exW1.phi * Complex.exp (exW1.logShift : ℂ) ∧ RealM exW1.phi := by
  have one : PosM exPsi1 := fun i j => ⟨1, one_pos, by simp [exPsi1]⟩
  have hot : exW1.ot = overlap exPsi1 exW1.phi * Complex.exp (exW1.logShift : ℂ) := by
    show overlap exPsi1 exPsi1 = overlap exPsi1 exPsi1 * Complex.exp ((0 : ℝ) : ℂ)
    simp
  refine ⟨Real.arcosh (Real.exp (1 / 5)), ?_, ?_, hot, one.real⟩
  · have h := Real.cosh_arcosh (Real.one_le_exp (show (0 : ℝ) ≤ 1 / 5 by norm_num))
    have : ((Real.cosh (Real.arcosh (Real.exp (1 / 5))) : ℝ) : ℂ) = ((Real.exp (1 / 5) : ℝ) : ℂ) := by
      rw [h]
    rw [IsChargeGamma]
    push_cast at this ⊢
    rw [this]; congr 1; norm_num
  · exact constrainedStep_survives (by norm_num) (chargePar_pos _ _ _ _ (exBt_pos 1)) _ one _ _
      (fun _ => by norm_num) exW1 one hot (by show (1 : ℝ) ≠ 0; norm_num)

/-- The hypotheses of `free_run` are met. -/
example (ops : List (FreeOp 3)) : let w' := ops.foldl (freeOp (spinPar (1 / 10) 4 fun _ => 1) (someQR 3)
      (join (up exPsi3) (dn exPsi3))) exW3
    w'.ot = overlap (join (up exPsi3) (dn exPsi3)) w'.phi := by
  have hfr : ∀ (A : Matrix (Fin 3) (Fin 1) ℂ), (∀ i j, A i j = 1) → FullRank A := by
    intro A hA
    rw [FullRank, Matrix.det_fin_one, Matrix.mul_apply]
    simp [Fin.sum_univ_three, Matrix.conjTranspose_apply, hA]
  refine (free_run (spinPar (1 / 10) 4 fun _ => 1) (someQR 3) (someQR_spec 3) (join (up exPsi3) (dn exPsi3))
    (fun f s => ?_) ops exW3 (hfr _ fun _ _ => rfl) (hfr _ fun _ _ => rfl) rfl rfl ?_).2
  · rw [forwardMatrix]
    show ((1 : Matrix (Fin 3) (Fin 3) ℂ) * diagonal _ * 1).det ≠ 0
    rw [Matrix.one_mul, Matrix.mul_one, det_diagonal]
    refine Finset.prod_ne_zero_iff.2 fun i _ => ?_
    exact ((spinPar_pos (1 / 10) 4 (exBt 3) (exBt_pos 3)).auxf _ _).ne
  · show overlap exPsi3 _ = overlap (join (up exPsi3) (dn exPsi3)) _
    rw [join_up_dn]; rfl

example : (fbLoop 1 [(1, 1 / 2), (-2, 1 / 3)] ([], 1)).2 * fbProb 1 [(1, 1 / 2), (-2, 1 / 3)] = 1 / 16 := by
  rw [force_bias_partial 1 _ (by simp)]; norm_num

end Verif.Hirsch
