import Verif.HolStep.Step
import Verif.Fields.Positive

/-!
# Electron steps: cases
-/

namespace Verif.HolStep

open Matrix Finset
open Verif.Slater (Wfn up dn join overlap)
open Verif.Hirsch (addRow kineticReal IsPos PosM)
open Verif.Holstein (Sys Osc)
open Verif.Step (spin spinOp Anti prodState orbs hubOp)
open Verif.Fields (rowStep rows meanOver exp_pos_mul)

variable {np nb nu nd : Nat}

/-! ## `sorella`: no hopping and no coupling -/

theorem kinetic_diag (d d' : Fin 2 → Fin nb → ℂ) (φ : Wfn nb nu nd) :
    kineticReal (fun s => diagonal (d s)) (kineticReal (fun s => diagonal (d' s)) φ) =
      kineticReal (fun s => diagonal fun i => d s i * d' s i) φ := by
  rw [kineticReal, kineticReal, kineticReal, Slater.up_join, Slater.dn_join, ← Matrix.mul_assoc, ← Matrix.mul_assoc,
    Matrix.diagonal_mul_diagonal, Matrix.diagonal_mul_diagonal]

theorem rowStep_diag (A : Fin 2 → Fin 2 → ℂ) (φ : Wfn nb nu nd) (i : Fin nb) (xi : Fin 2) :
    rowStep A φ i xi = kineticReal (fun s => diagonal fun a => if a = i then A xi s else 1) φ := by
  have h : ∀ {k : Nat} (B : Matrix (Fin nb) (Fin k) ℂ) (c : ℂ), addRow B i (c - 1) = (diagonal fun a => if a = i then c else 1) * B := by
    intro k B c
    ext a j
    rw [Matrix.diagonal_mul, addRow]
    split_ifs
    · ring
    · rw [one_mul]
  rw [rowStep, kineticReal, h, h]

/-- **C119** With `sorella` the electron part of a step multiplies the rows of the determinant by numbers: no electron moves, whatever
the hopping matrix. -/
theorem sorella_rows (y : Sys nb) (dt : ℝ) (t : Trial np nb nu nd) (rs : Fin nb → ℝ) (w : Wk np nb nu nd) :
    ∃ d : Fin 2 → Fin nb → ℂ, (electronStep .sorella y dt t rs w).phi = kineticReal (fun s => diagonal (d s)) w.phi := by
  have hone : ∀ φ : Wfn nb nu nd, φ = kineticReal (fun _ => diagonal fun _ => 1) φ := by
    intro φ
    rw [kineticReal, Matrix.diagonal_one, Matrix.one_mul, Matrix.one_mul, Slater.join_up_dn]
  have hsw : ∀ (l : List (Fin nb)) (w : Wk np nb nu nd), ∃ d : Fin 2 → Fin nb → ℂ,
      (sweep .sorella y dt t rs l w).phi = kineticReal (fun s => diagonal (d s)) w.phi := by
    intro l
    induction l with
    | nil => intro w; exact ⟨fun _ _ => 1, hone w.phi⟩
    | cons i l ih =>
      intro w
      rw [sweep]
      split_ifs
      · obtain ⟨d, hd⟩ := ih (applyField .sorella y dt t w i (choose .sorella y dt t w i (rs i)))
        rw [hd, applyField_phi, rowStep_diag, kinetic_diag]
        exact ⟨_, rfl⟩
      · exact ⟨fun _ _ => 1, hone w.phi⟩
  have hk : ∀ v : Wk np nb nu nd, (if 0 < |v.weight| then kineticIS .sorella y t (dt / 2) v else v).phi = v.phi := by
    intro v
    split_ifs
    · rw [(kin_state .sorella y t (dt / 2) v).1]
      rfl
    · rfl
  simp only [electronStep]
  rw [hk]
  have hk1 := hk w
  generalize (if 0 < |w.weight| then kineticIS .sorella y t (dt / 2) w else w) = w1 at hk1 ⊢
  rw [← hk1]
  split_ifs
  · exact hsw (List.finRange nb) w1
  · exact ⟨fun _ _ => 1, hone w1.phi⟩

/-! ## Where nothing is cut -/

theorem spin_pos {dt U : ℝ} (h : 0 ≤ dt * U) (xi s : Fin 2) : IsPos (auxf .spin dt U xi s) := by
  set c := Real.exp (1 / 2 * (dt * U)) with hc
  have hc1 : 1 ≤ c := Real.one_le_exp (by linarith)
  have hsq : 0 ≤ c * c - 1 := by nlinarith
  have e1 : Complex.exp (1 / 2 * dt * U) = (c : ℂ) := by
    rw [hc]; push_cast; congr 1; ring
  have e2 : ((c : ℂ) * c - 1) ^ (1 / 2 : ℂ) = (Real.sqrt (c * c - 1) : ℂ) := by
    rw [Real.sqrt_eq_rpow, Complex.ofReal_cpow hsq]
    push_cast
    rfl
  have hlt : Real.sqrt (c * c - 1) < c := by
    rw [Real.sqrt_lt' (by linarith)]
    nlinarith
  have hg : gamma .spin dt U = ((Real.log (c - Real.sqrt (c * c - 1)) : ℝ) : ℂ) := by
    rw [gamma, arccosh, e1, e2, Complex.ofReal_log (by linarith)]
    push_cast
    rfl
  have e3 : Complex.exp (-(1 / 2) * dt * U) = Complex.exp ((-(1 / 2) * dt * U : ℝ) : ℂ) := by push_cast; rfl
  rw [auxf, hg, e3, ← Complex.ofReal_neg]
  refine IsPos.mul ?_ (IsPos.exp _)
  split_ifs
  · exact IsPos.exp _
  · exact IsPos.exp _


/-- A system and a trial with one electron of each spin: real hopping matrix without positive entries off the diagonal, repulsion,
positive coefficients and orbitals. -/
structure Positive (y : Sys nb) (dt : ℝ) (t : Trial np nb 1 1) : Prop where
  sites : 0 < nb
  states : 0 < np
  time : 0 ≤ dt
  U : 0 ≤ dt * y.U
  real : ∀ s i j, (y.T s i j).im = 0
  off : ∀ s i j, i ≠ j → (y.T s i j).re ≤ 0
  coeffs : ∀ k, IsPos (t.coeffs k)
  psi : ∀ k, PosM (t.psi k)

theorem Positive.kin {y : Sys nb} {dt : ℝ} {t : Trial np nb 1 1} (h : Positive y dt t) (X : Fin nb → ℝ) {φ : Wfn nb 1 1} (hφ : PosM φ) :
    PosM (kin .spin y (dt / 2) X φ) := by
  rw [HolStep.kin, if_neg (by decide), kineticReal]
  have hA : ∀ (s : Fin 2) (B : Matrix (Fin nb) (Fin 1) ℂ), PosM B → PosM (tv y (dt / 2) X s * B) := by
    intro s B hB
    refine exp_pos_mul (fun i j => ?_) (fun i j hij => ?_) hB
    · rw [Matrix.add_apply, Matrix.smul_apply, smul_eq_mul, Complex.add_im, ← Complex.ofReal_neg, Complex.im_ofReal_mul, h.real, mul_zero,
        zero_add, Matrix.diagonal_apply]
      split_ifs
      · exact Complex.ofReal_im _
      · exact Complex.zero_im
    · rw [Matrix.add_apply, Matrix.smul_apply, smul_eq_mul, Matrix.diagonal_apply_ne _ hij, add_zero, ← Complex.ofReal_neg,
        Complex.re_ofReal_mul]
      have h1 := h.off s i j hij
      have h2 := h.time
      nlinarith
  exact (hA 0 _ fun i j => hφ i _).join (hA 1 _ fun i j => hφ i _)

theorem Positive.row {y : Sys nb} {dt : ℝ} {t : Trial np nb 1 1} (h : Positive y dt t) {φ : Wfn nb 1 1} (hφ : PosM φ) (i : Fin nb)
    (xi : Fin 2) : PosM (rowStep (auxf .spin dt y.U) φ i xi) := by
  have a : ∀ (s : Fin 2) (A : Matrix (Fin nb) (Fin 1) ℂ), PosM A → PosM (addRow A i (auxf .spin dt y.U xi s - 1)) := by
    intro s A hA x j
    rw [addRow]
    split_ifs
    · have : A x j + A x j * (auxf .spin dt y.U xi s - 1) = A x j * auxf .spin dt y.U xi s := by ring
      rw [this]
      exact (hA x j).mul (spin_pos h.U xi s)
    · exact hA x j
  exact (a 0 _ fun i j => hφ i _).join (a 1 _ fun i j => hφ i _)

theorem Positive.total {y : Sys nb} {dt : ℝ} {t : Trial np nb 1 1} (h : Positive y dt t) (X : Fin nb → ℝ) {φ : Wfn nb 1 1} (hφ : PosM φ) :
    IsPos (total y t X φ) := by
  rw [HolStep.total]
  refine IsPos.sum ⟨⟨0, h.states⟩, mem_univ _⟩ fun k _ => ?_
  rw [(h.coeffs k).star]
  exact ((h.coeffs k).mul ((h.psi k).overlap h.sites hφ)).mul
    ⟨_, prod_pos fun i _ => Real.exp_pos _, rfl⟩

/-- **C119** With one electron of each spin, positive orbitals and hopping that lowers the energy, nothing is cut: the average of
`spin_step` holds for every coupling, coordinate and repulsion. -/
theorem positive_step {y : Sys nb} {dt : ℝ} {t : Trial np nb 1 1} (h : Positive y dt t) (X : Fin nb → ℝ) (φ : Wfn nb 1 1) (hφ : PosM φ) :
    StepOk .spin y dt t X φ (total y t X φ) := by
  have hok : ∀ φ : Wfn nb 1 1, PosM φ → Ok t φ := fun φ hφ k => ((h.psi k).overlap h.sites hφ).ne
  have hratio : ∀ a b : ℂ, IsPos a → IsPos b → ∃ p : ℝ, 0 < p ∧ a = p * b := by
    intro a b ha hb
    obtain ⟨p, hp, e⟩ := ha.div hb
    exact ⟨p, hp, by rw [← e, div_mul_cancel₀ _ hb.ne]⟩
  refine ⟨(h.total X hφ).ne, hok _ (h.kin X hφ), hratio _ _ (h.total X (h.kin X hφ)) (h.total X hφ), ?_⟩
  have ha : ∀ (l : List (Fin nb)) (φ : Wfn nb 1 1) (c : ℂ), PosM φ → IsPos c →
      Along .spin y dt t X (fun φ' c => Ok t (HolStep.kin .spin y (dt / 2) X φ') ∧ ∃ p : ℝ, 0 < p ∧
      HolStep.total y t X (HolStep.kin .spin y (dt / 2) X φ') = p * (c * HolStep.total y t X φ')) l φ c := by
    intro l
    induction l with
    | nil =>
      intro φ c hφ hc
      exact ⟨hok _ (h.kin X hφ), hratio _ _ (h.total X (h.kin X hφ)) (hc.mul (h.total X hφ))⟩
    | cons i l ih =>
      intro φ c hφ hc xi
      refine ⟨hok _ (h.row hφ i xi), hratio _ _ ?_ (h.total X hφ), ?_⟩
      · rw [wfac, mul_one]
        exact h.total X (h.row hφ i xi)
      · rw [wfac, mul_one]
        exact ih _ c (h.row hφ i xi) hc
  exact ha _ _ 1 (h.kin X hφ) ⟨1, one_pos, by simp⟩

/-- Two sites with hopping, repulsion and coupling, a trial of two states. -/
noncomputable def exSys : Sys 2 := ⟨fun _ => !![0, -1; -1, 0], 4, 1, 1, 1, false⟩

def exTrial : Trial 2 2 1 1 := ⟨fun k i _ => (k : Nat) + (i : Nat) + 1, fun _ => 1, fun k i => (k : Nat) + (i : Nat)⟩

theorem exPositive : Positive exSys (1 / 10) exTrial := by
  refine ⟨by norm_num, by norm_num, by norm_num, by norm_num [exSys], fun s i j => ?_, fun s i j h => ?_, fun k => ⟨1, one_pos, by simp [exTrial]⟩,
    fun k i j => ⟨(k : Nat) + (i : Nat) + 1, by positivity, by simp [exTrial]⟩⟩
  · fin_cases i <;> fin_cases j <;> simp [exSys]
  · fin_cases i <;> fin_cases j <;> simp [exSys] at h ⊢

example (w : Wk 2 2 1 1) (hw : w.phi = fun (i : Fin 2) _ => ((i : Nat) : ℂ) + 1) (hot : w.ot = total exSys exTrial w.X w.phi)
    (v : (Fin 1 ⊕ Fin 1 → Fin 2) → ℂ) (hv : Anti spin v) :
    (meanOver (List.finRange 2) fun rs => (electronStep .spin exSys (1 / 10) exTrial rs w).weight /
      (electronStep .spin exSys (1 / 10) exTrial rs w).ot * (v ⬝ᵥ prodState (orbs (electronStep .spin exSys (1 / 10) exTrial rs w).phi))) =
      w.weight / w.ot * (v ⬝ᵥ ((NormedSpace.exp (-(((1 / 10 : ℝ) : ℂ) / 2) • spinOp spin (oneBody exSys w.X)) *
        NormedSpace.exp (-((1 / 10 : ℝ) : ℂ) • hubOp (fun _ => 0) (exSys.U : ℂ) spin) *
        NormedSpace.exp (-(((1 / 10 : ℝ) : ℂ) / 2) • spinOp spin (oneBody exSys w.X))) *ᵥ prodState (orbs w.phi))) := by
  refine spin_step exSys (1 / 10) exTrial (fun k => by simp [exTrial]) w ?_ v hv
  rw [hot]
  refine positive_step exPositive w.X w.phi ?_
  rw [hw]
  exact fun i j => ⟨(i : Nat) + 1, by positivity, by push_cast; rfl⟩

/-! ## Complex coefficients -/

/-- The stored overlap after a site, whose tables come from the site before: the ratio of sums in which the coefficients are not
conjugated. -/
theorem second_site (o : Mode) (y : Sys nb) (dt : ℝ) (t : Trial np nb nu nd) (w : Wk np nb nu nd) (h : Fresh y t w) (hk : Ok t w.phi)
    (i j : Fin nb) (xi xj : Fin 2) (hk' : Ok t (rowStep (auxf o dt y.U) w.phi i xi)) :
    let sum := fun φ => ∑ k, t.coeffs k * overlap (t.psi k) φ * phiBoson y t w.X k
    let φ1 := rowStep (auxf o dt y.U) w.phi i xi
    let w1 := applyField o y dt t w i xi
    (applyField o y dt t w1 j xj).ot =
      w1.ot * (sum (rowStep (auxf o dt y.U) φ1 j xj) / sum φ1) * wfac o y dt w.X j xj := by
  intro sum φ1 w1
  have ht := applyField_tables o dt h.toTables hk i xi hk'
  show 2 * w1.ot * probs o y dt t w1 j xj = _
  have hw : ∀ k, w1.weights k = t.coeffs k * overlap (t.psi k) φ1 * phiBoson y t w.X k := fun k =>
    applyField_weights o dt h.toTables hk i xi k
  have hs : probs o y dt t w1 j xj = 1 / 2 * (sum (rowStep (auxf o dt y.U) φ1 j xj) / sum φ1) * wfac o y dt w.X j xj := by
    rw [probs, ratioMulti]
    show 1 / 2 * (_ / _) * wfac o y dt w.X j xj = _
    congr 3
    · refine sum_congr rfl fun k _ => ?_
      rw [hw, ratioR_eq o dt ht hk']
      have := hk' k
      show _ * (overlap (t.psi k) (rowStep (auxf o dt y.U) φ1 j xj) / overlap (t.psi k) φ1) = _
      have h2 : overlap (t.psi k) φ1 ≠ 0 := this
      field_simp
    · exact sum_congr rfl fun k _ => hw k
  rw [hs]
  ring

theorem spin_ne_one {dt U : ℝ} (h : dt * U ≠ 0) (xi s : Fin 2) : auxf .spin dt U xi s ≠ 1 := by
  have hcc : Complex.exp (gamma .spin dt U) + Complex.exp (-gamma .spin dt U) = 2 * Complex.exp (1 / 2 * dt * U) := by
    rw [← cosh_arccosh (Complex.exp (1 / 2 * dt * U)), Complex.cosh]
    simp only [gamma]
    ring
  have hg : Complex.exp (gamma .spin dt U) * Complex.exp (-gamma .spin dt U) = 1 := by rw [← Complex.exp_add]; simp
  have he : Complex.exp (1 / 2 * dt * U) * Complex.exp (-(1 / 2) * dt * U) = 1 := by rw [← Complex.exp_add]; ring_nf; simp
  have hE : Complex.exp (1 / 2 * dt * U) * Complex.exp (1 / 2 * dt * U) = ((Real.exp (dt * U) : ℝ) : ℂ) := by
    rw [← Complex.exp_add]; push_cast; congr 1; ring
  have key : ∀ a b : ℂ, a + b = 2 * Complex.exp (1 / 2 * dt * U) → a * b = 1 → a * Complex.exp (-(1 / 2) * dt * U) ≠ 1 := by
    intro a b h1 h2 h3
    have ha : a = Complex.exp (1 / 2 * dt * U) := by linear_combination Complex.exp (1 / 2 * dt * U) * h3 - a * he
    have hb : b = Complex.exp (1 / 2 * dt * U) := by linear_combination h1 - ha
    rw [ha, hb, hE] at h2
    exact h (Real.exp_eq_one_iff _ |>.1 (by exact_mod_cast h2))
  rw [auxf]
  split_ifs
  · exact key _ _ hcc hg
  · exact key _ _ (by rw [add_comm]; exact hcc) (by rw [mul_comm]; exact hg)

/-- Two states with coefficients `1` and `i`. -/
noncomputable def exComplex : Trial 2 2 1 0 := ⟨fun k i _ => 1 + ((k : Nat) : ℂ) * ((i : Nat) : ℂ), ![1, Complex.I], fun _ _ => 0⟩

theorem exComplex_overlap (k : Fin 2) (φ : Wfn 2 1 0) : overlap (exComplex.psi k) φ = φ 0 0 + (1 + ((k : Nat) : ℂ)) * φ 1 0 := by
  rw [overlap, Matrix.det_fin_zero, mul_one, Matrix.det_fin_one, Matrix.mul_apply, Fin.sum_univ_two]
  simp only [Matrix.conjTranspose_apply]
  have e0 : ∀ i : Fin 2, up (exComplex.psi k) i 0 = 1 + ((k : Nat) : ℂ) * ((i : Nat) : ℂ) := fun _ => rfl
  have e1 : ∀ i : Fin 2, up φ i 0 = φ i 0 := fun _ => rfl
  rw [e0, e0, e1, e1]
  simp

/-- **C119** With complex coefficients the stored overlap is wrong from the second site on, for every field. -/
theorem complex_overlap (y : Sys 2) (dt : ℝ) (hU : 0 < dt * y.U) : ∃ w : Wk 2 2 1 0, Fresh y exComplex w ∧ Ok exComplex w.phi ∧
    w.ot = total y exComplex w.X w.phi ∧ ∀ xi xj,
      let w2 := applyField .spin y dt exComplex (applyField .spin y dt exComplex w 0 xi) 1 xj
      w2.ot ≠ total y exComplex w2.X w2.phi := by
  let w0 : Wk 2 2 1 0 := ⟨fun _ _ => 1, fun _ => 0, fun _ => 0, fun _ => 0, fun _ => 0, fun _ => 0, fun _ => 0,
    total y exComplex (fun _ => 0) (fun _ _ => 1), 1⟩
  let w := calcOtrial y exComplex (inverseOverlap y exComplex w0)
  have hf : Fresh y exComplex w := (calc_fresh y exComplex w0).1
  have hok : Ok exComplex w.phi := by
    intro k
    rw [exComplex_overlap]
    show (1 : ℂ) + (1 + _) * 1 ≠ 0
    have : (1 : ℂ) + (1 + ((k : Nat) : ℂ)) * 1 = ((k + 2 : Nat) : ℂ) := by push_cast; ring
    rw [this]
    exact Nat.cast_ne_zero.2 (by omega)
  refine ⟨w, hf, hok, rfl, fun xi xj => ?_⟩
  intro w2
  have hB : ∀ k, phiBoson y exComplex w.X k = 1 := by
    intro k
    show (((⟨y.m, y.w, fun _ => 0⟩ : Osc 2).value fun _ => 0 : ℝ) : ℂ) = 1
    simp [Osc.value]
  obtain ⟨a, ha, ea⟩ := spin_pos hU.le xi 0
  have eb := spin_ne_one hU.ne' xj 0
  set A := auxf .spin dt y.U with hA
  set b := A xj 0 with hb
  have r1 : ∀ k, overlap (exComplex.psi k) (rowStep A w.phi 0 xi) = a + (1 + ((k : Nat) : ℂ)) := by
    intro k
    rw [exComplex_overlap, ← ea]
    have e0 : rowStep A w.phi 0 xi 0 0 = up (rowStep A w.phi 0 xi) 0 0 := rfl
    have e1 : rowStep A w.phi 0 xi 1 0 = up (rowStep A w.phi 0 xi) 1 0 := rfl
    rw [e0, e1, rowStep, Slater.up_join]
    have p0 : up w.phi 0 0 = 1 := rfl
    have p1 : up w.phi 1 0 = 1 := rfl
    simp [addRow, p0, p1]
  have r2 : ∀ k, overlap (exComplex.psi k) (rowStep A (rowStep A w.phi 0 xi) 1 xj) = a + (1 + ((k : Nat) : ℂ)) * b := by
    intro k
    rw [exComplex_overlap, ← ea]
    have e0 : ∀ i, rowStep A (rowStep A w.phi 0 xi) 1 xj i 0 = up (rowStep A (rowStep A w.phi 0 xi) 1 xj) i 0 := fun _ => rfl
    rw [e0, e0, rowStep, Slater.up_join, rowStep, Slater.up_join]
    have p0 : up w.phi 0 0 = 1 := rfl
    have p1 : up w.phi 1 0 = 1 := rfl
    simp [addRow, p0, p1, hb]
  have hok1 : Ok exComplex (rowStep A w.phi 0 xi) := by
    intro k
    rw [r1]
    have : (a : ℂ) + (1 + ((k : Nat) : ℂ)) = ((a + (1 + (k : Nat)) : ℝ) : ℂ) := by push_cast; ring
    rw [this]
    exact Complex.ofReal_ne_zero.2 (by positivity)
  have h2 := second_site .spin y dt exComplex w hf hok 0 1 xi xj hok1
  have h1 : (applyField .spin y dt exComplex w 0 xi).ot = total y exComplex w.X (rowStep A w.phi 0 xi) := by
    show 2 * w.ot * probs .spin y dt exComplex w 0 xi = _
    rw [probs_eq .spin dt hf hok, wfac, mul_one]
    have h0 : w.ot = total y exComplex w.X w.phi := rfl
    have hne : total y exComplex w.X w.phi ≠ 0 := by
      rw [total, Fin.sum_univ_two, exComplex_overlap, exComplex_overlap]
      have := hB
      simp only [phiBoson] at this
      rw [this, this]
      intro hz
      have := congrArg Complex.re hz
      have p0 : w.phi 0 0 = 1 := rfl
      have p1 : w.phi 1 0 = 1 := rfl
      simp [exComplex, p0, p1] at this
    rw [h0]
    field_simp
    rfl
  have tot : ∀ φ, total y exComplex w.X φ = overlap (exComplex.psi 0) φ + -Complex.I * overlap (exComplex.psi 1) φ := by
    intro φ
    rw [total, Fin.sum_univ_two]
    have := hB
    simp only [phiBoson] at this
    rw [this, this]
    simp [exComplex]
  intro hcon
  have e2 : w2.ot = total y exComplex w.X (rowStep A (rowStep A w.phi 0 xi) 1 xj) := hcon
  rw [show w2.ot = _ from h2, h1, tot, tot, wfac, mul_one] at e2
  simp only [hB, mul_one, Fin.sum_univ_two] at e2
  rw [r1, r1, r2, r2] at e2
  have hc0 : exComplex.coeffs 0 = 1 := rfl
  have hc1 : exComplex.coeffs 1 = Complex.I := rfl
  rw [hc0, hc1] at e2
  simp only [Fin.val_zero, Fin.val_one, Nat.cast_zero, Nat.cast_one, add_zero, one_mul] at e2
  have hd : (a : ℂ) + 1 + Complex.I * (a + (1 + 1)) ≠ 0 := by
    intro hz
    have := congrArg Complex.re hz
    simp at this
    linarith
  rw [mul_div_assoc', div_eq_iff hd] at e2
  have h3 : 2 * Complex.I * ((a : ℂ) * (b - 1)) = 0 := by linear_combination e2
  rcases mul_eq_zero.1 h3 with h4 | h4
  · exact mul_ne_zero two_ne_zero Complex.I_ne_zero h4
  · rcases mul_eq_zero.1 h4 with h5 | h5
    · exact ha.ne' (Complex.ofReal_eq_zero.1 h5)
    · exact eb (sub_eq_zero.1 h5)

end Verif.HolStep
