import Verif.BackProp.Props

/-!
# Estimates of a window (C111)

The quantities that are accumulated and the operators they measure, and the contribution of a walker to an estimate.
-/

namespace Verif.BackProp

open Matrix Finset Verif.Step
open Verif.Energy (ovl oneBody twoBody hamil)
open Verif.Slater (FullRank QRSpec propMatrix)
open Verif.Weights (hybridEnergy Uncapped updateHybrid)

variable {nx nb nu nd k : Nat}

/-! ## What the accumulated quantities measure -/

/-- The Green's function of two determinants, as the estimators store it. -/
noncomputable def greens (A phi : Slater.Wfn nb nu nd) : Fin 2 → Matrix (Fin nb) (Fin nb) ℂ :=
  ![(Slater.gab (Slater.up A) (Slater.up phi))ᵀ, (Slater.gab (Slater.dn A) (Slater.dn phi))ᵀ]

/-- The quantity `E` of the Green's function of two determinants that overlap is the matrix element of `O` between them divided by
the overlap. -/
def Measures (E : (Fin 2 → Matrix (Fin nb) (Fin nb) ℂ) → ℂ)
    (O : Matrix (Fin nu ⊕ Fin nd → Fin nb) (Fin nu ⊕ Fin nd → Fin nb) ℂ) : Prop :=
  ∀ A phi : Slater.Wfn nb nu nd, ovl2 A phi ≠ 0 →
    E (greens A phi) * ovl2 A phi = slater A ⬝ᵥ (O *ᵥ prodState (orbs phi))

/-- The denominator. -/
theorem measures_weight : Measures (nb := nb) (nu := nu) (nd := nd) (fun _ => 1) 1 := by
  intro A phi _
  rw [one_mul, Matrix.one_mulVec, ovl2_eq]

theorem trace_single (i j : Fin nb) (M : Matrix (Fin nb) (Fin nb) ℂ) : (Matrix.single i j 1 * M).trace = M j i := by
  rw [Matrix.trace, sum_eq_single i]
  · simp
  · intro b _ hb
    simp [Matrix.single_mul_apply_of_ne _ _ _ _ _ hb]
  · simp

/-- The one-body density matrix: `∑_a |i⟩⟨j|` over the electrons of the spin. -/
theorem measures_rdm (s : Fin 2) (i j : Fin nb) :
    Measures (nu := nu) (nd := nd) (fun G => G s i j)
      (∑ a, onP a (if spin a = s then Matrix.single i j (1 : ℂ) else 0)) := by
  intro A phi h
  have hu : ovl (Slater.up A) (Slater.up phi) ≠ 0 := left_ne_zero_of_mul h
  have hd : ovl (Slater.dn A) (Slater.dn phi) ≠ 0 := right_ne_zero_of_mul h
  refine Eq.trans ?_ (slater_one A phi fun s' => if s' = s then Matrix.single i j (1 : ℂ) else 0).symm
  rw [Energy.oneBody_eq _ _ _ hu, Energy.oneBody_eq _ _ _ hd, ovl2]
  fin_cases s
  · simp only [Fin.zero_eta, Fin.isValue, if_true, one_ne_zero, if_false, trace_single, greens, Matrix.cons_val_zero,
      Matrix.transpose_apply, Matrix.zero_mul, Matrix.trace_zero]
    ring
  · simp only [Fin.mk_one, Fin.isValue, if_true, zero_ne_one, if_false, trace_single, greens, Matrix.cons_val_one,
      Matrix.transpose_apply, Matrix.zero_mul, Matrix.trace_zero]
    simp only [Matrix.cons_val_fin_one, Matrix.transpose_apply]
    ring

theorem trace_single_two (p r q s : Fin nb) (M : Matrix (Fin nb) (Fin nb) ℂ) :
    (Matrix.single p r 1 * M * Matrix.single q s 1 * M).trace = M r q * M s p := by
  rw [Matrix.mul_assoc, Matrix.mul_assoc, trace_single, Matrix.mul_apply, sum_eq_single q]
  · simp
  · intro b _ hb
    simp [Matrix.single_mul_apply_of_ne _ _ _ _ _ hb]
  · simp

/-- The two-body density matrix: `∑_{a≠b} |p⟩⟨r|(a) |q⟩⟨s|(b)` over all electrons. -/
theorem measures_twoRdm (p r q s : Fin nb) :
    Measures (nu := nu) (nd := nd) (fun G => twoRdm G p r q s)
      (∑ a, ∑ b ∈ univ.erase a, onP a (Matrix.single p r (1 : ℂ)) * onP b (Matrix.single q s (1 : ℂ))) := by
  intro A phi h
  have hu : ovl (Slater.up A) (Slater.up phi) ≠ 0 := left_ne_zero_of_mul h
  have hd : ovl (Slater.dn A) (Slater.dn phi) ≠ 0 := right_ne_zero_of_mul h
  rw [slater_pair, pairElem, Energy.twoBody_eq _ _ _ _ hu, Energy.twoBody_eq _ _ _ _ hd, Energy.oneBody_eq _ _ _ hu,
    Energy.oneBody_eq _ _ _ hd, Energy.oneBody_eq _ _ _ hu, Energy.oneBody_eq _ _ _ hd, ovl2]
  simp only [trace_single, trace_single_two, twoRdm, greens, Matrix.cons_val_zero, Matrix.cons_val_one,
    Matrix.cons_val_fin_one, Matrix.transpose_apply]
  ring

/-- The energy. -/
theorem measures_energy (g : Gen nx nb) :
    Measures (nu := nu) (nd := nd) (fun G => (Energy.localChol g.h1 g.chol G g.ecore).1) (hamOp g.h1 g.chol g.ecore spin) := by
  intro A phi h
  rw [hamOp_elem, ← Energy.localChol_expectation g.h1 g.chol g.ecore (Slater.up A) (Slater.up phi) (Slater.dn A)
    (Slater.dn phi) (left_ne_zero_of_mul h) (right_ne_zero_of_mul h), Slater.gabMod_eq, Slater.gabMod_eq]
  rfl

/-! ## The functional of the trial behind the operators of a window -/

theorem slater_adj (A : Slater.Wfn nb nu nd) (M : Fin 2 → Matrix (Fin nb) (Fin nb) ℂ) :
    slater (mulBoth (fun s => (M s)ᴴ) A) = slater A ᵥ* tens fun a => M (spin a) := by
  funext f
  have e : ∀ α : (Fin nu ⊕ Fin nd → Fin nb) → ℂ, α f = α ⬝ᵥ prodState fun a => Pi.single (f a) 1 := by
    intro α
    have : (prodState fun a => Pi.single (f a) (1 : ℂ)) = Pi.single f 1 := by
      funext g
      by_cases h : g = f
      · subst h; simp [prodState]
      · obtain ⟨a, ha⟩ := Function.ne_iff.1 h
        rw [Pi.single_eq_of_ne h]
        exact prod_eq_zero (mem_univ a) (Pi.single_eq_of_ne ha 1)
    rw [this, dotProduct_single_one]
  rw [e (slater (mulBoth (fun s => (M s)ᴴ) A)), e (slater A ᵥ* _), ← Matrix.dotProduct_mulVec, tens_mulVec, slater_prodState,
    slater_prodState, mulBoth, Slater.up_join, Slater.dn_join, ← ovl_adj, ← ovl_adj]
  congr 2

theorem fullRank_left {m l : Nat} {A B : Matrix (Fin m) (Fin l) ℂ} (h : ovl A B ≠ 0) : FullRank A := by
  refine Slater.fullRank_of_overlap (A := B) ?_
  have : (Bᴴ * A).det = star (Aᴴ * B).det := by
    rw [← Matrix.det_conjTranspose, Matrix.conjTranspose_mul, Matrix.conjTranspose_conjTranspose]
  rw [this]
  exact star_ne_zero.2 h

theorem window_ne_zero (R : Setup nx nb k k) (hdt : 0 < R.dt) (hn : R.n = 6) (hqr : QRSpec R.qr)
    (l : List (Bool × (Fin nx → ℝ))) (v : BW nx nb k k) (hf : Fine R l v) (h0 : ovl2 R.psi v.s.phi ≠ 0) :
    ovl2 R.psi (mulBoth (windowMat R l v) v.s.phi) ≠ 0 := by
  induction l generalizing v with
  | nil =>
    have : mulBoth (windowMat R [] v) v.s.phi = v.s.phi := mulBoth_one _
    rwa [this]
  | cons a l ih =>
    obtain ⟨hu, hc, hm, hf⟩ := hf
    obtain ⟨o0, o1, -⟩ := step_weight R hdt hn a.1 a.2 v hu hc
    obtain ⟨d, hd, hov⟩ := step_ovl R hn hqr a.1 a.2 v o1
    have h1 : ovl2 R.psi (step R a.1 a.2 v).s.phi ≠ 0 := fun h => o1 (by rw [hov, h, mul_zero])
    have : mulBoth (windowMat R (a :: l) v) v.s.phi =
        mulBoth (windowMat R l (step R a.1 a.2 v)) (mulBoth (mat R (fields R a.2 v.s)) v.s.phi) := by
      rw [mulBoth_mulBoth]; rfl
    rw [this, ovl2_mulBoth, hov, ← ovl2_mulBoth]
    exact mul_ne_zero hd (ih _ hf h1)

theorem cos_ne_zero (R : Setup nx nb nu nd) (l : List (Bool × (Fin nx → ℝ))) (v : BW nx nb nu nd) (hf : Fine R l v) :
    ((recorded R l v).map fun e => e.2.2).prod ≠ 0 := by
  induction l generalizing v with
  | nil => simp [recorded]
  | cons a l ih =>
    obtain ⟨-, hc, -, hf⟩ := hf
    rw [recorded, List.map_cons, List.prod_cons]
    refine mul_ne_zero ?_ (ih _ hf)
    intro h
    apply hc
    have h0 : (updateHybrid R.dt R.eshift (phaseless R.n R.dt R.t R.fb R.eloc R.psi a.2 v.s).1 v.w).2.2.im = 0 := by
      simp only [updateHybrid]
      split_ifs <;> simp
    exact Complex.ext (Complex.ofReal_eq_zero.1 h) h0

theorem mats_invertible (R : Setup nx nb nu nd) (l : List (Bool × (Fin nx → ℝ))) (v : BW nx nb nu nd) (hf : Fine R l v)
    (s : Fin 2) : ∀ B ∈ (recorded R l v).map fun e => propMatrix (R.t.BH1 s) (R.t.vhs e.1 s), B.det ≠ 0 := by
  induction l generalizing v with
  | nil => simp [recorded]
  | cons a l ih =>
    obtain ⟨-, -, hm, hf⟩ := hf
    intro B hB
    rw [recorded, List.map_cons, List.mem_cons] at hB
    rcases hB with rfl | hB
    · rw [propMatrix_eq]; exact hm s
    · exact ih _ hf B hB

/-- The Green's function of the estimator is that of the trial behind the operators of the window. -/
theorem bpG_eq (R : Setup nx nb k k) (hqr : QRSpec R.qr) (l : List (Bool × (Fin nx → ℝ))) (v : BW nx nb k k)
    (hf : Fine R l v) (h0 : ovl2 R.psi v.s.phi ≠ 0) :
    bpG R v.s.phi (recorded R l v) = greens (mulBoth (fun s => (windowMat R l v s)ᴴ) R.psi) v.s.phi := by
  obtain ⟨-, -, -, -, gu, -⟩ := Slater.backPropagate_adjoint R.qr hqr R.nstblz _ (mats_invertible R l v hf 0)
    (Slater.up R.psi) (Slater.up v.s.phi) (fullRank_left (left_ne_zero_of_mul h0))
  obtain ⟨-, -, -, -, gd, -⟩ := Slater.backPropagate_adjoint R.qr hqr R.nstblz _ (mats_invertible R l v hf 1)
    (Slater.dn R.psi) (Slater.dn v.s.phi) (fullRank_left (right_ne_zero_of_mul h0))
  rw [windowMat_eq] at gu gd
  rw [bpG, greens, bpOrbitals, mulBoth, Slater.up_join, Slater.dn_join, Slater.up_join, Slater.dn_join, gu, gd]

/-- **C111 (every sequence of fields)**: with fully restored weights, what a walker adds to the estimate of a quantity that measures
`O` is, up to the factor from the averaging of successive hybrid energies, its weight at the start of the window times the matrix
element between trial and starting state of `O` followed by the operators of the window, over the overlap at the start, with the
constants of the fields. -/
theorem window_estimate (R : Setup nx nb k k) (hdt : 0 < R.dt) (hn : R.n = 6) (hqr : QRSpec R.qr)
    (l : List (Bool × (Fin nx → ℝ))) (v : BW nx nb k k) (hv : v.hist = []) (hf : Fine R l v) (h0 : ovl2 R.psi v.s.phi ≠ 0)
    {E : (Fin 2 → Matrix (Fin nb) (Fin nb) ℂ) → ℂ} {O : Matrix (Fin k ⊕ Fin k → Fin nb) (Fin k ⊕ Fin k → Fin nb) ℂ}
    (hE : Measures E O) :
    ∃ r, bpWeight .full (run R l v) = some r ∧
      r * E (bpG R v.s.phi (run R l v).hist) * Complex.exp (-(R.dt / 2) * ((run R l v).w.hyb - v.w.hyb)) =
        v.w.weight / ovl2 R.psi v.s.phi * Complex.exp (l.length * R.dt * R.eshift) * Complex.exp (windowConst R l v) *
          (slater R.psi ⬝ᵥ (windowOp R l v *ᵥ (O *ᵥ prodState (orbs v.s.phi)))) := by
  have hh : (run R l v).hist = recorded R l v := by rw [hist_run, hv, List.nil_append]
  have hc := cos_ne_zero R l v hf
  have hw := run_weight R hdt hn hqr l v hf h0
  have hne := window_ne_zero R hdt hn hqr l v hf h0
  rw [ovl2_mulBoth] at hne hw
  have hm := hE _ _ hne
  rw [slater_adj, ← Matrix.dotProduct_mulVec, ← windowOp_eq, ← bpG_eq R hqr l v hf h0] at hm
  refine ⟨(run R l v).w.weight * (((recorded R l v).map fun e => e.2.1).prod / ((recorded R l v).map fun e => e.2.2).prod), ?_, ?_⟩
  · rw [bpWeight, hh, if_neg hc]
  · rw [hh, ← hm, mul_sub, Complex.exp_sub]
    have hx := Complex.exp_ne_zero (-(R.dt / 2) * v.w.hyb)
    generalize ((recorded R l v).map fun e => e.2.1).prod = P at *
    generalize ((recorded R l v).map fun e => e.2.2).prod = Cc at *
    generalize ovl2 (mulBoth (fun s => (windowMat R l v s)ᴴ) R.psi) v.s.phi = Y at *
    generalize ovl2 R.psi v.s.phi = Q at *
    generalize E (bpG R v.s.phi (recorded R l v)) = e at *
    generalize Complex.exp (-(R.dt / 2) * (run R l v).w.hyb) = E2 at *
    generalize Complex.exp (-(R.dt / 2) * v.w.hyb) = E0 at *
    field_simp
    linear_combination e * hw

/-- Partially restored weights lack the division by the recorded cosines. -/
theorem part_full {v : BW nx nb nu nd} {r : ℂ} (h : bpWeight .full v = some r) :
    bpWeight .part v = some (r * (v.hist.map fun e => e.2.2).prod) := by
  simp only [bpWeight] at h ⊢
  split_ifs at h with hc
  rw [← Option.some.inj h]
  field_simp

/-- What one walker adds, by `window_estimate`. -/
noncomputable def share (R : Setup nx nb nu nd) (O : Matrix (Fin nu ⊕ Fin nd → Fin nb) (Fin nu ⊕ Fin nd → Fin nb) ℂ)
    (p : BW nx nb nu nd × List (Bool × (Fin nx → ℝ))) : ℂ :=
  Complex.exp (R.dt / 2 * ((run R p.2 p.1).w.hyb - p.1.w.hyb)) * (p.1.w.weight / ovl2 R.psi p.1.s.phi *
    Complex.exp (p.2.length * R.dt * R.eshift) * Complex.exp (windowConst R p.2 p.1) *
      (slater R.psi ⬝ᵥ (windowOp R p.2 p.1 *ᵥ (O *ᵥ prodState (orbs p.1.s.phi)))))

/-- **C111 (population)**: the sum over the walkers. -/
theorem total_estimate (R : Setup nx nb k k) (hdt : 0 < R.dt) (hn : R.n = 6) (hqr : QRSpec R.qr)
    (ws : List (BW nx nb k k × List (Bool × (Fin nx → ℝ))))
    (hw : ∀ p ∈ ws, p.1.hist = [] ∧ Fine R p.2 p.1 ∧ ovl2 R.psi p.1.s.phi ≠ 0)
    {E : (Fin 2 → Matrix (Fin nb) (Fin nb) ℂ) → ℂ} {O : Matrix (Fin k ⊕ Fin k → Fin nb) (Fin k ⊕ Fin k → Fin nb) ℂ}
    (hE : Measures E O) :
    total R .full E (ws.map fun p => (p.1.s.phi, run R p.2 p.1)) = some ((ws.map (share R O)).sum) := by
  induction ws with
  | nil => rfl
  | cons p ws ih =>
    obtain ⟨h1, h2, h3⟩ := hw p (List.mem_cons_self ..)
    obtain ⟨r, e1, e2⟩ := window_estimate R hdt hn hqr p.2 p.1 h1 h2 h3 hE
    rw [List.map_cons, total, ih fun q hq => hw q (List.mem_cons_of_mem _ hq), List.map_cons, List.sum_cons]
    simp only [e1]
    congr 2
    rw [share, ← e2]
    have hx : Complex.exp (R.dt / 2 * ((run R p.2 p.1).w.hyb - p.1.w.hyb)) *
        Complex.exp (-(R.dt / 2) * ((run R p.2 p.1).w.hyb - p.1.w.hyb)) = 1 := by
      rw [← Complex.exp_add, ← Complex.exp_zero]
      congr 1
      ring
    linear_combination -(r * E (bpG R p.1.s.phi (run R p.2 p.1).hist)) * hx

/-- **C111 (accumulation)**: the sum is added when the number of steps since the window began is one of the splits, and only then. -/
theorem update_estimate (R : Setup nx nb k k) (hdt : 0 < R.dt) (hn : R.n = 6) (hqr : QRSpec R.qr) (nmax nsplit : Nat)
    (ws : List (BW nx nb k k × List (Bool × (Fin nx → ℝ)))) (h0 : ws ≠ []) (N : Nat) (hN : ∀ p ∈ ws, p.2.length = N)
    (hw : ∀ p ∈ ws, p.1.hist = [] ∧ Fine R p.2 p.1 ∧ ovl2 R.psi p.1.s.phi ≠ 0)
    {E : (Fin 2 → Matrix (Fin nb) (Fin nb) ℂ) → ℂ} {O : Matrix (Fin k ⊕ Fin k → Fin nb) (Fin k ⊕ Fin k → Fin nb) ℂ}
    (hE : Measures E O) (acc : ℂ) :
    update R nmax nsplit .full E (ws.map fun p => (p.1.s.phi, run R p.2 p.1)) (some acc) =
      some (if ∃ i < nsplit, N = (i + 1) * (nmax / nsplit) then acc + (ws.map (share R O)).sum else acc) := by
  have ht := total_estimate R hdt hn hqr ws hw hE
  obtain ⟨p, ws, rfl⟩ := List.exists_cons_of_ne_nil h0
  have hl : (run R p.2 p.1).hist.length = N := by
    rw [hist_run, (hw p (List.mem_cons_self ..)).1, List.nil_append, recorded_length, hN p (List.mem_cons_self ..)]
  have hm : N ∈ FieldHistory.splits nmax nsplit ↔ ∃ i < nsplit, N = (i + 1) * (nmax / nsplit) := by
    simp only [FieldHistory.splits, List.mem_map, List.mem_range, eq_comm]
  rw [List.map_cons] at ht ⊢
  simp only [update]
  rw [hl, ht]
  by_cases h : ∃ i < nsplit, N = (i + 1) * (nmax / nsplit)
  · rw [if_pos (hm.2 h), if_pos h]
  · rw [if_neg fun h' => h (hm.1 h'), if_neg h]

end Verif.BackProp
