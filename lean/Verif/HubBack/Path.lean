import Verif.HubBack.Model

/-!
# Averages over the fields of a window: C127
-/

namespace Verif.HubBack

open Matrix Finset
open Verif.Slater
open Verif.Hirsch
open Verif.HubRun (Cone Valid Inside par stepOf steps shifts Kept)
open Verif.Step (Hub spin tens Anti Sym prodState orbs slater)
open Verif.Fields (rowStep rows fieldSum meanOver Proc)

variable {nb nu nd : Nat}

/-- The sweep with the fields it pushes as a random process. -/
noncomputable def proc (p : Par nb) (psi : Wfn nb nu nd) : Proc (Wk nb nu nd × List (Fin 2)) nb :=
  ⟨fun s => trunc p psi s.1, fun s i xi => (applyField p psi s.1 i xi, s.2 ++ [xi]), fun s => ({ s.1 with weight := 0 }, s.2)⟩

theorem sweep_eq (p : Par nb) (psi : Wfn nb nu nd) (rs : Fin nb → ℝ) : ∀ (l : List (Fin nb)) (w : Wk nb nu nd) (h : List (Fin 2)),
    (proc p psi).sweep rs l (w, h) = ((singleSite p psi rs l w).1, h ++ (singleSite p psi rs l w).2)
  | [], _, h => by rw [Proc.sweep, singleSite, List.append_nil]
  | i :: l, w, h => by
    rw [singleSite, Proc.sweep]
    have hn : 0 < Hirsch.norm p psi w i ↔ 0 < (proc p psi).tr (w, h) i 0 + (proc p psi).tr (w, h) i 1 := Iff.rfl
    by_cases hc : 0 < Hirsch.norm p psi w i
    · rw [if_pos hc, if_pos (hn.1 hc)]
      have := sweep_eq p psi rs l (applyField p psi w i (choose p psi w i (rs i))) (h ++ [choose p psi w i (rs i)])
      rw [List.append_assoc] at this
      exact this
    · rw [if_neg hc, if_neg (fun h' => hc (hn.2 h')), List.append_nil]
      rfl

/-- The fields of a sweep applied to a determinant. -/
def rowPush (A : Fin 2 → Fin 2 → ℂ) (t : Wfn nb nu nd × List (Fin 2)) (i : Fin nb) (xi : Fin 2) : Wfn nb nu nd × List (Fin 2) :=
  (rowStep A t.1 i xi, t.2 ++ [xi])

theorem tree_eq {p : Par nb} {psi : Wfn nb nu nd} {S : Wfn nb nu nd → Prop} (hS : Cone p psi S)
    (F : Wk nb nu nd × List (Fin 2) → ℂ) (L : Wfn nb nu nd × List (Fin 2) → ℂ)
    (hF : ∀ w h, Inside psi S w → F (w, h) = w.weight / w.ot * L (w.phi, h)) : ∀ (l : List (Fin nb)) (w : Wk nb nu nd) (h : List (Fin 2)),
    Inside psi S w → (proc p psi).tree F l (w, h) = w.weight / w.ot * fieldSum (rowPush p.auxf) L l (w.phi, h)
  | [], w, h, hw => hF w h hw
  | i :: l, w, h, hw => by
    have hr := HubRun.ratio_pos hS hw i
    rw [Proc.tree, fieldSum]
    have htr : ∀ xi, (proc p psi).tr (w, h) i xi = trunc p psi w i xi := fun _ => rfl
    have happ : ∀ xi, (proc p psi).app (w, h) i xi = (applyField p psi w i xi, h ++ [xi]) := fun _ => rfl
    simp only [htr, happ]
    rw [if_pos (add_pos (hr 0).2.2 (hr 1).2.2), mul_sum]
    refine sum_congr rfl fun xi _ => ?_
    rw [tree_eq hS F L hF l _ _ (hw.apply hS i xi)]
    have e0 : ((applyField p psi w i xi).phi, h ++ [xi]) = rowPush p.auxf (w.phi, h) i xi := rfl
    have e1 : (applyField p psi w i xi).ot = 2 * w.ot * trunc p psi w i xi := by rw [(hr xi).2.1]; rfl
    have e2 : (applyField p psi w i xi).weight = w.weight * (trunc p psi w i 0 + trunc p psi w i 1) := rfl
    have hot : w.ot ≠ 0 := by
      obtain ⟨c, hc, e⟩ := hw.ot
      rw [e]
      exact (hc.mul (hS.pos _ hw.mem)).ne
    have ht : (trunc p psi w i xi : ℂ) ≠ 0 := Complex.ofReal_ne_zero.2 (hr xi).2.2.ne'
    have hs : ((trunc p psi w i 0 : ℂ) + trunc p psi w i 1) ≠ 0 := by
      rw [← Complex.ofReal_add]
      exact Complex.ofReal_ne_zero.2 (add_pos (hr 0).2.2 (hr 1).2.2).ne'
    rw [e0, e1, e2]
    push_cast
    field_simp

theorem rowPush_all (A : Fin 2 → Fin 2 → ℂ) (f : Fin nb → Fin 2) (φ : Wfn nb nu nd) (h : List (Fin 2)) :
    (List.finRange nb).foldl (fun t i => rowPush A t i (f i)) (φ, h) = (rows A f φ, h ++ List.ofFn f) := by
  have key : ∀ (l : List (Fin nb)) (φ : Wfn nb nu nd) (h : List (Fin 2)), l.foldl (fun t i => rowPush A t i (f i)) (φ, h) =
      (l.foldl (fun φ i => rowStep A φ i (f i)) φ, h ++ l.map f) := by
    intro l
    induction l with
    | nil => intro φ h; simp
    | cons i l ih =>
      intro φ h
      rw [List.foldl_cons, List.foldl_cons, List.map_cons, rowPush, ih, List.append_assoc]
      rfl
  rw [key, Fields.rowStep_all, List.ofFn_eq_map]

/-- **C127** (one step) The average over the random numbers of a step of weight over overlap times any function of the new determinant
and of the history. -/
theorem step_average {p : Par nb} {psi : Wfn nb nu nd} {S : Wfn nb nu nd → Prop} (hS : Cone p psi S) (e : ℝ) {v : BW nb nu nd}
    (h : Valid psi S v.w) (L : Wfn nb nu nd → List (Fin 2) → ℂ) :
    (meanOver (List.finRange nb) fun rs => (move p psi e rs v).w.weight / (move p psi e rs v).w.ot *
      L (move p psi e rs v).w.phi (move p psi e rs v).hist) =
      Real.exp (p.dt * e) * (v.w.weight / v.w.ot) * ((1 / 2) ^ nb * ∑ f : Fin nb → Fin 2,
        L (kineticReal p.bt2 (rows p.auxf f (kineticReal p.bt2 v.w.phi))) (v.hist ++ List.ofFn f)) := by
  by_cases hw : v.w.weight = 0
  · have e0 : ∀ rs, (move p psi e rs v).w.weight = 0 := by
      intro rs
      simp only [move, constrainedStep, hw, abs_zero, lt_irrefl, if_false, zero_mul]
    simp only [e0, hw, Complex.ofReal_zero, zero_div, zero_mul, mul_zero]
    exact Fields.meanOver_const _ _
  · obtain ⟨-, i1, k1, k2, -, -, kr⟩ := HubRun.kinetic_valid hS h.mem ⟨_, IsPos.exp v.w.logShift, by rw [h.ot, mul_comm]⟩ hw
    set w1 := kineticIS p psi v.w with hw1
    let F : Wk nb nu nd × List (Fin 2) → ℂ := fun u =>
      let u' := if 0 < |u.1.weight| then kineticIS p psi u.1 else u.1
      u'.weight / u'.ot * (Real.exp (p.dt * e) * L u'.phi u.2)
    have e1 : ∀ rs, ((move p psi e rs v).w.weight / (move p psi e rs v).w.ot * L (move p psi e rs v).w.phi (move p psi e rs v).hist : ℂ) =
        F ((proc p psi).sweep rs (List.finRange nb) (w1, v.hist)) := by
      intro rs
      rw [sweep_eq]
      simp only [move, constrainedStep, pushes]
      rw [if_pos (abs_pos.2 hw), ← hw1, if_pos (abs_pos.2 k2), if_pos (abs_pos.2 k2)]
      simp only [F]
      push_cast
      ring
    simp only [e1]
    rw [Proc.mean_sweep _ (fun s i xi => trunc_nonneg p psi s.1 i xi) F _ (List.nodup_finRange nb),
      tree_eq hS F (fun t => Real.exp (p.dt * e) * L (kineticReal p.bt2 t.1) t.2) ?_ (List.finRange nb) w1 v.hist i1, kr,
      Fields.fieldSum_eq _ _ _ (List.nodup_finRange nb), k1]
    · simp only [rowPush_all, mul_sum]
      refine sum_congr rfl fun f _ => ?_
      ring
    · intro u g hu
      by_cases hv0 : u.weight = 0
      · simp only [F, hv0, abs_zero, lt_irrefl, if_false]
        simp [hv0]
      · obtain ⟨-, -, m1, -, -, -, mr⟩ := HubRun.kinetic_valid hS hu.mem hu.ot hv0
        simp only [F]
        rw [if_pos (abs_pos.2 hv0), mr, m1]

/-! ## Paths -/

/-- The matrices of a step with given fields. -/
noncomputable def fieldMat (p : Par nb) (f : Fin nb → Fin 2) (s : Fin 2) : Matrix (Fin nb) (Fin nb) ℂ := forwardMatrix p f s

/-- The product of the matrices of the steps, the last step leftmost. -/
noncomputable def pathMat (p : Par nb) : List (Fin nb → Fin 2) → Fin 2 → Matrix (Fin nb) (Fin nb) ℂ
  | [], _ => 1
  | f :: fs, s => pathMat p fs s * fieldMat p f s

/-- The average of functionals over all fields of the given number of steps, behind the operators of the steps. -/
noncomputable def pathVec (p : Par nb) : Nat → (List (Fin 2) → (Fin nu ⊕ Fin nd → Fin nb) → ℂ) → (Fin nu ⊕ Fin nd → Fin nb) → ℂ
  | 0, V => V []
  | n + 1, V => ((1 / 2 : ℂ) ^ nb) • ∑ f : Fin nb → Fin 2, pathVec p n (fun fs => V (List.ofFn f ++ fs)) ᵥ* tens fun a => fieldMat p f (spin a)

/-- The average of a function of the fields of the given number of steps. -/
noncomputable def avgPath {nb : Nat} : Nat → (List (Fin nb → Fin 2) → ℂ) → ℂ
  | 0, G => G []
  | n + 1, G => (1 / 2 : ℂ) ^ nb * ∑ f : Fin nb → Fin 2, avgPath n fun fs => G (f :: fs)

theorem prodState_step (p : Par nb) (f : Fin nb → Fin 2) (φ : Wfn nb nu nd) :
    prodState (orbs (kineticReal p.bt2 (rows p.auxf f (kineticReal p.bt2 φ)))) =
      (tens fun a : Fin nu ⊕ Fin nd => fieldMat p f (spin a)) *ᵥ prodState (orbs φ) := by
  rw [Fields.orbs_kinetic, rows, Fields.orbs_kinetic, Fields.orbs_kinetic, Matrix.mulVec_mulVec, Matrix.mulVec_mulVec, Step.tens_mul,
    Step.tens_mul]
  rfl

theorem anti_sum {ι : Type} (s : Finset ι) {V : ι → (Fin nu ⊕ Fin nd → Fin nb) → ℂ} (h : ∀ i ∈ s, Anti spin (V i)) :
    Anti spin (∑ i ∈ s, V i) := by
  intro a b hab hsp f
  rw [Finset.sum_apply, Finset.sum_apply, ← sum_neg_distrib]
  exact sum_congr rfl fun i hi => h i hi a b hab hsp f

theorem pathVec_anti (p : Par nb) : ∀ (n : Nat) {V : List (Fin 2) → (Fin nu ⊕ Fin nd → Fin nb) → ℂ}, (∀ l, Anti spin (V l)) →
    Anti spin (pathVec p n V)
  | 0, _, hV => hV []
  | n + 1, _, hV => HubRun.anti_smul (anti_sum _ fun f _ => (pathVec_anti p n fun fs => hV _).vecMul (Grand.sym_tens spin (fieldMat p f))) _

/-- **C127** (a window) The average over all random numbers of weight over overlap times the overlap of the determinant with a functional
that depends on the history. -/
theorem window_average {p : Par nb} {psi : Wfn nb nu nd} {S : Wfn nb nu nd → Prop} (hS : Cone p psi S) {qr : QR nb} (hqr : QRSpec qr)
    (hk : Kept qr S) : ∀ (l : List (Option ℝ)) (v : BW nb nu nd), Valid psi S v.w → v.w.detRShift = 0 →
      ∀ V : List (Fin 2) → (Fin nu ⊕ Fin nd → Fin nb) → ℂ, (∀ h, Anti spin (V h)) →
      meanWin p psi qr l (fun u => u.w.weight / u.w.ot * (V u.hist ⬝ᵥ prodState (orbs u.w.phi))) v =
        Real.exp (p.dt * shifts l) * (v.w.weight / v.w.ot) * (pathVec p (steps l) (fun fs => V (v.hist ++ fs)) ⬝ᵥ prodState (orbs v.w.phi))
  | [], v, _, _, V, _ => by
    rw [meanWin, shifts, show steps [] = 0 from rfl, pathVec, List.append_nil, mul_zero, Real.exp_zero, Complex.ofReal_one, one_mul]
  | some e :: l, v, hv, hs, V, hV => by
    rw [meanWin]
    have e1 : ∀ rs, meanWin p psi qr l (fun u => u.w.weight / u.w.ot * (V u.hist ⬝ᵥ prodState (orbs u.w.phi))) (move p psi e rs v) =
        (move p psi e rs v).w.weight / (move p psi e rs v).w.ot * (fun φ h => Real.exp (p.dt * shifts l) *
          (pathVec p (steps l) (fun fs => V (h ++ fs)) ⬝ᵥ prodState (orbs φ))) (move p psi e rs v).w.phi (move p psi e rs v).hist := by
      intro rs
      obtain ⟨h1, -, h3⟩ := hv.step hS e rs
      rw [window_average hS hqr hk l _ h1 (h3.trans hs) V hV]
      ring
    simp only [e1]
    rw [step_average hS e hv fun φ h => Real.exp (p.dt * shifts l) *
          (pathVec p (steps l) (fun fs => V (h ++ fs)) ⬝ᵥ prodState (orbs φ))]
    have e2 : steps (some e :: l) = steps l + 1 := by simp [steps]
    rw [e2, pathVec, smul_dotProduct, sum_dotProduct, smul_eq_mul, shifts, mul_add, Real.exp_add]
    simp only [prodState_step, Matrix.dotProduct_mulVec, List.append_assoc, ← mul_sum]
    push_cast
    ring
  | none :: l, v, hv, hs, V, hV => by
    rw [meanWin]
    obtain ⟨h1, h2, -, h4, h5⟩ := hv.reortho hS hqr hk hs
    rw [window_average hS hqr hk l (ortho qr v) h1 h4 V hV, shifts, show steps (none :: l) = steps l from by simp [steps]]
    have := HubRun.reortho_anti h5 (pathVec_anti p (steps l) fun fs => hV (v.hist ++ fs))
    have e0 : (ortho qr v).w = orthogonalise qr false v.w := rfl
    have e1 : (ortho qr v).hist = v.hist := rfl
    rw [e0, e1, h2, mul_assoc, mul_assoc, div_mul_eq_mul_div, div_mul_eq_mul_div, mul_div_assoc, mul_div_assoc, this]

theorem window_congr {p : Par nb} {psi : Wfn nb nu nd} {S : Wfn nb nu nd → Prop} (hS : Cone p psi S) {qr : QR nb} (hqr : QRSpec qr)
    (hk : Kept qr S) {c : ℝ} {o : Wfn nb nu nd} {F G : BW nb nu nd → ℂ}
    (hFG : ∀ v, Valid psi S v.w → v.w.logShift = c → v.old = o → F v = G v) :
    ∀ (l : List (Option ℝ)) (v : BW nb nu nd), Valid psi S v.w → v.w.logShift = c → v.old = o → v.w.detRShift = 0 →
      meanWin p psi qr l F v = meanWin p psi qr l G v
  | [], v, h, hc, ho, _ => hFG v h hc ho
  | some e :: l, v, h, hc, ho, hs => by
    rw [meanWin, meanWin]
    congr 1
    funext rs
    obtain ⟨h1, h2, h3⟩ := h.step hS e rs
    exact window_congr hS hqr hk hFG l _ h1 (h2.trans hc) ho (h3.trans hs)
  | none :: l, v, h, hc, ho, hs => by
    rw [meanWin, meanWin]
    obtain ⟨h1, -, h3, h4, -⟩ := h.reortho hS hqr hk hs
    exact window_congr hS hqr hk hFG l _ h1 (h3.trans hc) ho h4

/-- The fields of the steps one after the other. -/
def flat (fs : List (Fin nb → Fin 2)) : List (Fin 2) := fs.flatMap List.ofFn

theorem pathVec_avg (p : Par nb) : ∀ (n : Nat) (V : List (Fin 2) → (Fin nu ⊕ Fin nd → Fin nb) → ℂ) (x : (Fin nu ⊕ Fin nd → Fin nb) → ℂ),
    pathVec p n V ⬝ᵥ x = avgPath n fun fs => (V (flat fs) ᵥ* tens fun a => pathMat p fs (spin a)) ⬝ᵥ x
  | 0, V, x => by
    have : (tens fun a : Fin nu ⊕ Fin nd => pathMat p [] (spin a)) = 1 := Step.tens_one
    rw [pathVec, avgPath, this, Matrix.vecMul_one]
    rfl
  | n + 1, V, x => by
    rw [pathVec, avgPath, smul_dotProduct, smul_eq_mul, sum_dotProduct]
    congr 1
    refine sum_congr rfl fun f _ => ?_
    rw [← Matrix.dotProduct_mulVec, pathVec_avg p n]
    congr 1
    funext fs
    have : (tens fun a : Fin nu ⊕ Fin nd => pathMat p (f :: fs) (spin a)) =
        (tens fun a => pathMat p fs (spin a)) * tens fun a => fieldMat p f (spin a) := by rw [Step.tens_mul]; rfl
    rw [this, ← Matrix.vecMul_vecMul, Matrix.dotProduct_mulVec]
    rfl

/-- Functionals that agree on all product states are equal. -/
theorem eq_of_prodState {u v : (Fin nu ⊕ Fin nd → Fin nb) → ℂ} (h : ∀ φ : Wfn nb nu nd, u ⬝ᵥ prodState (orbs φ) = v ⬝ᵥ prodState (orbs φ)) :
    u = v := by
  funext g
  have e : prodState (orbs (join (Matrix.of fun i a => if g (Sum.inl a) = i then (1 : ℂ) else 0)
      (Matrix.of fun i a => if g (Sum.inr a) = i then (1 : ℂ) else 0) : Wfn nb nu nd)) = Pi.single g 1 := by
    have e1 : orbs (join (Matrix.of fun i a => if g (Sum.inl a) = i then (1 : ℂ) else 0)
      (Matrix.of fun i a => if g (Sum.inr a) = i then (1 : ℂ) else 0) : Wfn nb nu nd) = fun a => Pi.single (g a) 1 := by
      funext a
      rcases a with a | a
      · funext i
        simp only [orbs, Sum.elim_inl, up_join, Matrix.of_apply, Pi.single_apply, eq_comm]
      · funext i
        simp only [orbs, Sum.elim_inr, dn_join, Matrix.of_apply, Pi.single_apply, eq_comm]
    rw [e1]
    funext k
    by_cases hk : k = g
    · subst hk; simp [prodState]
    · obtain ⟨a, ha⟩ := Function.ne_iff.1 hk
      rw [Pi.single_eq_of_ne hk]
      exact prod_eq_zero (mem_univ a) (Pi.single_eq_of_ne ha 1)
  have := h (join (Matrix.of fun i a => if g (Sum.inl a) = i then (1 : ℂ) else 0)
      (Matrix.of fun i a => if g (Sum.inr a) = i then (1 : ℂ) else 0))
  rwa [e, dotProduct_single_one, dotProduct_single_one] at this

/-- The fields of a step average to the operator of the step. -/
theorem field_vec (h : Hub nb) {dt : ℝ} (hU : 0 ≤ dt * h.U) {v : (Fin nu ⊕ Fin nd → Fin nb) → ℂ} (hv : Anti spin v) :
    ((1 / 2 : ℂ) ^ nb) • ∑ f : Fin nb → Fin 2, v ᵥ* (tens fun a => fieldMat (par h dt) f (spin a)) = v ᵥ* stepOf h dt := by
  refine eq_of_prodState fun φ => ?_
  rw [smul_dotProduct, smul_eq_mul, sum_dotProduct]
  simp only [← Matrix.dotProduct_mulVec, ← prodState_step]
  rw [Fields.field_average, Matrix.dotProduct_mulVec]
  simp only [par]
  rw [show (spinPar dt h.U fun s => NormedSpace.exp (-((dt : ℂ) / 2) • h.h1 s)).bt2 =
      fun s => NormedSpace.exp (-((dt : ℂ) / 2) • h.h1 s) from rfl,
    Fields.stepOp_anti (spinPar dt h.U fun s => NormedSpace.exp (-((dt : ℂ) / 2) • h.h1 s)).auxf dt h.U h.h1 (HubRun.spin_avg hU _) v hv,
    ← Matrix.dotProduct_mulVec]
  rfl

theorem pathVec_const (h : Hub nb) {dt : ℝ} (hU : 0 ≤ dt * h.U) {v : (Fin nu ⊕ Fin nd → Fin nb) → ℂ} (hv : Anti spin v) : ∀ n : Nat,
    pathVec (par h dt) n (fun _ => v) = v ᵥ* stepOf h dt ^ n
  | 0 => by rw [pathVec, pow_zero, Matrix.vecMul_one]
  | n + 1 => by
    rw [pathVec]
    simp only [pathVec_const h hU hv n]
    rw [field_vec h hU (HubRun.vecMul_pow_anti (HubRun.stepOf_sym h dt) n hv), Matrix.vecMul_vecMul, ← pow_succ]

end Verif.HubBack
