import Verif.Grand.Phaseless

/-!
# The phaseless constraint without a sign problem

For real systems with equal spins (the attractive Hubbard model) the determinants of both spins are equal and real: the
constraint never acts, the mean of a phaseless run is the one of free projection, and the reported energies converge to
the grand canonical averages.  The determinants stored by the walkers are not reset between paths: the weights of a
later path are multiplied by a number that depends on the path before.
-/

namespace Verif.Grand

open Matrix Finset MeasureTheory
open Verif.Thermal (Mat gfStrat cyclicProduct)
open Verif.Stack (FullInv DiagOk ordered)
open Verif.Step (Linear half avg spin Hub root hubOp)
open Verif.Weights (cfb cmf xshifted rescale)
open scoped ComplexOrder

variable {nx m : Nat}

/-! ## Real matrices -/

/-- The entries are real. -/
def IsReal (A : Mat m) : Prop := Aᴴᵀ = A

theorem isReal_iff {A : Mat m} : IsReal A ↔ ∀ i j, star (A i j) = A i j := by
  rw [IsReal, ← Matrix.ext_iff]
  rfl

theorem IsReal.one : IsReal (1 : Mat m) := by rw [IsReal, conjTranspose_one, transpose_one]

theorem IsReal.mul {A B : Mat m} (hA : IsReal A) (hB : IsReal B) : IsReal (A * B) := by
  unfold IsReal at *
  rw [conjTranspose_mul, transpose_mul, hA, hB]

theorem IsReal.add {A B : Mat m} (hA : IsReal A) (hB : IsReal B) : IsReal (A + B) := by
  unfold IsReal at *
  rw [conjTranspose_add, transpose_add, hA, hB]

theorem IsReal.sub {A B : Mat m} (hA : IsReal A) (hB : IsReal B) : IsReal (A - B) := by
  unfold IsReal at *
  rw [conjTranspose_sub, transpose_sub, hA, hB]

theorem IsReal.smul {A : Mat m} {r : ℂ} (hr : star r = r) (hA : IsReal A) : IsReal (r • A) := by
  unfold IsReal at *
  rw [conjTranspose_smul, transpose_smul, hA, hr]

theorem IsReal.pow {A : Mat m} (hA : IsReal A) : ∀ k : Nat, IsReal (A ^ k)
  | 0 => by rw [pow_zero]; exact .one
  | k + 1 => by rw [pow_succ]; exact (hA.pow k).mul hA

theorem IsReal.sum {ι : Type} (S : Finset ι) {A : ι → Mat m} (h : ∀ i ∈ S, IsReal (A i)) : IsReal (∑ i ∈ S, A i) := by
  rw [isReal_iff]
  intro i j
  rw [Matrix.sum_apply, star_sum]
  exact sum_congr rfl fun k hk => isReal_iff.1 (h k hk) i j

theorem IsReal.list : ∀ l : List (Mat m), (∀ A ∈ l, IsReal A) → IsReal l.prod
  | [], _ => .one
  | A :: l, h => by
    rw [List.prod_cons]
    exact (h A (by simp)).mul (IsReal.list l fun B hB => h B (by simp [hB]))

theorem IsReal.inv {A : Mat m} (hA : IsReal A) : IsReal A⁻¹ := by
  unfold IsReal at *
  rw [conjTranspose_nonsing_inv, transpose_nonsing_inv, hA]

theorem IsReal.transpose {A : Mat m} (hA : IsReal A) : IsReal Aᵀ := by
  rw [isReal_iff] at *
  exact fun i j => hA j i

theorem IsReal.exp {A : Mat m} (hA : IsReal A) : IsReal (NormedSpace.exp A) := by
  unfold IsReal at *
  rw [← Matrix.exp_conjTranspose, ← Matrix.exp_transpose, hA]

theorem IsReal.diagonal {d : Fin m → ℂ} (h : ∀ i, star (d i) = d i) : IsReal (Matrix.diagonal d) := by
  unfold IsReal
  rw [diagonal_conjTranspose, diagonal_transpose]
  congr 1
  exact funext h

theorem IsReal.det {A : Mat m} (hA : IsReal A) : star A.det = A.det := by
  conv_rhs => rw [← hA, det_transpose, det_conjTranspose]

theorem IsReal.ordered {l : List (Mat m)} (h : ∀ A ∈ l, IsReal A) : IsReal (ordered l) :=
  IsReal.list _ fun A hA => h A (List.mem_reverse.1 hA)

theorem real_pos {d : ℂ} (hd : star d = d) (h0 : d ≠ 0) : ∃ r : ℝ, 0 < r ∧ d * d = (r : ℂ) := by
  have e : d = (d.re : ℂ) := (Complex.conj_eq_iff_re.1 hd).symm
  refine ⟨d.re * d.re, ?_, by rw [e]; simp⟩
  have : d.re ≠ 0 := fun h => h0 (by rw [e, h, Complex.ofReal_zero])
  exact mul_self_pos.2 this

theorem star_ofReal_sum {ι : Type} (S : Finset ι) {f : ι → ℂ} (h : ∀ i ∈ S, star (f i) = f i) :
    star (∑ i ∈ S, f i) = ∑ i ∈ S, f i := by
  rw [star_sum]
  exact sum_congr rfl h

/-! ## Bins of real slices -/

theorem bins_real {ss nb : Nat} {BT : Mat m} (hBT : IsReal BT) {Bs : List (Mat m)} (hB : ∀ B ∈ Bs, IsReal B)
    {st : Stack.St (Fin m) ℂ} (h : FullInv ss nb BT Bs st) : ∀ B ∈ st.stack, IsReal B := by
  rw [FullInv.bins h]
  intro B hm
  obtain ⟨b, -, rfl⟩ := List.mem_map.1 hm
  refine (hBT.pow _).mul (IsReal.ordered fun C hC => hB C ?_)
  exact List.mem_of_mem_drop (List.mem_of_mem_take hC)

theorem cyclic_real {bins : List (Mat m)} (h : ∀ B ∈ bins, IsReal B) (i : Nat) : IsReal (1 + cyclicProduct bins i)⁻¹ :=
  (IsReal.one.add (IsReal.list _ fun A hA => h A (List.mem_rotate.1 (List.mem_reverse.1 hA)))).inv

/-! ## One step -/

/-- A real system with equal spins. -/
structure RealSys (K : Fin 2 → Mat m) (W : Fin nx → Fin 2 → Mat m) (mf : Fin nx → ℂ) : Prop where
  one : ∀ s, IsReal (K s)
  oneEq : K 0 = K 1
  two : ∀ a s, IsReal (W a s)
  twoEq : ∀ a, W a 0 = W a 1
  shift : ∀ a, star (mf a) = mf a

/-- The force bias of real density matrices is real. -/
def RealBias (bias : (Fin 2 → Mat m) → Fin nx → ℂ) : Prop :=
  ∀ P, (∀ s, IsReal (P s)) → ∀ i, star (bias P i) = bias P i

variable {K : Fin 2 → Mat m} {W : Fin nx → Fin 2 → Mat m} {mf : Fin nx → ℂ}

theorem RealSys.slice (h : RealSys K W mf) (n : Nat) (s : ℝ) {z : Fin nx → ℂ} (hz : ∀ a, star (z a) = z a) (σ : Fin 2) :
    IsReal (sliceC n K W s z σ) := by
  have hs : star ((s : ℂ)) = s := Complex.conj_ofReal s
  have hh : IsReal (half (K σ) s) := by
    refine IsReal.exp (IsReal.smul ?_ (h.one σ))
    simp
  refine hh.mul (IsReal.mul ?_ hh)
  rw [Slater.taylor]
  refine IsReal.sum _ fun j _ => IsReal.smul ?_ (IsReal.pow (IsReal.smul hs (IsReal.sum _ fun a _ =>
    IsReal.smul (hz a) (h.two a σ))) j)
  simp

theorem RealSys.slice_eq (h : RealSys K W mf) (n : Nat) (s : ℝ) (z : Fin nx → ℂ) :
    sliceC n K W s z 0 = sliceC n K W s z 1 := by
  rw [sliceC, sliceC, h.oneEq]
  simp only [h.twoEq]

theorem rescale_real {x : ℂ} (hx : star x = x) : star (rescale x) = rescale x := by
  unfold rescale
  split_ifs
  · rw [star_div₀, hx]
    congr 1
    exact Complex.conj_ofReal _
  · exact hx

/-- A walker of a real run: real slices equal for both spins, real Green's functions, positive product of the stored
determinants. -/
structure PhInv (p : Setup m) (BT : Fin 2 → Mat m) (ss nb j : Nat) (Bs : Fin 2 → List (Mat m)) (w : PWk m) : Prop where
  walk : WalkInv p BT ss nb j Bs w.toTWk
  eq : Bs 0 = Bs 1
  real : ∀ s, ∀ B ∈ Bs s, IsReal B
  green : ∀ s, IsReal (w.G s)
  pos : ∃ r : ℝ, 0 < r ∧ w.M0 0 * w.M0 1 = (r : ℂ)

theorem dets_pos {BT : Fin 2 → Mat m} (hBT : BT 0 = BT 1) (hR : ∀ s, IsReal (BT s)) {Bs : Fin 2 → List (Mat m)}
    (he : Bs 0 = Bs 1) (hB : ∀ s, ∀ B ∈ Bs s, IsReal B) (k : Nat) (h0 : (1 + BT 0 ^ k * ordered (Bs 0)).det ≠ 0) :
    ∃ r : ℝ, 0 < r ∧ (1 + BT 0 ^ k * ordered (Bs 0)).det * (1 + BT 1 ^ k * ordered (Bs 1)).det = (r : ℂ) := by
  rw [← hBT, ← he]
  exact real_pos (IsReal.one.add (((hR 0).pow k).mul (IsReal.ordered (hB 0)))).det h0

theorem phSetupOk {p : Par nx m} {BT : Fin 2 → Mat m} {ss : Nat} (ok : ParOk p BT ss) : SetupOk (phSetup p) BT ss := by
  refine ⟨ok.qr, ok.pos, ok.inv, ok.diagT, ok.diagI, fun h => ok.left ?_⟩
  unfold phSetup at h
  simp only at h
  split_ifs at h
  exact h

/-- With a positive ratio and real shifts the constraint does nothing. -/
theorem phase_free {r : ℝ} (hr : 0 < r) {c f : ℂ} (hc : star c = c) (hf : star f = f) (mfFac : ℂ) :
    ((‖mfFac * Complex.exp (Complex.log (r : ℂ) + f + c)‖ *
      max 0 (Real.cos (Complex.arg (Complex.exp (Complex.log (r : ℂ) + f + c - f)))) : ℝ) : ℂ) =
      (‖mfFac‖ : ℂ) * (Complex.exp (c + f) * r) := by
  obtain ⟨c, rfl⟩ : ∃ y : ℝ, c = y := ⟨c.re, (Complex.conj_eq_iff_re.1 hc).symm⟩
  obtain ⟨f, rfl⟩ : ∃ y : ℝ, f = y := ⟨f.re, (Complex.conj_eq_iff_re.1 hf).symm⟩
  have e1 : Complex.log (r : ℂ) + f + c - f = ((Real.log r + c : ℝ) : ℂ) := by
    rw [← Complex.ofReal_log hr.le]; push_cast; ring
  have e2 : Complex.log (r : ℂ) + f + c = ((Real.log r + (c + f) : ℝ) : ℂ) := by
    rw [← Complex.ofReal_log hr.le]; push_cast; ring
  rw [e1, e2, ← Complex.ofReal_exp, ← Complex.ofReal_exp, Complex.arg_ofReal_of_nonneg (Real.exp_pos _).le, Real.cos_zero,
    max_eq_right zero_le_one, mul_one, norm_mul, Complex.norm_real, Real.norm_eq_abs, abs_of_pos (Real.exp_pos _),
    Real.exp_add, Real.exp_log hr]
  push_cast
  ring

theorem phStep_ok {p : Par nx m} {BT : Fin 2 → Mat m} {ss nb j : Nat} (ok : ParOk p BT ss) (hT : BT 0 = BT 1)
    (hTr : ∀ s, IsReal (BT s)) (mfFac : ℂ) (bias : (Fin 2 → Mat m) → Fin nx → ℂ) {Bs : Fin 2 → List (Mat m)} {w : PWk m}
    (h : PhInv (phSetup p) BT ss nb j Bs w) (hj : j < nb * ss)
    (hC : ∀ s, (1 + BT s ^ (nb * ss - j) * ordered (Bs s)).det ≠ 0) {xi : Fin nx → ℝ} {B : Fin 2 → Mat m}
    (hBe : sliceOfB p (xbarOf bias w.toTWk) xi = B) (hB : ∀ s, (B s).det ≠ 0) (hBr : ∀ s, IsReal (B s)) (hB2 : B 0 = B 1)
    (hC' : ∀ s, (1 + BT s ^ (nb * ss - (j + 1)) * (B s * ordered (Bs s))).det ≠ 0)
    (hc : star (cmf p.dt p.tab.mfShift xi (xbarOf bias w.toTWk)) = cmf p.dt p.tab.mfShift xi (xbarOf bias w.toTWk))
    (hf : star (cfb xi (xbarOf bias w.toTWk)) = cfb xi (xbarOf bias w.toTWk)) :
    ∃ w', phStep p mfFac bias xi w = some w' ∧ PhInv (phSetup p) BT ss nb (j + 1) (fun s => Bs s ++ [B s]) w' ∧
      (w'.weight : ℂ) = w.weight * ((‖mfFac‖ : ℂ) *
        (Complex.exp (cmf p.dt p.tab.mfShift xi (xbarOf bias w.toTWk) + cfb xi (xbarOf bias w.toTWk)) *
          (w.M0 0 * w.M0 1 * ((1 + BT 0 ^ (nb * ss - (j + 1)) * (B 0 * ordered (Bs 0))).det *
            (1 + BT 1 ^ (nb * ss - (j + 1)) * (B 1 * ordered (Bs 1))).det)))) ∧
      w'.M0 0 * w'.M0 1 = ((1 + BT 0 ^ (nb * ss - (j + 1)) * (B 0 * ordered (Bs 0))).det *
            (1 + BT 1 ^ (nb * ss - (j + 1)) * (B 1 * ordered (Bs 1))).det)⁻¹ := by
  obtain ⟨v, hv, hinv, -, hG⟩ := stepWith_full (phSetupOk ok) h.walk hj hC 1 B hB hC'
  unfold stepWith at hv
  cases ha : (w.stack 0).updateFull (phSetup p).diag ((phSetup p).BTinv 0) (B 0) with
  | none => rw [ha] at hv; simp at hv
  | some a =>
  cases hb : (w.stack 1).updateFull (phSetup p).diag ((phSetup p).BTinv 1) (B 1) with
  | none => rw [ha, hb] at hv; simp at hv
  | some b =>
  rw [ha, hb] at hv
  simp only [Option.some.injEq] at hv
  have hb' : ∀ s, ∀ C ∈ Bs s ++ [B s], IsReal C := by
    intro s C hm
    rcases List.mem_append.1 hm with hm | hm
    · exact h.real s C hm
    · rw [List.mem_singleton.1 hm]; exact hBr s
  have he : (Bs 0 ++ [B 0]) = Bs 1 ++ [B 1] := by rw [h.eq, hB2]
  obtain ⟨d, hd0, hd⟩ := dets_pos hT hTr (Bs := fun s => Bs s ++ [B s]) he hb' (nb * ss - (j + 1))
    (by rw [Stack.ordered_append]; exact hC' 0)
  simp only [Stack.ordered_append] at hd
  obtain ⟨r, hr0, hr⟩ := h.pos
  have hM : (v.G 0).det * (v.G 1).det = (d : ℂ)⁻¹ := by rw [(hG 0).1, (hG 1).1, ← mul_inv, hd]
  have hd' : (d : ℂ) ≠ 0 := Complex.ofReal_ne_zero.2 hd0.ne'
  have hM0 : (v.G 0).det * (v.G 1).det ≠ 0 := by rw [hM]; exact inv_ne_zero hd'
  have hGv : v.G = fun s => green (phSetup p).scheme (phSetup p).qrp (partsOf (phSetup p) w.toTWk s)
      ((![a, b] : Fin 2 → Stack.St (Fin m) ℂ) s) ((w.stack 0).timeSlice / (w.stack 0).stackSize) := by
    rw [← hv]
    unfold finish
    simp only
    split_ifs <;> rfl
  have hsv : v.stack = ![a, b] := by
    rw [← hv]
    unfold finish
    simp only
    split_ifs <;> rfl
  have hlv : v.lr = partsOf (phSetup p) w.toTWk := by
    rw [← hv]
    unfold finish
    simp only
    split_ifs <;> rfl
  have hrat : w.M0 0 * w.M0 1 / ((v.G 0).det * (v.G 1).det) = ((r * d : ℝ) : ℂ) := by
    rw [hM, hr, div_inv_eq_mul]; push_cast; rfl
  have hrd : 0 < r * d := mul_pos hr0 hd0
  refine ⟨⟨⟨w.weight * (‖mfFac * Complex.exp (Complex.log ((r * d : ℝ) : ℂ) +
      cfb xi (xbarOf bias w.toTWk) + cmf p.dt p.tab.mfShift xi (xbarOf bias w.toTWk))‖ *
      max 0 (Real.cos (Complex.arg (Complex.exp (Complex.log ((r * d : ℝ) : ℂ) + cfb xi (xbarOf bias w.toTWk) +
        cmf p.dt p.tab.mfShift xi (xbarOf bias w.toTWk) - cfb xi (xbarOf bias w.toTWk)))))),
      w.phase, w.ot, v.G, v.stack, v.lr⟩, fun s => (v.G s).det⟩, ?_, ⟨?_, he, hb', ?_, ?_⟩, ?_, ?_⟩
  · unfold phStep
    simp only [hBe]
    have ha' : (w.stack 0).updateFull p.diag (p.BTinv 0) (B 0) = some a := ha
    have hb2 : (w.stack 1).updateFull p.diag (p.BTinv 1) (B 1) = some b := hb
    rw [ha', hb2]
    simp only
    unfold phFinish
    simp only
    rw [hGv] at hM0 hrat
    rw [if_neg hM0, hrat, if_neg (Complex.ofReal_ne_zero.2 hrd.ne'), hGv, hsv, hlv]
  · exact ⟨hinv.len, hinv.full, hinv.det, h.walk.ot, hinv.stored⟩
  · intro s
    obtain ⟨i, hi⟩ := (hG s).2
    show IsReal (v.G s)
    rw [hi]
    exact cyclic_real (bins_real (hTr s) (hb' s) (hinv.full s)) i
  · exact ⟨d⁻¹, inv_pos.2 hd0, by rw [hM]; push_cast; rfl⟩
  · show ((w.weight * _ : ℝ) : ℂ) = _
    rw [Complex.ofReal_mul, phase_free hrd hc hf, hr, hd]
    push_cast
    rfl
  · rw [hd]; exact hM

/-! ## The mean of a run -/

/-- The energy of real density matrices is real. -/
def RealObs (E : (Fin 2 → Mat m) → ℂ) : Prop := ∀ P, (∀ s, IsReal (P s)) → star (E P) = E P

theorem cfb_real {x : Fin nx → ℝ} {b : Fin nx → ℂ} (hb : ∀ a, star (b a) = b a) : star (cfb x b) = cfb x b := by
  have hx : ∀ a, star ((x a : ℂ)) = (x a : ℂ) := fun a => Complex.conj_ofReal _
  unfold cfb
  simp only [star_sub, star_div₀, star_mul', star_sum, hb, hx, star_ofNat, star_one]

theorem phMeasure_ok {p : Par nx m} {BT : Fin 2 → Mat m} {ss nb : Nat} (ok : ParOk p BT ss) (hnb : 0 < nb)
    {Bs : Fin 2 → List (Mat m)} {w : PWk m} (h : PhInv (phSetup p) BT ss nb (nb * ss) Bs w)
    (hC : ∀ s, (1 + ordered (Bs s)).det ≠ 0) {E : (Fin 2 → Mat m) → ℂ} {O : Ops m} (hE : Observes E O) (hR : RealObs E) :
    phMeasure p.qrp E w = w.weight / ((1 + ordered (Bs 0)).det * (1 + ordered (Bs 1)).det) *
      wick (fun s => ordered (Bs s)) O := by
  have e := rdm_end (phSetupOk ok) hnb h.walk hC
  have hr : ∀ s, IsReal ((dens (ordered (Bs s)))ᵀ) := fun s =>
    (IsReal.one.sub (IsReal.one.add (IsReal.ordered (h.real s))).inv).transpose
  have e' : (rdm fun s => gfStrat p.qrp (w.stack s).stack (w.stack s).stackSize (w.stack s).timeSlice) =
      fun s => (dens (ordered (Bs s)))ᵀ := e
  rw [phMeasure, e', Complex.conj_eq_iff_re.1 (hR _ hr), hE _ hC]
  have h0 := hC 0
  have h1 := hC 1
  field_simp

theorem cancel_ph {a f x y M D F c : ℂ} (hD : D ≠ 0) :
    f * (a * (c * (x * y * (M * D)))) * D⁻¹ * F = f * c * a * M * (x * (y * F)) := by
  field_simp

variable {t : ℝ → Step.Tables nx m}

/-- For almost all fields the next step succeeds. -/
theorem phStep_ae (hS : RealSys K W mf)
    (ht : Linear t K W mf) {p : Par nx m} (hp : p.tab = t p.dt) (h0 : 0 ≤ p.dt)
    {BT : Fin 2 → Mat m} {ss nb : Nat} (ok : ParOk p BT ss) (hT : BT 0 = BT 1) (hTr : ∀ s, IsReal (BT s)) (mfFac : ℂ)
    {bias : (Fin 2 → Mat m) → Fin nx → ℂ} (hbr : RealBias bias) (k j : Nat) (hk : j + (k + 1) = nb * ss)
    (Bs : Fin 2 → List (Mat m)) (w : PWk m) (h : PhInv (phSetup p) BT ss nb j Bs w)
    (hr : Reach p.order K W (Real.sqrt p.dt) BT (k + 1) (fun s => ordered (Bs s))) :
    ∀ᵐ x : Fin nx → ℝ, ∃ (w' : PWk m) (B : Fin 2 → Mat m) (D : ℂ), D ≠ 0 ∧
      B = (fun s => sliceC p.order K W (Real.sqrt p.dt) (xshifted x (xbarOf bias w.toTWk)) s) ∧
      phStep p mfFac bias x w = some w' ∧ PhInv (phSetup p) BT ss nb (j + 1) (fun s => Bs s ++ [B s]) w' ∧
      Reach p.order K W (Real.sqrt p.dt) BT k (fun s => B s * ordered (Bs s)) ∧
      D = (1 + BT 0 ^ k * (B 0 * ordered (Bs 0))).det * (1 + BT 1 ^ k * (B 1 * ordered (Bs 1))).det ∧
      (w'.weight : ℂ) = w.weight * ((‖mfFac‖ : ℂ) * (Complex.exp (cfb x (xbarOf bias w.toTWk)) *
        Complex.exp (∑ a, xshifted x (xbarOf bias w.toTWk) a * (-(Real.sqrt p.dt : ℂ) * mf a)) *
          (w.M0 0 * w.M0 1 * D))) ∧ w'.M0 0 * w'.M0 1 = D⁻¹ := by
  have hrem : nb * ss - j = k + 1 := by omega
  have hrem' : nb * ss - (j + 1) = k := by omega
  have hC : ∀ s, (1 + BT s ^ (nb * ss - j) * ordered (Bs s)).det ≠ 0 := by
    intro s; rw [hrem]; exact hr.now s
  have hb : ∀ a, star (xbarOf bias w.toTWk a) = xbarOf bias w.toTWk a := fun a =>
    rescale_real (hbr _ (fun s => IsReal.one.sub (h.green s).transpose) a)
  generalize hbe : xbarOf bias w.toTWk = b at hb
  filter_upwards [sliceC_det_ae (n := p.order) (K := K) (W := W) (s := Real.sqrt p.dt) b, hr.shift b] with x hx hrx
  have hz : ∀ a, star (xshifted x b a) = xshifted x b a := by
    intro a
    have hxa : star ((x a : ℂ)) = (x a : ℂ) := Complex.conj_ofReal _
    rw [xshifted, star_sub, hb, hxa]
  have hsl : sliceOfB p (xbarOf bias w.toTWk) x = fun s => sliceC p.order K W (Real.sqrt p.dt) (xshifted x b) s := by
    rw [hbe]
    exact funext (sliceOfB_eq ht hp h0 ok b x)
  have hcmf : cmf p.dt p.tab.mfShift x b = ∑ a, xshifted x b a * (-(Real.sqrt p.dt : ℂ) * mf a) := by
    rw [cmf, hp, ht.shift, mul_sum]
    exact sum_congr rfl fun a _ => by ring
  have hcr : star (cmf p.dt p.tab.mfShift x b) = cmf p.dt p.tab.mfShift x b := by
    rw [hcmf]
    refine star_ofReal_sum _ fun a _ => ?_
    have hsq : star ((Real.sqrt p.dt : ℝ) : ℂ) = (Real.sqrt p.dt : ℂ) := Complex.conj_ofReal _
    rw [star_mul', star_mul', star_neg, hz, hS.shift, hsq]
  obtain ⟨w', hw', hinv, hwt, hm⟩ := phStep_ok ok hT hTr mfFac bias h (by omega) hC hsl hx
    (fun s => hS.slice _ _ hz s) (hS.slice_eq _ _ _) (fun s => by rw [hrem']; exact hrx.now s)
    (by rw [hbe]; exact hcr) (by rw [hbe]; exact cfb_real hb)
  refine ⟨w', _, _, mul_ne_zero (hrx.now 0) (hrx.now 1), rfl, hw', hinv, hrx, rfl, ?_, ?_⟩
  · rw [hwt, hbe, hcmf, add_comm (∑ a, _), Complex.exp_add, hrem']
  · rw [hm, hrem']

/-- One slice: the claim for the rest of the path gives the claim one slice earlier, for any stored determinants. -/
theorem avgPh_succ (hS : RealSys K W mf)
    (ht : Linear t K W mf) {p : Par nx m} (hn : 2 ≤ p.order) (hp : p.tab = t p.dt) (h0 : 0 ≤ p.dt) (h1 : p.dt ≤ 1)
    {BT : Fin 2 → Mat m} {ss nb : Nat} (ok : ParOk p BT ss) (hT : BT 0 = BT 1) (hTr : ∀ s, IsReal (BT s))
    (E : (Fin 2 → Mat m) → ℂ) {O : Ops m} (mfFac : ℂ)
    {bias : (Fin 2 → Mat m) → Fin nx → ℂ} (hbr : RealBias bias) (k j : Nat) (hk : j + (k + 1) = nb * ss)
    (ih : ∀ (Bs : Fin 2 → List (Mat m)) (w : PWk m), PhInv (phSetup p) BT ss nb (j + 1) Bs w →
      Reach p.order K W (Real.sqrt p.dt) BT k (fun s => ordered (Bs s)) →
      w.M0 0 * w.M0 1 = ((1 + BT 0 ^ k * ordered (Bs 0)).det * (1 + BT 1 ^ k * ordered (Bs 1)).det)⁻¹ →
      avgPh p mfFac bias (phMeasure p.qrp E) k w = (‖mfFac‖ : ℂ) ^ k * w.weight * (w.M0 0 * w.M0 1) *
        fock (O * meanOps p.order K W mf (Real.sqrt p.dt) ^ k * prodOp fun s => ordered (Bs s)))
    (Bs : Fin 2 → List (Mat m)) (w : PWk m) (h : PhInv (phSetup p) BT ss nb j Bs w)
    (hr : Reach p.order K W (Real.sqrt p.dt) BT (k + 1) (fun s => ordered (Bs s))) :
    avgPh p mfFac bias (phMeasure p.qrp E) (k + 1) w = (‖mfFac‖ : ℂ) ^ (k + 1) * w.weight * (w.M0 0 * w.M0 1) *
      fock (O * meanOps p.order K W mf (Real.sqrt p.dt) ^ (k + 1) * prodOp fun s => ordered (Bs s)) := by
  have hs0 : 0 ≤ Real.sqrt p.dt := Real.sqrt_nonneg _
  have hs1 : Real.sqrt p.dt ≤ 1 := Real.sqrt_le_one.2 h1
  have hae := phStep_ae hS ht hp h0 ok hT hTr mfFac hbr k j hk Bs w h hr
  rw [avgPh]
  generalize xbarOf bias w.toTWk = b at hae
  have key : ∀ᵐ x : Fin nx → ℝ, ((phStep p mfFac bias x w).map (avgPh p mfFac bias (phMeasure p.qrp E) k)).getD 0 =
      (‖mfFac‖ : ℂ) ^ k * ‖mfFac‖ * w.weight * (w.M0 0 * w.M0 1) *
      (Complex.exp (cfb x b) * (Complex.exp (∑ a, xshifted x b a * (-(Real.sqrt p.dt : ℂ) * mf a)) *
        fock (O * meanOps p.order K W mf (Real.sqrt p.dt) ^ k * stepOpsC p.order K W (Real.sqrt p.dt) (xshifted x b) *
          prodOp fun s => ordered (Bs s)))) := by
    filter_upwards [hae] with x hx
    obtain ⟨w', B, D, hD, hB, hw', hinv, hrx, hDe, hwt, hm⟩ := hx
    have ho : (fun s => ordered (Bs s ++ [B s])) = fun s => B s * ordered (Bs s) := by
      funext s
      rw [Stack.ordered_append]
    have ih' := ih _ w' hinv (by rw [ho]; exact hrx)
      (by rw [hm, hDe, Stack.ordered_append, Stack.ordered_append])
    rw [hw', Option.map_some, Option.getD_some, ih', ho, hwt, hm, hB, mul_assoc O, mul_assoc (O * _), stepOpsC_mul]
    rw [mul_assoc O]
    exact cancel_ph hD
  rw [avg_congr_ae key, Step.avg_smul, avg_fock_shift hn mf hs0 hs1, mul_assoc O, ← pow_succ, ← pow_succ]

/-- From a walker whose stored determinants are those of its Green's function. -/
theorem avgPh_eq (hS : RealSys K W mf)
    (ht : Linear t K W mf) {p : Par nx m} (hn : 2 ≤ p.order) (hp : p.tab = t p.dt) (h0 : 0 ≤ p.dt) (h1 : p.dt ≤ 1)
    {BT : Fin 2 → Mat m} {ss nb : Nat} (ok : ParOk p BT ss) (hT : BT 0 = BT 1) (hTr : ∀ s, IsReal (BT s)) (hnb : 0 < nb)
    {E : (Fin 2 → Mat m) → ℂ} {O : Ops m} (hE : Observes E O) (hR : RealObs E) (mfFac : ℂ)
    {bias : (Fin 2 → Mat m) → Fin nx → ℂ} (hbr : RealBias bias) : ∀ (k j : Nat), j + k = nb * ss →
    ∀ (Bs : Fin 2 → List (Mat m)) (w : PWk m), PhInv (phSetup p) BT ss nb j Bs w →
      Reach p.order K W (Real.sqrt p.dt) BT k (fun s => ordered (Bs s)) →
      w.M0 0 * w.M0 1 = ((1 + BT 0 ^ k * ordered (Bs 0)).det * (1 + BT 1 ^ k * ordered (Bs 1)).det)⁻¹ →
      avgPh p mfFac bias (phMeasure p.qrp E) k w = (‖mfFac‖ : ℂ) ^ k * w.weight * (w.M0 0 * w.M0 1) *
        fock (O * meanOps p.order K W mf (Real.sqrt p.dt) ^ k * prodOp fun s => ordered (Bs s))
  | 0, j, hk, Bs, w, h, hr, hm => by
    rw [Nat.add_zero] at hk
    rw [hk] at h
    have hC : ∀ s, (1 + ordered (Bs s)).det ≠ 0 := by
      intro s
      have := hr.now s
      rwa [pow_zero, one_mul] at this
    rw [avgPh, phMeasure_ok ok hnb h hC hE hR, hm]
    simp only [pow_zero, one_mul, mul_one, div_eq_mul_inv]
    rfl
  | k + 1, j, hk, Bs, w, h, hr, _ =>
    avgPh_succ hS ht hn hp h0 h1 ok hT hTr E mfFac hbr k j hk
      (avgPh_eq hS ht hn hp h0 h1 ok hT hTr hnb hE hR mfFac hbr k (j + 1) (by omega)) Bs w h hr

/-! ## Paths -/

/-- A walker with the trial density matrix in every slice. -/
theorem start_inv {p : Par nx m} {BT : Fin 2 → Mat m} {ss nb : Nat} (ok : ParOk p BT ss) (hnb : 0 < nb)
    (hTr : ∀ s, IsReal (BT s)) (hd : ∀ s, (1 + BT s ^ (nb * ss)).det ≠ 0) {w : PWk m}
    (h : WalkInv (phSetup p) BT ss nb 0 (fun _ => []) w.toTWk)
    (hG : ∀ s, w.G s = gfStrat p.qrp (w.stack s).stack (w.stack s).stackSize (w.stack s).timeSlice)
    (hM : ∃ r : ℝ, 0 < r ∧ w.M0 0 * w.M0 1 = (r : ℂ)) :
    PhInv (phSetup p) BT ss nb 0 (fun _ => []) w ∧ ∀ s, (w.G s).det = ((1 + BT s ^ (nb * ss)).det)⁻¹ := by
  have hBs : ∀ s : Fin 2, ∀ B ∈ ([] : List (Mat m)), B.det ≠ 0 := by simp
  have e : ∀ s, (1 + BT s ^ (nb * ss - ([] : List (Mat m)).length) * ordered ([] : List (Mat m))).det =
      (1 + BT s ^ (nb * ss)).det := by
    intro s
    simp [ordered]
  have hi := fun s => green_inv (sch := .current) ok.qr hnb (ok.toSetupOk.det s) (hBs s) (h.full s) (by simp)
    (w.lr s) 0 (fun h => by simp at h) (by rw [e]; exact hd s)
  have hj := fun s => det_green (sch := .current) ok.qr hnb (ok.toSetupOk.det s) (hBs s) (h.full s) (by simp)
    (w.lr s) 0 (fun h => by simp at h) (by rw [e]; exact hd s)
  refine ⟨⟨h, rfl, by simp, fun s => ?_, hM⟩, fun s => ?_⟩
  · obtain ⟨i, hi⟩ := hi s
    rw [hG]
    show IsReal (green .current p.qrp (w.lr s) (w.stack s) 0)
    rw [hi]
    exact cyclic_real (bins_real (hTr s) (by simp) (h.full s)) i
  · rw [hG]
    have := hj s
    rw [e] at this
    exact this

theorem newPh_ok {p : Par nx m} {BT : Fin 2 → Mat m} {ss nb : Nat} (ok : ParOk p BT ss) (hnb : 0 < nb)
    (hT : BT 0 = BT 1) (hTr : ∀ s, IsReal (BT s)) (hd : ∀ s, (1 + BT s ^ (nb * ss)).det ≠ 0) (w0 : ℝ) :
    ∃ w, newPh (phSetup p) BT ss (ss * nb) w0 = some w ∧ PhInv (phSetup p) BT ss nb 0 (fun _ => []) w ∧ w.weight = w0 ∧
      w.M0 0 * w.M0 1 = ((1 + BT 0 ^ (nb * ss)).det * (1 + BT 1 ^ (nb * ss)).det)⁻¹ := by
  obtain ⟨v, hv, hi, -⟩ := newWalker_ok (phSetupOk ok) nb w0
  have hG : (∀ s, v.G s = gfStrat p.qrp (v.stack s).stack (v.stack s).stackSize (v.stack s).timeSlice) ∧ v.weight = w0 := by
    have := hv
    unfold newWalker at this
    split at this
    · simp only [Option.some.injEq] at this
      rw [← this]
      exact ⟨fun s => rfl, rfl⟩
    · simp at this
  obtain ⟨r, hr, hr'⟩ := dets_pos hT hTr (Bs := fun _ => []) rfl (by simp) (nb * ss)
    (by simp only [ordered, List.reverse_nil, List.prod_nil, mul_one]; exact hd 0)
  simp only [ordered, List.reverse_nil, List.prod_nil, mul_one] at hr'
  have hdet := (start_inv ok hnb hTr hd (w := ⟨v, fun _ => 1⟩) hi hG.1 ⟨1, one_pos, by simp⟩).2
  refine ⟨⟨v, fun s => (v.G s).det⟩, by rw [newPh, hv]; rfl, (start_inv ok hnb hTr hd hi hG.1 ?_).1, hG.2, ?_⟩
  · refine ⟨r⁻¹, inv_pos.2 hr, ?_⟩
    have h0 := hdet 0
    have h1 := hdet 1
    simp only at h0 h1 ⊢
    rw [h0, h1, ← mul_inv, hr', Complex.ofReal_inv]
  · have h0 := hdet 0
    have h1 := hdet 1
    simp only at h0 h1 ⊢
    rw [h0, h1, ← mul_inv]

/-- **C104 (the constraint does nothing)**: for a real system with equal spins the mean of a phaseless path is the one of
free projection, up to the constant factor of the mean field that free projection leaves out. -/
theorem phMean_eq (hS : RealSys K W mf)
    (ht : Linear t K W mf) (hK : ∀ s, (K s)ᴴ = K s) {p : Par nx m} (hn : 2 ≤ p.order) (hp : p.tab = t p.dt)
    (h0 : 0 ≤ p.dt) (h1 : p.dt ≤ 1) {BT : Fin 2 → Mat m} {ss : Nat} (ok : ParOk p BT ss) (hB : ∀ s, Matrix.PosDef (BT s))
    (hT : BT 0 = BT 1) (hTr : ∀ s, IsReal (BT s)) {E : (Fin 2 → Mat m) → ℂ} {O : Ops m} (hE : Observes E O) (hR : RealObs E)
    (mfFac : ℂ) {bias : (Fin 2 → Mat m) → Fin nx → ℂ} (hbr : RealBias bias) (L : Nat) (hL : 0 < L)
    (hd : ss ∣ L) (w0 : ℝ) :
    phMean p mfFac bias BT ss L w0 E = (runMean p BT ss L w0 E).map fun a => (‖mfFac‖ : ℂ) ^ L * a := by
  obtain ⟨nb, rfl⟩ := hd
  have hnb : 0 < nb := Nat.pos_of_mul_pos_left hL
  have hr := reach_start p.order hK W (Real.sqrt p.dt) hB (ss * nb)
  have hdet : ∀ s, (1 + BT s ^ (nb * ss)).det ≠ 0 := by
    intro s
    have := hr.now s
    rwa [mul_one, mul_comm] at this
  obtain ⟨v, hv, hi, hw, hm⟩ := newPh_ok ok hnb hT hTr hdet w0
  obtain ⟨w, hw', hi', hww⟩ := newWalker_ok ok.toSetupOk nb w0
  rw [phMean, runMean, hv, hw', Option.map_some, Option.map_some, Option.map_some,
    avgPh_eq hS ht hn hp h0 h1 ok hT hTr hnb hE hR mfFac hbr (ss * nb) 0 (by rw [zero_add, mul_comm]) (fun _ => []) v hi hr
      (by rw [hm, mul_comm ss]; simp [ordered]),
    avgPath_eq ht hn hp h0 h1 ok hnb hE (ss * nb) 0 (fun _ => []) w (by rw [zero_add, mul_comm]) hi' hr, hww, hw, hm]
  simp only [ordered, List.reverse_nil, List.prod_nil, mul_one, div_eq_mul_inv, mul_comm ss]
  congr 1
  ring

/-- The sizes of the stacks do not change. -/
def Frame (ss nb : Nat) (w : PWk m) : Prop :=
  ∀ s, (w.stack s).stackSize = ss ∧ (w.stack s).nbins = nb ∧ (w.stack s).nslices = nb * ss

theorem updateFull_frame {d : Bool} {A B : Mat m} {s s' : Stack.St (Fin m) ℂ} (h : s.updateFull d A B = some s') :
    s'.stackSize = s.stackSize ∧ s'.nbins = s.nbins ∧ s'.nslices = s.nslices := by
  unfold Stack.St.updateFull at h
  split at h
  · simp only [Option.some.injEq] at h
    rw [← h]
    exact ⟨rfl, rfl, rfl⟩
  · simp at h

theorem phStep_frame {p : Par nx m} {mfFac : ℂ} {bias : (Fin 2 → Mat m) → Fin nx → ℂ} {x : Fin nx → ℝ} {ss nb : Nat}
    {w w' : PWk m} (hf : Frame ss nb w) (h : phStep p mfFac bias x w = some w') : Frame ss nb w' := by
  unfold phStep at h
  simp only at h
  split at h
  case h_2 => simp at h
  case h_1 a b ha hb =>
    have hs : ∀ s, ((![a, b] : Fin 2 → Stack.St (Fin m) ℂ) s).stackSize = ss ∧
        ((![a, b] : Fin 2 → Stack.St (Fin m) ℂ) s).nbins = nb ∧
        ((![a, b] : Fin 2 → Stack.St (Fin m) ℂ) s).nslices = nb * ss := by
      rw [Fin.forall_fin_two]
      obtain ⟨a1, a2, a3⟩ := updateFull_frame ha
      obtain ⟨b1, b2, b3⟩ := updateFull_frame hb
      exact ⟨⟨a1.trans (hf 0).1, a2.trans (hf 0).2.1, a3.trans (hf 0).2.2⟩,
        ⟨b1.trans (hf 1).1, b2.trans (hf 1).2.1, b3.trans (hf 1).2.2⟩⟩
    unfold phFinish at h
    simp only at h
    split_ifs at h
    all_goals
      simp only [Option.some.injEq] at h
      rw [← h]
      exact hs

theorem setOne_frame {d : Bool} {B : Mat m} : ∀ (l : List Nat) (s : Stack.St (Fin m) ℂ),
    (l.foldl (Stack.St.setOne d B) s).stackSize = s.stackSize ∧ (l.foldl (Stack.St.setOne d B) s).nbins = s.nbins ∧
    (l.foldl (Stack.St.setOne d B) s).nslices = s.nslices
  | [], s => ⟨rfl, rfl, rfl⟩
  | i :: l, s => by
    rw [List.foldl_cons]
    obtain ⟨a, b, c⟩ := setOne_frame l (s.setOne d B i)
    exact ⟨a, b, c⟩

theorem newPh_frame {p : Setup m} {BT : Fin 2 → Mat m} {ss nb : Nat} (hss : 0 < ss) {w0 : ℝ} {w : PWk m}
    (h : newPh p BT ss (ss * nb) w0 = some w) : Frame ss nb w := by
  have hf : ∀ {s} {st : Stack.St (Fin m) ℂ}, Stack.fresh p.diag (BT s) ss (ss * nb) = some st →
      st.stackSize = ss ∧ st.nbins = nb ∧ st.nslices = nb * ss := by
    intro s st hs
    unfold Stack.fresh at hs
    rw [Stack.make_some hss ⟨nb, rfl⟩] at hs
    simp only [Option.map_some, Option.some.injEq] at hs
    rw [← hs]
    obtain ⟨a, b, c⟩ := setOne_frame (d := p.diag) (B := BT s)
      (List.range (Stack.St.reset (Stack.blank ss (ss * nb) (ss * nb / ss)) : Stack.St (Fin m) ℂ).nslices)
      (Stack.St.reset (Stack.blank ss (ss * nb) (ss * nb / ss)))
    exact ⟨a, b.trans (by simp [Stack.St.reset, Stack.blank, Nat.mul_div_cancel_left nb hss]),
      c.trans (by simp [Stack.St.reset, Stack.blank, Nat.mul_comm])⟩
  unfold newPh newWalker at h
  split at h
  · rename_i a b ha hb
    simp only [Option.map_some, Option.some.injEq] at h
    rw [← h]
    have : ∀ s, ((![a, b] : Fin 2 → Stack.St (Fin m) ℂ) s).stackSize = ss ∧
        ((![a, b] : Fin 2 → Stack.St (Fin m) ℂ) s).nbins = nb ∧
        ((![a, b] : Fin 2 → Stack.St (Fin m) ℂ) s).nslices = nb * ss := by
      rw [Fin.forall_fin_two]
      exact ⟨hf ha, hf hb⟩
    exact this
  · simp at h

theorem reset_ok {p : Par nx m} {BT : Fin 2 → Mat m} {ss nb : Nat} (ok : ParOk p BT ss) (hnb : 0 < nb)
    (hTr : ∀ s, IsReal (BT s)) (hd : ∀ s, (1 + BT s ^ (nb * ss)).det ≠ 0) {Bs : Fin 2 → List (Mat m)} {w : PWk m}
    (h : PhInv (phSetup p) BT ss nb (nb * ss) Bs w) (hf : Frame ss nb w) :
    PhInv (phSetup p) BT ss nb 0 (fun _ => []) (resetPh (phSetup p) BT w) := by
  refine (start_inv ok hnb hTr hd (w := resetPh (phSetup p) BT w) ?_ (fun s => rfl) h.pos).1
  have hset := fun s => Stack.setAll_inv ok.pos (ok.diagT s) (s := (w.stack s).reset) (hf s).1 (hf s).2.1 (hf s).2.2
    (by rw [Stack.St.reset, (hf s).2.1]) (by rw [Stack.St.reset, (hf s).2.1])
  refine ⟨fun _ => rfl, fun s => ?_, by simp, h.walk.ot, fun _ h => absurd (Nat.zero_mod ss) h⟩
  have hs := hset s
  have hn := (hf s).2.1
  show FullInv ss nb (BT s) [] ((w.stack s).reset.setAll p.diag (BT s))
  have hc : (w.stack s).counter = 0 := by
    rw [(h.walk.full s).cnt, h.walk.len, Nat.mul_mod_left]
  exact ⟨hs.size, hs.l2, hs.l1, by rw [hs.right]; simp [Stack.St.reset, hn], by rw [hs.ts]; rfl,
    by rw [hs.blk]; simp [Stack.St.reset], by rw [hs.cnt]; simp [Stack.St.reset, hc],
    by intro b hb; rw [hs.left b hb, Stack.bin_full hb]; simp [Stack.slice],
    by intro b hb; rw [hs.right]; simp [Stack.St.reset, hn, hb, Stack.slice, ordered],
    by intro b hb; rw [hs.stack b hb, Stack.bin_full hb]; simp [Stack.slice, ordered]⟩

/-- **C104 (later paths)**: the stored determinants are not reset, so what a later path adds is multiplied by the
determinants at the end of the path before, relative to those of the trial density matrix. -/
theorem phNext_eq (hS : RealSys K W mf)
    (ht : Linear t K W mf) (hK : ∀ s, (K s)ᴴ = K s) {p : Par nx m} (hn : 2 ≤ p.order) (hp : p.tab = t p.dt)
    (h0 : 0 ≤ p.dt) (h1 : p.dt ≤ 1) {BT : Fin 2 → Mat m} {ss nb : Nat} (ok : ParOk p BT ss) (hnb : 0 < nb)
    (hB : ∀ s, Matrix.PosDef (BT s))
    (hT : BT 0 = BT 1) (hTr : ∀ s, IsReal (BT s)) {E : (Fin 2 → Mat m) → ℂ} {O : Ops m} (hE : Observes E O) (hR : RealObs E)
    (mfFac : ℂ) {bias : (Fin 2 → Mat m) → Fin nx → ℂ} (hbr : RealBias bias) {Bs : Fin 2 → List (Mat m)} {w : PWk m}
    (h : PhInv (phSetup p) BT ss nb (nb * ss) Bs w) (hf : Frame ss nb w) :
    some (phNext p mfFac bias BT (ss * nb) w E) = (phMean p mfFac bias BT ss (ss * nb) 1 E).map fun a =>
      (1 + BT 0 ^ (nb * ss)).det * (1 + BT 1 ^ (nb * ss)).det * (w.M0 0 * w.M0 1) * a := by
  have hr := reach_start p.order hK W (Real.sqrt p.dt) hB (ss * nb)
  have hdet : ∀ s, (1 + BT s ^ (nb * ss)).det ≠ 0 := by
    intro s
    have := hr.now s
    rwa [mul_one, mul_comm] at this
  obtain ⟨v, hv, hi, hw, hm⟩ := newPh_ok ok hnb hT hTr hdet 1
  have hi2 := reset_ok ok hnb hTr hdet h hf
  obtain ⟨k, hk⟩ : ∃ k, ss * nb = k + 1 := ⟨ss * nb - 1, by have := Nat.mul_pos ok.pos hnb; omega⟩
  rw [phMean, phNext, hv, Option.map_some, Option.map_some]
  rw [hk] at hr ⊢
  have hk' : 0 + (k + 1) = nb * ss := by rw [zero_add, ← hk, mul_comm]
  have ih := avgPh_eq hS ht hn hp h0 h1 ok hT hTr hnb hE hR mfFac hbr k (0 + 1) (by omega)
  rw [avgPh_succ hS ht hn hp h0 h1 ok hT hTr E mfFac hbr k 0 hk' ih _ v hi hr,
    avgPh_succ hS ht hn hp h0 h1 ok hT hTr E mfFac hbr k 0 hk' ih _ _ hi2 hr, hw, hm]
  have e1 : (resetPh (phSetup p) BT w).weight = 1 := rfl
  have e2 : (resetPh (phSetup p) BT w).M0 = w.M0 := rfl
  rw [e1, e2]
  have := hdet 0
  have := hdet 1
  congr 1
  generalize (fock (m := m) _ : ℂ) = F
  generalize (1 + BT 0 ^ (nb * ss)).det = a at *
  generalize (1 + BT 1 ^ (nb * ss)).det = b at *
  field_simp

/-- What is measured matters only on walkers a real run can reach. -/
theorem avgPh_congr (hS : RealSys K W mf)
    (ht : Linear t K W mf) {p : Par nx m} (hp : p.tab = t p.dt) (h0 : 0 ≤ p.dt)
    {BT : Fin 2 → Mat m} {ss nb : Nat} (ok : ParOk p BT ss) (hT : BT 0 = BT 1) (hTr : ∀ s, IsReal (BT s)) (mfFac : ℂ)
    {bias : (Fin 2 → Mat m) → Fin nx → ℂ} (hbr : RealBias bias) {F G : PWk m → ℂ}
    (hFG : ∀ Bs w, PhInv (phSetup p) BT ss nb (nb * ss) Bs w → Frame ss nb w → F w = G w) : ∀ (k j : Nat), j + k = nb * ss →
    ∀ (Bs : Fin 2 → List (Mat m)) (w : PWk m), PhInv (phSetup p) BT ss nb j Bs w → Frame ss nb w →
      Reach p.order K W (Real.sqrt p.dt) BT k (fun s => ordered (Bs s)) →
      avgPh p mfFac bias F k w = avgPh p mfFac bias G k w
  | 0, j, hk, Bs, w, h, hf, _ => by
    rw [Nat.add_zero] at hk
    rw [hk] at h
    exact hFG Bs w h hf
  | k + 1, j, hk, Bs, w, h, hf, hr => by
    rw [avgPh, avgPh]
    refine avg_congr_ae ?_
    filter_upwards [phStep_ae hS ht hp h0 ok hT hTr mfFac hbr k j hk Bs w h hr] with x hx
    obtain ⟨w', B, D, -, -, hw', hinv, hrx, -⟩ := hx
    rw [hw', Option.map_some, Option.map_some, Option.getD_some, Option.getD_some]
    refine avgPh_congr hS ht hp h0 ok hT hTr mfFac hbr hFG k (j + 1) (by omega) _ w' hinv (phStep_frame hf hw') ?_
    have ho : (fun s => ordered (Bs s ++ [B s])) = fun s => B s * ordered (Bs s) := by
      funext s
      rw [Stack.ordered_append]
    rw [ho]
    exact hrx

theorem avgPh_smul (p : Par nx m) (mfFac : ℂ) (bias : (Fin 2 → Mat m) → Fin nx → ℂ) (F : PWk m → ℂ) (c : ℂ) :
    ∀ (k : Nat) (w : PWk m), avgPh p mfFac bias (fun w => F w * c) k w = avgPh p mfFac bias F k w * c
  | 0, _ => rfl
  | k + 1, w => by
    rw [avgPh, avgPh, mul_comm (avg _), ← Step.avg_smul]
    congr 1
    funext x
    cases phStep p mfFac bias x w with
    | none => simp
    | some w' => simp only [Option.map_some, Option.getD_some, avgPh_smul p mfFac bias F c k w', mul_comm c]

/-- **C104 (later paths)**: the factor does not depend on what is measured, so the ratio of the means of a later path is
the one of the first path. -/
theorem phSecond_eq (hS : RealSys K W mf)
    (ht : Linear t K W mf) (hK : ∀ s, (K s)ᴴ = K s) {p : Par nx m} (hn : 2 ≤ p.order) (hp : p.tab = t p.dt)
    (h0 : 0 ≤ p.dt) (h1 : p.dt ≤ 1) {BT : Fin 2 → Mat m} {ss : Nat} (ok : ParOk p BT ss) (hB : ∀ s, Matrix.PosDef (BT s))
    (hT : BT 0 = BT 1) (hTr : ∀ s, IsReal (BT s)) (mfFac : ℂ) {bias : (Fin 2 → Mat m) → Fin nx → ℂ} (hbr : RealBias bias)
    (L : Nat) (hL : 0 < L) (hd : ss ∣ L) (w0 : ℝ) :
    ∃ c : ℂ, ∀ (E : (Fin 2 → Mat m) → ℂ) (O : Ops m), Observes E O → RealObs E →
      phSecond p mfFac bias BT ss L w0 E = (phMean p mfFac bias BT ss L 1 E).map fun a => c * a := by
  obtain ⟨nb, rfl⟩ := hd
  have hnb : 0 < nb := Nat.pos_of_mul_pos_left hL
  have hr := reach_start p.order hK W (Real.sqrt p.dt) hB (ss * nb)
  have hdet : ∀ s, (1 + BT s ^ (nb * ss)).det ≠ 0 := by
    intro s
    have := hr.now s
    rwa [mul_one, mul_comm] at this
  obtain ⟨v, hv, hi, -, -⟩ := newPh_ok ok hnb hT hTr hdet w0
  obtain ⟨v1, hv1, -, -, -⟩ := newPh_ok ok hnb hT hTr hdet 1
  refine ⟨avgPh p mfFac bias (fun w => (1 + BT 0 ^ (nb * ss)).det * (1 + BT 1 ^ (nb * ss)).det * (w.M0 0 * w.M0 1)) (ss * nb) v,
    fun E O hE hR => ?_⟩
  have hF : ∀ Bs w, PhInv (phSetup p) BT ss nb (nb * ss) Bs w → Frame ss nb w →
      phNext p mfFac bias BT (ss * nb) w E = (1 + BT 0 ^ (nb * ss)).det * (1 + BT 1 ^ (nb * ss)).det * (w.M0 0 * w.M0 1) *
        avgPh p mfFac bias (phMeasure p.qrp E) (ss * nb) v1 := by
    intro Bs w h hf
    have := phNext_eq hS ht hK hn hp h0 h1 ok hnb hB hT hTr hE hR mfFac hbr h hf
    rw [phMean, hv1, Option.map_some, Option.map_some, Option.some.injEq] at this
    exact this
  rw [phSecond, phMean, hv, hv1, Option.map_some, Option.map_some, Option.map_some,
    avgPh_congr hS ht hp h0 ok hT hTr mfFac hbr hF (ss * nb) 0 (by rw [zero_add, mul_comm]) (fun _ => []) v hi
      (newPh_frame ok.pos hv) hr, avgPh_smul]

end Verif.Grand
