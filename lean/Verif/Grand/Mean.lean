import Verif.Grand.Walk
import Verif.Step.Bias

/-!
# The average over all paths

The average over all fields of what the estimator adds for a walker, after all slices, is the trace over all numbers of
electrons of the observable times the power of the averaged step.
-/

namespace Verif.Grand

open Matrix Finset MeasureTheory
open Verif.Thermal (Mat QDT gfStrat IsQRP cyclicProduct startBin)
open Verif.Stack (FullInv DiagOk ordered)
open Verif.Step (Linear half field avg)

variable {nx m : Nat}

/-- A new walker. -/
theorem newWalker_ok {p : Setup m} {BT : Fin 2 → Mat m} {ss : Nat} (ok : SetupOk p BT ss) (nb : Nat) (w0 : ℝ) :
    ∃ w, newWalker p BT ss (ss * nb) w0 = some w ∧ WalkInv p BT ss nb 0 (fun _ => []) w ∧ (w.weight : ℂ) * w.phase = w0 := by
  have key : ∀ s, ∃ st, Stack.fresh p.diag (BT s) ss (ss * nb) = some st ∧ FullInv ss nb (BT s) [] st := by
    intro s
    obtain ⟨s0, h0, -, hset⟩ := Stack.fresh_some p.diag (BT s) (ok.diagT s) ss nb ok.pos
    refine ⟨s0, h0, ⟨hset.size, hset.l2, hset.l1, by rw [hset.right]; simp [Stack.St.reset, Stack.blank],
      by rw [hset.ts]; rfl, by rw [hset.blk]; simp [Stack.St.reset, Stack.blank],
      by rw [hset.cnt]; simp [Stack.St.reset, Stack.blank],
      by intro b hb; rw [hset.left b hb, Stack.bin_full hb]; simp [Stack.slice],
      by intro b hb; rw [hset.right]; simp [Stack.St.reset, Stack.blank, hb, Stack.slice, ordered],
      by intro b hb; rw [hset.stack b hb, Stack.bin_full hb]; simp [Stack.slice, ordered]⟩⟩
  obtain ⟨a, ha, ha'⟩ := key 0
  obtain ⟨b, hb, hb'⟩ := key 1
  unfold newWalker
  rw [ha, hb]
  refine ⟨_, rfl, ⟨fun _ => rfl, ?_, fun _ B hB => absurd hB (by simp), rfl, fun _ h => absurd (Nat.zero_mod ss) h⟩, ?_⟩
  · rw [Fin.forall_fin_two]; exact ⟨ha', hb'⟩
  · show (w0 : ℂ) * 1 = _
    rw [mul_one]

/-- The number the estimator computes from the density matrices is the trace of `O`, for every product operator. -/
def Observes (E : (Fin 2 → Mat m) → ℂ) (O : Ops m) : Prop :=
  ∀ C : Fin 2 → Mat m, (∀ s, (1 + C s).det ≠ 0) →
    wick C O = (1 + C 0).det * (1 + C 1).det * E fun s => (dens (C s))ᵀ

/-- The density matrix after the last slice. -/
theorem rdm_end {p : Setup m} {BT : Fin 2 → Mat m} {ss nb : Nat} (ok : SetupOk p BT ss) (hnb : 0 < nb)
    {Bs : Fin 2 → List (Mat m)} {w : TWk m} (h : WalkInv p BT ss nb (nb * ss) Bs w)
    (hC : ∀ s, (1 + ordered (Bs s)).det ≠ 0) :
    (rdm fun s => gfStrat p.qrp (w.stack s).stack (w.stack s).stackSize (w.stack s).timeSlice) =
      fun s => (dens (ordered (Bs s)))ᵀ := by
  have hg : ∀ s, gfStrat p.qrp (w.stack s).stack (w.stack s).stackSize (w.stack s).timeSlice = (1 + ordered (Bs s))⁻¹ := by
    intro s
    have hs : startBin (w.stack s).stack.length (w.stack s).stackSize (w.stack s).timeSlice = 0 := by
      rw [(h.full s).l1, (h.full s).size, (h.full s).ts, h.len, startBin, Nat.mul_div_cancel _ ok.pos, if_pos rfl]
    have ht := FullInv.total (h.full s) (by rw [h.len])
    rw [h.len, Nat.sub_self, pow_zero, one_mul] at ht
    have hne : (w.stack s).stack ≠ [] := by
      intro h0
      have := (h.full s).l1
      rw [h0] at this
      simp at this
      omega
    rw [Thermal.gfStrat_eq p.qrp ok.qr _ hne (FullInv.bin_det (ok.det s) (h.det s) (h.full s)) _ _
      (by rw [hs, Thermal.cyclicProduct_zero, ht]; exact hC s), hs, Thermal.cyclicProduct_zero, ht]
  funext s
  rw [rdm, hg, dens, transpose_sub, transpose_one]

/-- What is measured after the last slice. -/
theorem measure_ok {p : Setup m} {BT : Fin 2 → Mat m} {ss nb : Nat} (ok : SetupOk p BT ss) (hnb : 0 < nb)
    {Bs : Fin 2 → List (Mat m)} {w : TWk m} (h : WalkInv p BT ss nb (nb * ss) Bs w)
    (hC : ∀ s, (1 + ordered (Bs s)).det ≠ 0) {E : (Fin 2 → Mat m) → ℂ} {O : Ops m} (hE : Observes E O) :
    measure p.qrp E w = w.weight * w.phase / ((1 + ordered (Bs 0)).det * (1 + ordered (Bs 1)).det) *
      wick (fun s => ordered (Bs s)) O := by
  rw [measure, rdm_end ok hnb h hC, h.ot, hE _ hC, mul_one]
  have h0 := hC 0
  have h1 := hC 1
  field_simp

/-- The slice of the code is the one of the operators. -/
theorem sliceOf_eq {t : ℝ → Step.Tables nx m} {K : Fin 2 → Mat m} {W : Fin nx → Fin 2 → Mat m} {mf : Fin nx → ℂ}
    (ht : Linear t K W mf) {p : Par nx m} (hp : p.tab = t p.dt) (h0 : 0 ≤ p.dt) {BT : Fin 2 → Mat m} {ss : Nat}
    (ok : ParOk p BT ss) (xi : Fin nx → ℝ) (s : Fin 2) : sliceOf p xi s = slice p.order K W (Real.sqrt p.dt) xi s := by
  rw [sliceOf, slab_eq _ _ fun hs => ok.one hs s, Slater.applyExponential_taylor, mul_one, hp, ht.oneBody, ht.field _ h0,
    noBias_eq, slice, half]
  have e : ((Real.sqrt p.dt : ℝ) : ℂ) ^ 2 = (p.dt : ℂ) := by
    rw [← Complex.ofReal_pow, Real.sq_sqrt h0]
  rw [e]
  congr 4
  simp only [field, Weights.xshifted, sub_zero]

theorem avg_congr_ae {f g : (Fin nx → ℝ) → ℂ} (h : ∀ᵐ x, f x = g x) : avg f = avg g := by
  unfold avg
  refine integral_congr_ae ?_
  filter_upwards [h] with x hx
  rw [hx]

/-- The average of what is measured, from any walker on the way. -/
theorem avgPath_eq {t : ℝ → Step.Tables nx m} {K : Fin 2 → Mat m} {W : Fin nx → Fin 2 → Mat m} {mf : Fin nx → ℂ}
    (ht : Linear t K W mf) {p : Par nx m} (hn : 2 ≤ p.order) (hp : p.tab = t p.dt) (h0 : 0 ≤ p.dt) (h1 : p.dt ≤ 1)
    {BT : Fin 2 → Mat m} {ss nb : Nat} (ok : ParOk p BT ss) (hnb : 0 < nb) {E : (Fin 2 → Mat m) → ℂ} {O : Ops m}
    (hE : Observes E O) : ∀ (k j : Nat) (Bs : Fin 2 → List (Mat m)) (w : TWk m), j + k = nb * ss →
      WalkInv p.toSetup BT ss nb j Bs w → Reach p.order K W (Real.sqrt p.dt) BT k (fun s => ordered (Bs s)) →
      avgPath p (measure p.qrp E) k w = w.weight * w.phase /
        ((1 + BT 0 ^ k * ordered (Bs 0)).det * (1 + BT 1 ^ k * ordered (Bs 1)).det) *
        fock (O * meanOps p.order K W mf (Real.sqrt p.dt) ^ k * prodOp fun s => ordered (Bs s))
  | 0, j, Bs, w, hk, h, hr => by
    rw [Nat.add_zero] at hk
    rw [hk] at h
    have hC : ∀ s, (1 + ordered (Bs s)).det ≠ 0 := by
      intro s
      have := hr.now s
      rwa [pow_zero, one_mul] at this
    rw [avgPath, measure_ok ok.toSetupOk hnb h hC hE, pow_zero, pow_zero, pow_zero, one_mul, one_mul, mul_one]
    rfl
  | k + 1, j, Bs, w, hk, h, hr => by
    have hs0 : 0 ≤ Real.sqrt p.dt := Real.sqrt_nonneg _
    have hs1 : Real.sqrt p.dt ≤ 1 := Real.sqrt_le_one.2 h1
    have hrem : nb * ss - j = k + 1 := by omega
    have hrem' : nb * ss - (j + 1) = k := by omega
    have hC : ∀ s, (1 + BT s ^ (nb * ss - j) * ordered (Bs s)).det ≠ 0 := by
      intro s; rw [hrem]; exact hr.now s
    rw [avgPath]
    have key : ∀ᵐ x : Fin nx → ℝ, ((freeStep p x w).map (avgPath p (measure p.qrp E) k)).getD 0 =
        w.weight * w.phase / ((1 + BT 0 ^ (k + 1) * ordered (Bs 0)).det * (1 + BT 1 ^ (k + 1) * ordered (Bs 1)).det) *
        (Complex.exp ((Real.sqrt p.dt : ℂ) * ∑ a, (x a : ℂ) * -mf a) *
          fock (O * meanOps p.order K W mf (Real.sqrt p.dt) ^ k * stepOps p.order K W (Real.sqrt p.dt) x *
            prodOp fun s => ordered (Bs s))) := by
      filter_upwards [slice_det_ae (n := p.order) (K := K) (W := W) (s := Real.sqrt p.dt), hr.step] with x hx hrx
      have hsl := sliceOf_eq ht hp h0 ok x
      obtain ⟨w', hw', hinv, hwt⟩ := freeStep_ok ok h (by omega) hC x (fun s => by rw [hsl]; exact hx s)
        (fun s => by rw [hsl, hrem']; exact hrx.now s)
      have ho : (fun s => ordered (Bs s ++ [sliceOf p x s])) = fun s =>
          slice p.order K W (Real.sqrt p.dt) x s * ordered (Bs s) := by
        funext s
        rw [Stack.ordered_append, hsl]
      have ih := avgPath_eq ht hn hp h0 h1 ok hnb hE k (j + 1) _ w' (by omega) hinv (by rw [ho]; exact hrx)
      rw [hw', Option.map_some, Option.getD_some, ih, ho, hwt, mul_assoc O, mul_assoc (O * _), stepOps_mul]
      simp only [Stack.ordered_append, hrem, hrem', hsl]
      have hD0 := hrx.now 0
      have hD1 := hrx.now 1
      have hE0 := hC 0
      have hE1 := hC 1
      rw [hrem] at hE0 hE1
      have hmf : Complex.exp (Weights.cmf p.dt p.tab.mfShift x noBias) =
          Complex.exp ((Real.sqrt p.dt : ℂ) * ∑ a, (x a : ℂ) * -mf a) := by
        congr 1
        rw [Weights.cmf, hp, ht.shift, noBias_eq, neg_mul, ← mul_neg, ← sum_neg_distrib]
        congr 1
        refine sum_congr rfl fun a _ => ?_
        rw [Weights.xshifted]
        ring
      rw [hmf]
      simp only [mul_assoc]
      field_simp
    rw [avg_congr_ae key, Step.avg_smul, avg_fock hn mf hs0 hs1, mul_assoc O, ← pow_succ]

end Verif.Grand
