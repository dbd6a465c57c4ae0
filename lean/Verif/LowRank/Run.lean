import Verif.LowRank.Update
import Verif.Grand.PhaselessProps

/-!
# A path with the low-rank stack

What a phaseless path is, without any stack or factorisation: slices one after the other, the trial density matrix in the
remaining ones, weights from the determinants of one plus the whole product.  The full-rank stack gives this path.  The
low-rank stack gives it for every threshold below a positive one.
-/

namespace Verif.LowRank

open Matrix Finset
open Verif.Thermal (Mat gfStrat cyclicProduct startBin)
open Verif.Stack (FullInv DiagOk ordered)
open Verif.Weights (cfb cmf rescale)
open Verif.Grand (Setup Par SetupOk ParOk PWk TWk phSetup phSetupOk phStep phFinish newPh runPh rdm sliceOfB xbarOf partsOf green
  Frame WalkInv)

variable {nx m : Nat}

/-! ## The path -/

/-- The slices so far and the weight. -/
structure Path (m : Nat) where
  Bs : Fin 2 → List (Mat m)
  weight : ℝ

/-- The whole product for one spin: the slices, the trial density matrix in the remaining ones of `L`. -/
noncomputable def whole (BT : Fin 2 → Mat m) (L : Nat) (Bs : Fin 2 → List (Mat m)) (s : Fin 2) : Mat m :=
  BT s ^ (L - (Bs s).length) * ordered (Bs s)

/-- The overlap: the determinants of both spins. -/
noncomputable def detOf (BT : Fin 2 → Mat m) (L : Nat) (Bs : Fin 2 → List (Mat m)) : ℂ :=
  (1 + whole BT L Bs 0).det * (1 + whole BT L Bs 1).det

noncomputable def greenOf (BT : Fin 2 → Mat m) (L : Nat) (Bs : Fin 2 → List (Mat m)) (s : Fin 2) : Mat m :=
  (1 + whole BT L Bs s)⁻¹

/-- The force bias. -/
noncomputable def biasOf (bias : (Fin 2 → Mat m) → Fin nx → ℂ) (BT : Fin 2 → Mat m) (L : Nat) (Bs : Fin 2 → List (Mat m)) :
    Fin nx → ℂ := fun i => rescale (bias (rdm (greenOf BT L Bs)) i)

/-- The factor of the weight for a ratio of overlaps. -/
noncomputable def factor (mfFac cmf cfb r : ℂ) : ℝ :=
  ‖mfFac * Complex.exp (Complex.log r + cfb + cmf)‖ * max 0 (Real.cos (Complex.arg (Complex.exp (Complex.log r + cmf))))

/-- The slices with one more. -/
noncomputable def more (p : Par nx m) (bias : (Fin 2 → Mat m) → Fin nx → ℂ) (BT : Fin 2 → Mat m) (L : Nat)
    (Bs : Fin 2 → List (Mat m)) (xi : Fin nx → ℝ) : Fin 2 → List (Mat m) :=
  fun s => Bs s ++ [sliceOfB p (biasOf bias BT L Bs) xi s]

/-- One slice. -/
noncomputable def pathStep (p : Par nx m) (mfFac : ℂ) (bias : (Fin 2 → Mat m) → Fin nx → ℂ) (BT : Fin 2 → Mat m) (L : Nat)
    (q : Path m) (xi : Fin nx → ℝ) : Path m :=
  let b := biasOf bias BT L q.Bs
  let Bs := more p bias BT L q.Bs xi
  ⟨Bs, q.weight * factor mfFac (cmf p.dt p.tab.mfShift xi b) (cfb xi b) (detOf BT L Bs / detOf BT L q.Bs)⟩

/-- All slices. -/
noncomputable def path (p : Par nx m) (mfFac : ℂ) (bias : (Fin 2 → Mat m) → Fin nx → ℂ) (BT : Fin 2 → Mat m) (L : Nat)
    (xs : List (Fin nx → ℝ)) (q : Path m) : Path m := xs.foldl (pathStep p mfFac bias BT L) q

/-- The overlap is never zero and every slice is invertible. -/
def Regular (p : Par nx m) (bias : (Fin 2 → Mat m) → Fin nx → ℂ) (BT : Fin 2 → Mat m) (L : Nat) :
    List (Fin nx → ℝ) → (Fin 2 → List (Mat m)) → Prop
  | [], Bs => detOf BT L Bs ≠ 0
  | x :: xs, Bs => detOf BT L Bs ≠ 0 ∧ (∀ s, (sliceOfB p (biasOf bias BT L Bs) x s).det ≠ 0) ∧
    Regular p bias BT L xs (more p bias BT L Bs x)

theorem Regular.now {p : Par nx m} {bias : (Fin 2 → Mat m) → Fin nx → ℂ} {BT : Fin 2 → Mat m} {L : Nat} :
    ∀ {xs : List (Fin nx → ℝ)} {Bs : Fin 2 → List (Mat m)}, Regular p bias BT L xs Bs → detOf BT L Bs ≠ 0
  | [], _, h => h
  | _ :: _, _, h => h.1

theorem det_both {BT : Fin 2 → Mat m} {L : Nat} {Bs : Fin 2 → List (Mat m)} (h : detOf BT L Bs ≠ 0) (s : Fin 2) :
    (1 + whole BT L Bs s).det ≠ 0 := by
  fin_cases s
  · exact left_ne_zero_of_mul h
  · exact right_ne_zero_of_mul h

theorem det_greenOf (BT : Fin 2 → Mat m) (L : Nat) (Bs : Fin 2 → List (Mat m)) (s : Fin 2) :
    (greenOf BT L Bs s).det = ((1 + whole BT L Bs s).det)⁻¹ := by
  rw [greenOf, det_nonsing_inv, Ring.inverse_eq_inv']

/-! ## The full-rank stack -/

theorem startBin_all {ss nb : Nat} (hss : 0 < ss) (hnb : 0 < nb) : startBin nb ss (nb * ss) = 0 := by
  unfold startBin
  rw [Nat.mul_div_cancel _ hss]
  simp [hnb]

/-- The Green's function of a phaseless step is the inverse of one plus the product of the bins. -/
theorem green_exact {sch : Grand.Scheme} (hs : sch ≠ .current) {qrp : Mat m → Mat m × Mat m × Equiv.Perm (Fin m)}
    (hq : ∀ A, Thermal.IsQRP A (qrp A).1 (qrp A).2.1 (qrp A).2.2) {ss nb : Nat} (hss : 0 < ss) (hnb : 0 < nb) {BT : Mat m}
    (hBT : BT.det ≠ 0) {Bs : List (Mat m)} (hB : ∀ B ∈ Bs, B.det ≠ 0) {st : Stack.St (Fin m) ℂ} (h : FullInv ss nb BT Bs st)
    (hn : st.nslices = nb * ss) (hl : Bs.length ≤ nb * ss) (lr : Thermal.QDT m × (Fin m → ℂ)) (c : Nat)
    (hlr : sch = .leftRight → (∃ d, BT = diagonal d) ∧ Grand.Stored qrp st.stack c lr ∧ c < nb ∧ Bs.length ≤ (c + 1) * ss)
    (hG : (1 + BT ^ (nb * ss - Bs.length) * ordered Bs).det ≠ 0) :
    green sch qrp lr st c = (1 + BT ^ (nb * ss - Bs.length) * ordered Bs)⁻¹ := by
  have hne : st.stack ≠ [] := by
    intro h0
    have := h.l1
    rw [h0] at this
    simp at this
    omega
  have hd := Grand.FullInv.bin_det hBT hB h
  have ht := Grand.FullInv.total h hl
  rw [← ht] at hG ⊢
  cases sch with
  | current => exact absurd rfl hs
  | total =>
    show gfStrat qrp st.stack st.stackSize st.nslices = _
    have e : startBin st.stack.length st.stackSize st.nslices = 0 := by
      rw [h.l1, h.size, hn]; exact startBin_all hss hnb
    rw [Thermal.gfStrat_eq qrp hq st.stack hne hd _ _ (by rw [Grand.det_cyclic]; exact hG), e, Thermal.cyclicProduct_zero]
  | leftRight =>
    obtain ⟨⟨d, hdiag⟩, hs, hc, hcl⟩ := hlr rfl
    show Grand.gfStored qrp lr st.stack c = _
    rw [hs.green, Thermal.gfLeftRight_eq qrp hq st.stack c (by rw [h.l1]; exact hc) hd ?_ hG]
    intro B hBm
    obtain ⟨i, hi, rfl⟩ := List.mem_iff_getElem.1 hBm
    rw [List.getElem_drop]
    have hi' : c + 1 + i < nb := by
      rw [List.length_drop, h.l1] at hi; omega
    have h1 := h.stack _ hi'
    rw [List.getElem?_eq_getElem (by rw [h.l1]; exact hi'), Option.some_inj] at h1
    rw [h1]
    have h0 : Stack.slice ss Bs (c + 1 + i) = [] := by
      unfold Stack.slice
      rw [List.drop_eq_nil_of_le, List.take_nil]
      exact hcl.trans (Nat.mul_le_mul_right _ (by omega))
    rw [h0, hdiag]
    refine ⟨d ^ ss, ?_⟩
    simp [ordered, diagonal_pow]

theorem phSetup_scheme (p : Par nx m) : (phSetup p).scheme ≠ .current := by
  unfold phSetup
  simp only
  split_ifs with h
  · simp
  · exact h

/-- A walker with full-rank stacks on the path `q`. -/
structure OnPath (p : Setup m) (BT : Fin 2 → Mat m) (ss nb : Nat) (q : Path m) (w : PWk m) : Prop where
  walk : WalkInv p BT ss nb (q.Bs 0).length q.Bs w.toTWk
  frame : Frame ss nb w
  G : w.G = greenOf BT (nb * ss) q.Bs
  M0 : ∀ s, w.M0 s = ((1 + whole BT (nb * ss) q.Bs s).det)⁻¹
  weight : w.weight = q.weight

theorem phStep_path {p : Par nx m} {BT : Fin 2 → Mat m} {ss nb : Nat} (ok : ParOk p BT ss) (mfFac : ℂ)
    (bias : (Fin 2 → Mat m) → Fin nx → ℂ) {q : Path m} {w : PWk m} (h : OnPath (phSetup p) BT ss nb q w)
    (hj : (q.Bs 0).length < nb * ss) {xi : Fin nx → ℝ} (h0 : detOf BT (nb * ss) q.Bs ≠ 0)
    (hB : ∀ s, (sliceOfB p (biasOf bias BT (nb * ss) q.Bs) xi s).det ≠ 0)
    (h1 : detOf BT (nb * ss) (more p bias BT (nb * ss) q.Bs xi) ≠ 0) :
    ∃ w', phStep p mfFac bias xi w = some w' ∧ OnPath (phSetup p) BT ss nb (pathStep p mfFac bias BT (nb * ss) q xi) w' ∧
      w'.phase = w.phase ∧ w'.ot = w.ot := by
  have hnb : 0 < nb := Nat.pos_of_ne_zero (by rintro rfl; simp at hj)
  set B := sliceOfB p (biasOf bias BT (nb * ss) q.Bs) xi with hBd
  have hbias : xbarOf bias w.toTWk = biasOf bias BT (nb * ss) q.Bs := by
    funext i
    rw [xbarOf, biasOf, h.G]
  have hlen := h.walk.len
  have hC : ∀ s, (1 + BT s ^ (nb * ss - (q.Bs 0).length) * ordered (q.Bs s)).det ≠ 0 := by
    intro s
    have := det_both h0 s
    rwa [whole, hlen s] at this
  have hm : ∀ s, whole BT (nb * ss) (more p bias BT (nb * ss) q.Bs xi) s =
      BT s ^ (nb * ss - ((q.Bs 0).length + 1)) * (B s * ordered (q.Bs s)) := by
    intro s
    rw [whole, more, List.length_append, hlen s, Stack.ordered_append]
    rfl
  have hC' : ∀ s, (1 + BT s ^ (nb * ss - ((q.Bs 0).length + 1)) * (B s * ordered (q.Bs s))).det ≠ 0 := by
    intro s
    rw [← hm s]
    exact det_both h1 s
  obtain ⟨v, hv, hinv, -, hG⟩ := Grand.stepWith_full (phSetupOk ok) h.walk hj hC 1 B hB hC'
  unfold Grand.stepWith at hv
  cases ha : (w.stack 0).updateFull (phSetup p).diag ((phSetup p).BTinv 0) (B 0) with
  | none => rw [ha] at hv; simp at hv
  | some a =>
  cases hb : (w.stack 1).updateFull (phSetup p).diag ((phSetup p).BTinv 1) (B 1) with
  | none => rw [ha, hb] at hv; simp at hv
  | some b =>
  rw [ha, hb] at hv
  simp only [Option.some.injEq] at hv
  have hGv : v.G = fun s => green (phSetup p).scheme (phSetup p).qrp (partsOf (phSetup p) w.toTWk s)
      ((![a, b] : Fin 2 → Stack.St (Fin m) ℂ) s) ((w.stack 0).timeSlice / (w.stack 0).stackSize) := by
    rw [← hv]
    unfold Grand.finish
    simp only
    split_ifs <;> rfl
  have hsv : v.stack = ![a, b] := by
    rw [← hv]
    unfold Grand.finish
    simp only
    split_ifs <;> rfl
  have hlv : v.lr = partsOf (phSetup p) w.toTWk := by
    rw [← hv]
    unfold Grand.finish
    simp only
    split_ifs <;> rfl
  have hfr : ∀ s, ((![a, b] : Fin 2 → Stack.St (Fin m) ℂ) s).nslices = nb * ss := by
    rw [Fin.forall_fin_two]
    exact ⟨(Grand.updateFull_frame ha).2.2.trans (h.frame 0).2.2, (Grand.updateFull_frame hb).2.2.trans (h.frame 1).2.2⟩
  -- the stored parts
  have hcur : (w.stack 0).timeSlice / (w.stack 0).stackSize = (q.Bs 0).length / ss := by
    rw [(h.walk.full 0).ts, (h.walk.full 0).size]
  have hcnt : (w.stack 0).counter = (q.Bs 0).length % ss := (h.walk.full 0).cnt
  have hblk : (q.Bs 0).length / ss < nb := (Nat.div_lt_iff_lt_mul ok.pos).2 hj
  have hjs : (q.Bs 0).length + 1 ≤ ((q.Bs 0).length / ss + 1) * ss := by
    have h1 := Nat.div_add_mod (q.Bs 0).length ss
    have h2 := Nat.mod_lt (q.Bs 0).length ok.pos
    rw [Nat.add_mul, Nat.one_mul, Nat.mul_comm ((q.Bs 0).length / ss)]
    omega
  have hset : ∀ s, ∃ X, ((![a, b] : Fin 2 → Stack.St (Fin m) ℂ) s).stack = (w.stack s).stack.set ((q.Bs 0).length / ss) X := by
    rw [Fin.forall_fin_two]
    constructor
    · have := Grand.updateFull_stack ha
      rwa [(h.walk.full 0).blk] at this
    · have := Grand.updateFull_stack hb
      rwa [(h.walk.full 1).blk, hlen] at this
  have hst : (phSetup p).scheme = .leftRight → ∀ s, Grand.Stored (phSetup p).qrp
      ((![a, b] : Fin 2 → Stack.St (Fin m) ℂ) s).stack ((q.Bs 0).length / ss) (partsOf (phSetup p) w.toTWk s) := by
    intro hs s
    obtain ⟨X, hX⟩ := hset s
    rw [hX]
    refine Grand.Stored.set ?_ X
    rw [partsOf, hcur, hcnt]
    by_cases h0 : (q.Bs 0).length % ss = 0
    · rw [if_pos ⟨hs, h0⟩]
      exact Grand.stored_compute _ _ _ _
    · rw [if_neg fun h => h0 h.2]
      exact h.walk.stored hs h0 s
  have hl1 : ∀ s, (q.Bs s ++ [B s]).length = (q.Bs 0).length + 1 := by
    intro s; rw [List.length_append, hlen]; rfl
  have hex : v.G = greenOf BT (nb * ss) (more p bias BT (nb * ss) q.Bs xi) := by
    funext s
    have hf := hinv.full s
    rw [hsv] at hf
    rw [hGv, greenOf, hm s, hcur]
    have := green_exact (phSetup_scheme p) ok.qr ok.pos hnb (ok.toSetupOk.det s) (hinv.det s) hf (hfr s)
      (by rw [hl1]; omega) (partsOf (phSetup p) w.toTWk s) ((q.Bs 0).length / ss)
      (fun hs => ⟨(phSetupOk ok).left hs s, hst hs s, hblk, by rw [hl1]; omega⟩)
      (by rw [hl1, Stack.ordered_append]; exact hC' s)
    rw [hl1, Stack.ordered_append] at this
    exact this
  have hM : ∀ s, (v.G s).det = ((1 + whole BT (nb * ss) (more p bias BT (nb * ss) q.Bs xi) s).det)⁻¹ := by
    intro s; rw [hex, det_greenOf]
  have hM0 : (v.G 0).det * (v.G 1).det ≠ 0 := by
    rw [hM, hM, ← mul_inv]
    exact inv_ne_zero h1
  have hrat : w.M0 0 * w.M0 1 / ((v.G 0).det * (v.G 1).det) =
      detOf BT (nb * ss) (more p bias BT (nb * ss) q.Bs xi) / detOf BT (nb * ss) q.Bs := by
    rw [hM, hM, h.M0, h.M0, ← mul_inv, ← mul_inv, inv_div_inv]
    rfl
  refine ⟨⟨⟨w.weight * factor mfFac (cmf p.dt p.tab.mfShift xi (biasOf bias BT (nb * ss) q.Bs))
      (cfb xi (biasOf bias BT (nb * ss) q.Bs))
      (detOf BT (nb * ss) (more p bias BT (nb * ss) q.Bs xi) / detOf BT (nb * ss) q.Bs), w.phase, w.ot, v.G, v.stack, v.lr⟩,
      fun s => (v.G s).det⟩, ?_, ⟨?_, ?_, hex, hM, ?_⟩, rfl, rfl⟩
  · unfold phStep
    simp only [hbias]
    have ha' : (w.stack 0).updateFull p.diag (p.BTinv 0) (B 0) = some a := ha
    have hb2 : (w.stack 1).updateFull p.diag (p.BTinv 1) (B 1) = some b := hb
    rw [ha', hb2]
    simp only
    unfold phFinish
    simp only
    rw [hGv] at hM0 hrat
    rw [if_neg hM0, hrat, if_neg (div_ne_zero h1 h0), hGv, hsv, hlv, factor, add_assoc (Complex.log _),
      add_comm (cfb xi _), ← add_assoc, add_sub_cancel_right]
  · have : ((pathStep p mfFac bias BT (nb * ss) q xi).Bs 0).length = (q.Bs 0).length + 1 := hl1 0
    rw [this]
    exact ⟨hinv.len, hinv.full, hinv.det, h.walk.ot, hinv.stored⟩
  · have hs' : ∀ s, ((![a, b] : Fin 2 → Stack.St (Fin m) ℂ) s).stackSize = ss ∧
        ((![a, b] : Fin 2 → Stack.St (Fin m) ℂ) s).nbins = nb ∧
        ((![a, b] : Fin 2 → Stack.St (Fin m) ℂ) s).nslices = nb * ss := by
      rw [Fin.forall_fin_two]
      obtain ⟨a1, a2, a3⟩ := Grand.updateFull_frame ha
      obtain ⟨b1, b2, b3⟩ := Grand.updateFull_frame hb
      exact ⟨⟨a1.trans (h.frame 0).1, a2.trans (h.frame 0).2.1, a3.trans (h.frame 0).2.2⟩,
        ⟨b1.trans (h.frame 1).1, b2.trans (h.frame 1).2.1, b3.trans (h.frame 1).2.2⟩⟩
    intro s
    show (v.stack s).stackSize = _ ∧ (v.stack s).nbins = _ ∧ (v.stack s).nslices = _
    rw [hsv]
    exact hs' s
  · show w.weight * _ = q.weight * _
    rw [h.weight]

/-- With the full-rank stack a phaseless walker follows the path. -/
theorem runPh_path {p : Par nx m} {BT : Fin 2 → Mat m} {ss nb : Nat} (ok : ParOk p BT ss) (mfFac : ℂ)
    (bias : (Fin 2 → Mat m) → Fin nx → ℂ) : ∀ (xs : List (Fin nx → ℝ)) {q : Path m} {w : PWk m},
    OnPath (phSetup p) BT ss nb q w → (q.Bs 0).length + xs.length ≤ nb * ss → Regular p bias BT (nb * ss) xs q.Bs →
    ∃ w', runPh p mfFac bias xs w = some w' ∧ OnPath (phSetup p) BT ss nb (path p mfFac bias BT (nb * ss) xs q) w' ∧
      w'.phase = w.phase ∧ w'.ot = w.ot
  | [], q, w, h, _, _ => ⟨w, rfl, h, rfl, rfl⟩
  | x :: xs, q, w, h, hl, hr => by
    rw [List.length_cons] at hl
    obtain ⟨v, hv, hv', h1, h2⟩ := phStep_path ok mfFac bias h (by omega) hr.1 hr.2.1 hr.2.2.now
    have hlen : ((pathStep p mfFac bias BT (nb * ss) q x).Bs 0).length = (q.Bs 0).length + 1 := by
      show (q.Bs 0 ++ [_]).length = _
      rw [List.length_append]; rfl
    obtain ⟨w', hw, hw', h3, h4⟩ := runPh_path ok mfFac bias xs hv' (by rw [hlen]; omega) hr.2.2
    exact ⟨w', by rw [runPh, hv]; exact hw, hw', h3.trans h1, h4.trans h2⟩

/-- All bins of a new stack are equal. -/
theorem fresh_bins {diag : Bool} {BT : Mat m} (hBT : DiagOk diag BT) {ss nb : Nat} (hss : 0 < ss) :
    ∃ st, Stack.fresh diag BT ss (ss * nb) = some st ∧ FullInv ss nb BT [] st ∧ st.nslices = nb * ss ∧ st.nbins = nb ∧
      st.stack = List.replicate nb (BT ^ ss) := by
  obtain ⟨st, h0, -, hs⟩ := Stack.fresh_some diag BT hBT ss nb hss
  have hst : ∀ b, b < nb → st.stack[b]? = some (BT ^ ss) := by
    intro b hb
    rw [hs.stack b hb, Stack.bin_full hb]
  have hlt : ∀ b, b < nb → st.left[b]? = some (BT ^ ss) := by
    intro b hb
    rw [hs.left b hb, Stack.bin_full hb]
  refine ⟨st, h0, ⟨hs.size, hs.l2, hs.l1, ?_, ?_, ?_, ?_, ?_, ?_, ?_⟩, hs.slices, hs.nbins, ?_⟩
  · rw [hs.right]; simp [Stack.St.reset, Stack.blank]
  · rw [hs.ts]; rfl
  · rw [hs.blk]; simp [Stack.St.reset, Stack.blank]
  · rw [hs.cnt]; simp [Stack.St.reset, Stack.blank]
  · intro b hb; rw [hlt b hb]; simp [Stack.slice]
  · intro b hb; rw [hs.right]; simp [Stack.slice, ordered, Stack.St.reset, Stack.blank, hb]
  · intro b hb; rw [hst b hb]; simp [Stack.slice, ordered]
  · apply List.ext_getElem?
    intro i
    by_cases hi : i < nb
    · rw [hst i hi, List.getElem?_replicate, if_pos hi]
    · rw [List.getElem?_eq_none (by rw [hs.l2]; omega), List.getElem?_replicate, if_neg hi]

/-- The Green's function of a new walker. -/
theorem new_green {qrp : Mat m → Mat m × Mat m × Equiv.Perm (Fin m)}
    (hq : ∀ A, Thermal.IsQRP A (qrp A).1 (qrp A).2.1 (qrp A).2.2) {ss nb : Nat} (hnb : 0 < nb) {BT : Mat m}
    (hBT : BT.det ≠ 0) (h0 : (1 + BT ^ (nb * ss)).det ≠ 0) (sl : Nat) :
    gfStrat qrp (List.replicate nb (BT ^ ss)) ss sl = (1 + BT ^ (nb * ss))⁻¹ := by
  have e : ∀ i, cyclicProduct (List.replicate nb (BT ^ ss)) i = BT ^ (nb * ss) := by
    intro i
    rw [cyclicProduct, List.rotate_replicate, List.reverse_replicate, List.prod_replicate, ← pow_mul, mul_comm]
  rw [Thermal.gfStrat_eq qrp hq _ ?_ ?_ _ _ (by rw [e]; exact h0), e]
  · rw [Ne, List.replicate_eq_nil_iff]; omega
  · intro B hB
    rw [List.eq_of_mem_replicate hB, det_pow]
    exact pow_ne_zero _ hBT

theorem whole_nil (BT : Fin 2 → Mat m) (L : Nat) (s : Fin 2) : whole BT L (fun _ => []) s = BT s ^ L := by
  simp [whole, ordered]

/-- A new walker is at the start of the path. -/
theorem newPh_path {p : Par nx m} {BT : Fin 2 → Mat m} {ss nb : Nat} (ok : ParOk p BT ss) (hnb : 0 < nb) (w0 : ℝ)
    (h0 : detOf BT (nb * ss) (fun _ => []) ≠ 0) :
    ∃ w, newPh (phSetup p) BT ss (ss * nb) w0 = some w ∧ OnPath (phSetup p) BT ss nb ⟨fun _ => [], w0⟩ w ∧
      w.phase = 1 ∧ w.ot = 1 := by
  obtain ⟨a, ha, hfa, hna, hba, hsa⟩ := fresh_bins (ok.diagT 0) (nb := nb) ok.pos
  obtain ⟨b, hb, hfb, hnb', hbb, hsb⟩ := fresh_bins (ok.diagT 1) (nb := nb) ok.pos
  have hf : ∀ s, FullInv ss nb (BT s) [] ((![a, b] : Fin 2 → Stack.St (Fin m) ℂ) s) := by
    rw [Fin.forall_fin_two]; exact ⟨hfa, hfb⟩
  have hd : ∀ s, (1 + BT s ^ (nb * ss)).det ≠ 0 := by
    intro s; have := det_both h0 s; rwa [whole_nil] at this
  have hG : ∀ s, gfStrat p.qrp ((![a, b] : Fin 2 → Stack.St (Fin m) ℂ) s).stack
      ((![a, b] : Fin 2 → Stack.St (Fin m) ℂ) s).stackSize ((![a, b] : Fin 2 → Stack.St (Fin m) ℂ) s).timeSlice =
      (1 + BT s ^ (nb * ss))⁻¹ := by
    intro s
    have hs : ((![a, b] : Fin 2 → Stack.St (Fin m) ℂ) s).stack = List.replicate nb (BT s ^ ss) := by
      revert s
      rw [Fin.forall_fin_two]; exact ⟨hsa, hsb⟩
    rw [hs, (hf s).size]
    exact new_green ok.qr hnb (ok.toSetupOk.det s) (hd s) _
  refine ⟨⟨⟨w0, 1, 1, fun s => gfStrat p.qrp ((![a, b] : Fin 2 → Stack.St (Fin m) ℂ) s).stack
      ((![a, b] : Fin 2 → Stack.St (Fin m) ℂ) s).stackSize ((![a, b] : Fin 2 → Stack.St (Fin m) ℂ) s).timeSlice, ![a, b],
      fun _ => (⟨1, fun _ => 1, 1⟩, fun _ => 1)⟩, fun s => (gfStrat p.qrp ((![a, b] : Fin 2 → Stack.St (Fin m) ℂ) s).stack
      ((![a, b] : Fin 2 → Stack.St (Fin m) ℂ) s).stackSize ((![a, b] : Fin 2 → Stack.St (Fin m) ℂ) s).timeSlice).det⟩,
    ?_, ⟨⟨fun _ => rfl, hf, by simp, rfl, ?_⟩, ?_, ?_, ?_, rfl⟩, rfl, rfl⟩
  · have ha' : Stack.fresh (phSetup p).diag (BT 0) ss (ss * nb) = some a := ha
    have hb' : Stack.fresh (phSetup p).diag (BT 1) ss (ss * nb) = some b := hb
    rw [newPh, Grand.newWalker, ha', hb']
    rfl
  · intro _ h; simp at h
  · intro s
    show ((![a, b] : Fin 2 → Stack.St (Fin m) ℂ) s).stackSize = ss ∧ ((![a, b] : Fin 2 → Stack.St (Fin m) ℂ) s).nbins = nb ∧
      ((![a, b] : Fin 2 → Stack.St (Fin m) ℂ) s).nslices = nb * ss
    revert s
    rw [Fin.forall_fin_two]
    exact ⟨⟨hfa.size, hba, hna⟩, ⟨hfb.size, hbb, hnb'⟩⟩
  · funext s
    show gfStrat _ _ _ _ = _
    rw [hG, greenOf, whole_nil]
  · intro s
    show (gfStrat _ _ _ _).det = _
    rw [hG, whole_nil, det_nonsing_inv, Ring.inverse_eq_inv']

/-! ## The low-rank stack -/

/-- A walker with low-rank stacks on the path `q`; the trial density matrices are the diagonal matrices of `d`. -/
structure OnLow (BT : Fin 2 → Mat m) (d : Fin 2 → Fin m → ℂ) (ss nb : Nat) (q : Path m) (w : LWk m) : Prop where
  len : ∀ s, (q.Bs s).length = (q.Bs 0).length
  inv : ∀ s, LInv ss nb (d s) (q.Bs s) (w.stack s)
  green : ∀ s, IsGreen (whole BT (nb * ss) q.Bs s) (w.stack s).ovlp (w.G s)
  weight : w.weight = q.weight

theorem lowEnd_regular {mfFac c f : ℂ} {w : LWk m} {st : Fin 2 → LSt m} {D D' : ℂ}
    (h : (w.stack 0).ovlp * (w.stack 1).ovlp = D) (h' : (st 0).ovlp * (st 1).ovlp = D') (h0 : D ≠ 0) (h1 : D' ≠ 0) :
    lowEnd mfFac c f w st = some ⟨w.weight * factor mfFac c f (D' / D), w.phase, w.ot, fun s => (st s).G,
      fun s => (st s).ovlp, st⟩ := by
  unfold lowEnd
  simp only
  rw [h, if_neg h0, h', if_neg (div_ne_zero h1 h0), factor, add_assoc (Complex.log _), add_comm f, ← add_assoc,
    add_sub_cancel_right]

/-- One step from a walker whose factors are those of the slices `Bs`, whatever its overlaps and Green's functions are. -/
theorem lowStep_core {qr : QRPr} (hq : ∀ a b A, IsQRPr A (qr a b A).1 (qr a b A).2.1 (qr a b A).2.2) {p : Par nx m}
    {BT : Fin 2 → Mat m} {d : Fin 2 → Fin m → ℂ} (hBT : ∀ s, BT s = diagonal (d s)) {ss nb : Nat} (hss : 0 < ss)
    (hinv : ∀ s, BT s * p.BTinv s = 1) (mfFac : ℂ) (bias : (Fin 2 → Mat m) → Fin nx → ℂ) {Bs : Fin 2 → List (Mat m)}
    {w : LWk m} (hlen : ∀ s, (Bs s).length = (Bs 0).length) (h : ∀ s, LInv ss nb (d s) (Bs s) (w.stack s))
    (hj : (Bs 0).length < nb * ss) {xi : Fin nx → ℝ} (h0 : (w.stack 0).ovlp * (w.stack 1).ovlp ≠ 0)
    (hB : ∀ s, (sliceOfB p (xbarLow bias w) xi s).det ≠ 0)
    (h1 : detOf BT (nb * ss) (fun s => Bs s ++ [sliceOfB p (xbarLow bias w) xi s]) ≠ 0) :
    ∃ t0 : ℝ, 0 < t0 ∧ ∃ w', (∀ t < t0, lowStep qr t p mfFac bias xi w = some w') ∧
      OnLow BT d ss nb ⟨fun s => Bs s ++ [sliceOfB p (xbarLow bias w) xi s],
        w.weight * factor mfFac (cmf p.dt p.tab.mfShift xi (xbarLow bias w)) (cfb xi (xbarLow bias w))
          (detOf BT (nb * ss) (fun s => Bs s ++ [sliceOfB p (xbarLow bias w) xi s]) /
            ((w.stack 0).ovlp * (w.stack 1).ovlp))⟩ w' ∧ w'.phase = w.phase ∧ w'.ot = w.ot := by
  set B := sliceOfB p (xbarLow bias w) xi with hBd
  have hdi : ∀ s i, d s i * p.BTinv s i i = 1 := by
    intro s i
    have := congrFun (congrFun (hinv s) i) i
    rwa [hBT, diagonal_mul, one_apply_eq] at this
  have hd : ∀ s i, d s i ≠ 0 := fun s i => left_ne_zero_of_mul (by rw [hdi s i]; exact one_ne_zero)
  have hm : ∀ s, whole BT (nb * ss) (fun s => Bs s ++ [B s]) s =
      diagonal (d s) ^ (nb * ss - ((Bs s).length + 1)) * (B s * ordered (Bs s)) := by
    intro s
    rw [whole, List.length_append, Stack.ordered_append, hBT, List.length_singleton]
  have step := fun s => update_exact hq hss (hd s) (hdi s) (h s) (by rw [hlen]; exact hj) (hB s)
    (by rw [← hm s]; exact det_both h1 s)
  obtain ⟨t1, ht1, a, ha, hai, hag⟩ := step 0
  obtain ⟨t2, ht2, b, hb, hbi, hbg⟩ := step 1
  rw [← hm] at hag hbg
  have hov' : a.ovlp * b.ovlp = detOf BT (nb * ss) (fun s => Bs s ++ [B s]) := by
    rw [hag.ovlp, hbg.ovlp]; rfl
  refine ⟨min t1 t2, lt_min ht1 ht2, ⟨w.weight * factor mfFac (cmf p.dt p.tab.mfShift xi (xbarLow bias w))
      (cfb xi (xbarLow bias w)) (detOf BT (nb * ss) (fun s => Bs s ++ [B s]) / ((w.stack 0).ovlp * (w.stack 1).ovlp)),
      w.phase, w.ot, fun s => ((![a, b] : Fin 2 → LSt m) s).G, fun s => ((![a, b] : Fin 2 → LSt m) s).ovlp, ![a, b]⟩,
      fun t ht => ?_, ⟨?_, ?_, ?_, rfl⟩, rfl, rfl⟩
  · unfold lowStep updateBoth
    simp only
    rw [ha t (ht.trans_le (min_le_left _ _)), hb t (ht.trans_le (min_le_right _ _))]
    simp only [Option.bind_some]
    rw [lowEnd_regular rfl (D' := detOf BT (nb * ss) (fun s => Bs s ++ [B s])) hov' h0 h1]
  · intro s
    show (Bs s ++ [_]).length = (Bs 0 ++ [_]).length
    rw [List.length_append, List.length_append, hlen s, List.length_singleton, List.length_singleton]
  · rw [Fin.forall_fin_two]; exact ⟨hai, hbi⟩
  · rw [Fin.forall_fin_two]; exact ⟨hag, hbg⟩

theorem OnLow.green_eq {BT : Fin 2 → Mat m} {d : Fin 2 → Fin m → ℂ} {ss nb : Nat} {q : Path m} {w : LWk m}
    (h : OnLow BT d ss nb q w) : w.G = greenOf BT (nb * ss) q.Bs := by
  funext s; rw [(h.green s).green]; rfl

theorem OnLow.bias_eq {BT : Fin 2 → Mat m} {d : Fin 2 → Fin m → ℂ} {ss nb : Nat} {q : Path m} {w : LWk m}
    (h : OnLow BT d ss nb q w) (bias : (Fin 2 → Mat m) → Fin nx → ℂ) : xbarLow bias w = biasOf bias BT (nb * ss) q.Bs := by
  funext i
  rw [xbarLow, biasOf, h.green_eq]

theorem OnLow.ovlp_eq {BT : Fin 2 → Mat m} {d : Fin 2 → Fin m → ℂ} {ss nb : Nat} {q : Path m} {w : LWk m}
    (h : OnLow BT d ss nb q w) : (w.stack 0).ovlp * (w.stack 1).ovlp = detOf BT (nb * ss) q.Bs := by
  rw [(h.green 0).ovlp, (h.green 1).ovlp]; rfl

theorem lowStep_path {qr : QRPr} (hq : ∀ a b A, IsQRPr A (qr a b A).1 (qr a b A).2.1 (qr a b A).2.2) {p : Par nx m}
    {BT : Fin 2 → Mat m} {d : Fin 2 → Fin m → ℂ} (hBT : ∀ s, BT s = diagonal (d s)) {ss nb : Nat} (hss : 0 < ss)
    (hinv : ∀ s, BT s * p.BTinv s = 1) (mfFac : ℂ)
    (bias : (Fin 2 → Mat m) → Fin nx → ℂ) {q : Path m} {w : LWk m} (h : OnLow BT d ss nb q w)
    (hj : (q.Bs 0).length < nb * ss) {xi : Fin nx → ℝ} (h0 : detOf BT (nb * ss) q.Bs ≠ 0)
    (hB : ∀ s, (sliceOfB p (biasOf bias BT (nb * ss) q.Bs) xi s).det ≠ 0)
    (h1 : detOf BT (nb * ss) (more p bias BT (nb * ss) q.Bs xi) ≠ 0) :
    ∃ t0 : ℝ, 0 < t0 ∧ ∃ w', (∀ t < t0, lowStep qr t p mfFac bias xi w = some w') ∧
      OnLow BT d ss nb (pathStep p mfFac bias BT (nb * ss) q xi) w' ∧ w'.phase = w.phase ∧ w'.ot = w.ot := by
  rw [← h.bias_eq bias] at hB
  unfold more at h1
  rw [← h.bias_eq bias] at h1
  have := lowStep_core hq hBT hss hinv mfFac bias h.len h.inv hj (by rw [h.ovlp_eq]; exact h0) hB h1
  rw [h.bias_eq bias, h.ovlp_eq, h.weight] at this
  exact this

/-- With the low-rank stack a phaseless walker follows the path for every threshold below a positive one. -/
theorem runLow_path {qr : QRPr} (hq : ∀ a b A, IsQRPr A (qr a b A).1 (qr a b A).2.1 (qr a b A).2.2) {p : Par nx m}
    {BT : Fin 2 → Mat m} {d : Fin 2 → Fin m → ℂ} (hBT : ∀ s, BT s = diagonal (d s)) {ss nb : Nat} (hss : 0 < ss)
    (hinv : ∀ s, BT s * p.BTinv s = 1) (mfFac : ℂ)
    (bias : (Fin 2 → Mat m) → Fin nx → ℂ) : ∀ (xs : List (Fin nx → ℝ)) {q : Path m} {w : LWk m},
    OnLow BT d ss nb q w → (q.Bs 0).length + xs.length ≤ nb * ss → Regular p bias BT (nb * ss) xs q.Bs →
    ∃ t0 : ℝ, 0 < t0 ∧ ∃ w', (∀ t < t0, runLow qr t p mfFac bias xs w = some w') ∧
      OnLow BT d ss nb (path p mfFac bias BT (nb * ss) xs q) w' ∧ w'.phase = w.phase ∧ w'.ot = w.ot
  | [], q, w, h, _, _ => ⟨1, one_pos, w, fun _ _ => rfl, h, rfl, rfl⟩
  | x :: xs, q, w, h, hl, hr => by
    rw [List.length_cons] at hl
    obtain ⟨t1, ht1, v, hv, hv', h1, h2⟩ := lowStep_path hq hBT hss hinv mfFac bias h (by omega) hr.1 hr.2.1 hr.2.2.now
    have hlen : ((pathStep p mfFac bias BT (nb * ss) q x).Bs 0).length = (q.Bs 0).length + 1 := by
      show (q.Bs 0 ++ [_]).length = _
      rw [List.length_append]; rfl
    obtain ⟨t2, ht2, w', hw, hw', h3, h4⟩ := runLow_path hq hBT hss hinv mfFac bias xs hv' (by rw [hlen]; omega) hr.2.2
    refine ⟨min t1 t2, lt_min ht1 ht2, w', fun t ht => ?_, hw', h3.trans h1, h4.trans h2⟩
    rw [runLow, hv t (ht.trans_le (min_le_left _ _))]
    exact hw t (ht.trans_le (min_le_right _ _))

theorem initDl_bins {nb : Nat} (hnb : 0 < nb) (A : Mat m) (i : Fin m) :
    initDl (List.replicate nb A) i = A i i ^ nb := by
  obtain ⟨k, rfl⟩ : ∃ k, nb = k + 1 := ⟨nb - 1, by omega⟩
  have key : ∀ (k : Nat) (v : Fin m → ℂ), (List.replicate k A).foldl (fun Dl B i => B i i * Dl i) v i = A i i ^ k * v i := by
    intro k
    induction k with
    | zero => intro v; simp
    | succ k ih => intro v; rw [List.replicate_succ, List.foldl_cons, ih, pow_succ]; ring
  unfold initDl
  rw [List.replicate_succ, List.drop_one, List.tail_cons, key, List.getD_cons_zero, ← pow_succ]

/-- A new walker with low-rank stacks is at the start of the path. -/
theorem newLow_path {p : Setup m} {BT : Fin 2 → Mat m} {d : Fin 2 → Fin m → ℂ} (hBT : ∀ s, BT s = diagonal (d s)) {ss nb : Nat}
    (ok : SetupOk p BT ss) (hp : p.diag = true) (hnb : 0 < nb) (w0 : ℝ)
    (h0 : detOf BT (nb * ss) (fun _ => []) ≠ 0) :
    ∃ w, newLow p BT ss (ss * nb) w0 = some w ∧ OnLow BT d ss nb ⟨fun _ => [], w0⟩ w ∧ w.phase = 1 ∧ w.ot = 1 := by
  obtain ⟨a, ha, hfa, hna, hba, hsa⟩ := fresh_bins (ok.diagT 0) (nb := nb) ok.pos
  obtain ⟨b, hb, hfb, hnb', hbb, hsb⟩ := fresh_bins (ok.diagT 1) (nb := nb) ok.pos
  have key : ∀ s, ∀ st : Stack.St (Fin m) ℂ, FullInv ss nb (BT s) [] st → st.nbins = nb → st.nslices = nb * ss → st.stack = List.replicate nb (BT s ^ ss) →
      LInv ss nb (d s) [] (newLSt p st) ∧
      IsGreen (whole BT (nb * ss) (fun _ => []) s) (newLSt p st).ovlp (newLSt p st).G := by
    intro s st hf hb hn hs
    have hd := det_both h0 s
    have hG : gfStrat p.qrp st.stack st.stackSize st.timeSlice = (1 + whole BT (nb * ss) (fun _ => []) s)⁻¹ := by
      rw [whole_nil] at hd ⊢
      rw [hs, hf.size]
      exact new_green ok.qr hnb (ok.det s) hd _
    refine ⟨⟨hf.size, hf.l2, hb, hn, hf.ts, hf.blk, hf.cnt, ?_, ?_, ?_, ?_⟩, ⟨hd, ?_, hG⟩⟩
    · funext i
      show initDl st.stack i = _
      rw [hs, initDl_bins hnb, hBT, diagonal_pow, diagonal_apply_eq, Pi.pow_apply, ← pow_mul, mul_comm ss]
      rfl
    · show (1 : Mat m) * diagonal (fun _ => 1) * 1 = _
      rw [diagonal_one]; simp [ordered]
    · intro i; exact one_ne_zero
    · show ((1 : Mat m) * diagonal (fun _ => 1) * 1).det ≠ 0
      rw [diagonal_one]; simp
    · show 1 / (gfStrat p.qrp st.stack st.stackSize st.timeSlice).det = _
      rw [hG, det_nonsing_inv, Ring.inverse_eq_inv', one_div, inv_inv]
  refine ⟨⟨w0, 1, 1, fun s => ((![newLSt p a, newLSt p b] : Fin 2 → LSt m) s).G,
    fun s => (((![newLSt p a, newLSt p b] : Fin 2 → LSt m) s).G).det, ![newLSt p a, newLSt p b]⟩, ?_, ⟨fun _ => rfl, ?_, ?_, rfl⟩,
    rfl, rfl⟩
  · rw [newLow, if_neg (by rw [hp]; simp), ha, hb]
  · rw [Fin.forall_fin_two]; exact ⟨(key 0 a hfa hba hna hsa).1, (key 1 b hfb hbb hnb' hsb).1⟩
  · rw [Fin.forall_fin_two]; exact ⟨(key 0 a hfa hba hna hsa).2, (key 1 b hfb hbb hnb' hsb).2⟩

/-- **C105 (no truncation)**: along every path on which no overlap vanishes and every slice is invertible there is a
positive number such that for every threshold below it the low-rank run ends with the weight, the phase and the Green's
functions of the full-rank run; both are those of the path. -/
theorem lowRank_full {qr : QRPr} (hq : ∀ a b A, IsQRPr A (qr a b A).1 (qr a b A).2.1 (qr a b A).2.2) {p : Par nx m}
    {BT : Fin 2 → Mat m} {ss nb : Nat} (ok : ParOk p BT ss) (hp : p.diag = true) (hnb : 0 < nb) (mfFac : ℂ)
    (bias : (Fin 2 → Mat m) → Fin nx → ℂ) (w0 : ℝ) (xs : List (Fin nx → ℝ)) (hl : xs.length ≤ nb * ss)
    (hr : Regular p bias BT (nb * ss) xs fun _ => []) :
    ∃ t0 : ℝ, 0 < t0 ∧ ∃ v w, (newPh (phSetup p) BT ss (ss * nb) w0).bind (runPh p mfFac bias xs) = some v ∧
      (∀ t < t0, (newLow p.toSetup BT ss (ss * nb) w0).bind (runLow qr t p mfFac bias xs) = some w) ∧
      w.weight = v.weight ∧ w.phase = v.phase ∧ w.ot = v.ot ∧ w.G = v.G ∧
      w.weight = (path p mfFac bias BT (nb * ss) xs ⟨fun _ => [], w0⟩).weight ∧
      w.G = greenOf BT (nb * ss) (path p mfFac bias BT (nb * ss) xs ⟨fun _ => [], w0⟩).Bs := by
  obtain ⟨d0, hd0⟩ := ok.diagT 0 hp
  obtain ⟨d1, hd1⟩ := ok.diagT 1 hp
  have hBT : ∀ s, BT s = diagonal ((![d0, d1] : Fin 2 → Fin m → ℂ) s) := by
    rw [Fin.forall_fin_two]; exact ⟨hd0, hd1⟩
  obtain ⟨v0, hv0, hv0', p1, o1⟩ := newPh_path ok hnb w0 hr.now
  obtain ⟨l0, hl0, hl0', p2, o2⟩ := newLow_path hBT ok.toSetupOk hp hnb w0 hr.now
  obtain ⟨v, hv, hv', p3, o3⟩ := runPh_path ok mfFac bias xs hv0' (by simpa using hl) hr
  obtain ⟨t0, ht0, w, hw, hw', p4, o4⟩ := runLow_path hq hBT ok.pos ok.inv mfFac bias xs hl0' (by simpa using hl) hr
  have hG : w.G = greenOf BT (nb * ss) (path p mfFac bias BT (nb * ss) xs ⟨fun _ => [], w0⟩).Bs := hw'.green_eq
  refine ⟨t0, ht0, v, w, by rw [hv0]; exact hv, fun t ht => by rw [hl0]; exact hw t ht, ?_, ?_, ?_, ?_, hw'.weight, hG⟩
  · rw [hw'.weight, hv'.weight]
  · rw [p4, p2, p3, p1]
  · rw [o4, o2, o3, o1]
  · rw [hG, hv'.G]

end Verif.LowRank
