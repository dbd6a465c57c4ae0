import Verif.Grand.Phaseless

/-!
# The low-rank stack

Model of the low-rank parts of `PropagatorStack` (`pauxy/walkers/stack.py`), of
`propagate_walker_phaseless_low_rank` and `propagate_walker_free_low_rank` of
`pauxy/thermal_propagation/planewave.py`, and of what `low_rank` changes of a walker (`pauxy/walkers/thermal.py`).
Exact arithmetic; `scipy.linalg.qr` is a parameter with the contract `IsQRPr`.  The attribute `mT` of the stack and the copy
`Tl` of a bin are not modelled: nothing reads them in a run.
-/

namespace Verif.LowRank

open Matrix Finset
open Verif.Thermal (Mat gfStrat splitLive)
open Verif.Grand (Setup Par TWk rdm sliceOfB)
open Verif.Weights (cfb cmf rescale)

/-- Rectangular complex matrices. -/
abbrev RMat (a b : Nat) := Matrix (Fin a) (Fin b) ℂ

variable {nx m : Nat}

/-- `Q, R, P = scipy.linalg.qr(A, pivoting=True)` of a rectangular matrix: `A[:, P] = Q R`, `Q` square and unitary, `R` upper
triangular with real diagonal.  The column with the largest remaining norm is taken first, so no entry right of and below
a diagonal entry is larger. -/
structure IsQRPr {a b : Nat} (A : RMat a b) (Q : RMat a a) (R : RMat a b) (P : Equiv.Perm (Fin b)) : Prop where
  unitary : Qᴴ * Q = 1
  upper : ∀ (i : Fin a) (j : Fin b), (j : Nat) < i → R i j = 0
  eq : A.submatrix id P = Q * R
  real : ∀ (i : Fin a) (j : Fin b), (i : Nat) = j → (R i j).im = 0
  pivot : ∀ (k : Nat) (ha : k < a) (hb : k < b) (i : Fin a) (j : Fin b), k ≤ i → k ≤ j →
    ‖R i j‖ ≤ ‖R ⟨k, ha⟩ ⟨k, hb⟩‖

/-- The type of the routine. -/
abbrev QRPr := ∀ a b : Nat, RMat a b → RMat a a × RMat a b × Equiv.Perm (Fin b)

/-- `len(D[numpy.abs(D) > thresh])`. -/
noncomputable def kept {n : Nat} (thresh : ℝ) (D : Fin n → ℂ) : Nat := (univ.filter fun i => thresh < ‖D i‖).card

theorem kept_le {n : Nat} (thresh : ℝ) (D : Fin n → ℂ) : kept thresh D ≤ n := card_finset_fin_le _

/-- `M[:, :k]`. -/
def cols {a n k : Nat} (h : k ≤ n) (M : RMat a n) : RMat a k := M.submatrix id (Fin.castLE h)

/-- `M[:k, :]`. -/
def rows {a n k : Nat} (h : k ≤ n) (M : RMat n a) : RMat k a := M.submatrix (Fin.castLE h) id

/-- `X = zeros; X[:k] = v`. -/
def padVec {n k : Nat} (v : Fin k → ℂ) : Fin n → ℂ := fun i => if h : (i : Nat) < k then v ⟨i, h⟩ else 0

/-- `X = zeros; X[:, :k] = M`. -/
def padCols {a n k : Nat} (M : RMat a k) : RMat a n := fun i => padVec (M i)

/-- `X = zeros; X[:k, :] = M`. -/
def padRows {a n k : Nat} (M : RMat k a) : RMat n a := fun i j => padVec (fun l => M l j) i

/-- The stack of one spin with the low-rank factors, stack.py 161-188; `left`, `right` and `stack` are set by `set_all` and
not changed by the low-rank update. -/
structure LSt (m : Nat) extends Stack.St (Fin m) ℂ where
  Dl : Fin m → ℂ
  Qr : Mat m
  Dr : Fin m → ℂ
  Tr : Mat m
  ovlp : ℂ
  G : Mat m
  CT : Mat m
  theta : Mat m

/-- What an update computes from the factors. -/
structure Out (m : Nat) where
  ovlp : ℂ
  G : Mat m
  CT : Mat m
  theta : Mat m

open Classical in
/-- The overlap and the Green's function of `Q D T`, stack.py 382-414 and 443-479: `Q` is `mL` by `mL`, its first `mT`
columns are used.  `none`: a singular matrix is inverted. -/
noncomputable def lowFinish {mL mT : Nat} (hL : mL ≤ m) (hT : mT ≤ mL) (Q : RMat mL mL) (D : Fin mT → ℂ) (T : RMat mT m) :
    Option (Out m) :=
  let Db := (splitLive D).1
  let Ds := (splitLive D).2
  let TQ := cols hL T * cols hT Q
  if TQ.det = 0 then none
  else
    let tmp := TQ⁻¹ * diagonal Db + diagonal Ds
    if tmp.det = 0 then none
    else
      let ovlp := (tmp * diagonal (fun i => 1 / Db i) * TQ).det
      let A := diagonal Db * (tmp⁻¹ * TQ⁻¹)
      let Qpad : RMat m mT := padRows (cols hT Q)
      let CT : Mat m := padCols (A * T)ᴴ
      let theta : Mat m := padRows (Qpad * diagonal D)ᵀ
      let G := 1 - (rows (hT.trans hL) theta)ᵀ * (cols (hT.trans hL) CT)ᴴ
      some ⟨ovlp, G, CT, theta⟩

/-- `Rlcr.diagonal()[:min(mL, mR)]`. -/
def diagOf {a b : Nat} (R : RMat a b) : Fin (min a b) → ℂ :=
  fun k => R (Fin.castLE (min_le_left _ _) k) (Fin.castLE (min_le_right _ _) k)

/-- Overlap and Green's function from the pivoted factorisation `f` of the left factor, stack.py 371-414 and 432-479, with
the first `mT` rows of `R`. -/
noncomputable def lowTail {mL mR : Nat} (hL : mL ≤ m) (f : RMat mL mL × RMat mL mR × Equiv.Perm (Fin mR)) (T : RMat mR m)
    (mT : Nat) (hT : mT ≤ min mL mR) : Option (Out m) :=
  let D := diagOf f.2.1
  let tmp : RMat mT mR := Matrix.of fun i j =>
    1 / D (Fin.castLE hT i) * f.2.1 (Fin.castLE (hT.trans (min_le_left _ _)) i) (f.2.2.symm j)
  lowFinish hL (hT.trans (min_le_left _ _)) f.1 (fun i => D (Fin.castLE hT i)) (tmp * T)

/-- `Clcr`, stack.py 366-368 and 429: the first `mL` rows. -/
def clcr {mL mR : Nat} (hL : mL ≤ m) (Dl : Fin m → ℂ) (C : RMat m mR) : RMat mL mR :=
  fun i j => Dl (Fin.castLE hL i) * C (Fin.castLE hL i) j

/-- Overlap and Green's function of the first `mL` rows of `diag(Dl) C T`, stack.py 366-414 and 429-479. -/
noncomputable def lowRows (qr : QRPr) (thresh : ℝ) {mR : Nat} (Dl : Fin m → ℂ) (C : RMat m mR) (T : RMat mR m) (mL : Nat)
    (hL : mL ≤ m) : Option (Out m) :=
  let f := qr mL mR (clcr hL Dl C)
  lowTail hL f T (kept thresh (diagOf f.2.1)) (kept_le _ _)

/-- Overlap and Green's function of `diag(Dl) C T`, stack.py 366-414 and 429-479: the rows kept are the first `mL`, as many
as there are entries of `Dl` above the threshold. -/
noncomputable def lowGreen (qr : QRPr) (thresh : ℝ) {mR : Nat} (Dl : Fin m → ℂ) (C : RMat m mR) (T : RMat mR m) :
    Option (Out m) :=
  lowRows qr thresh Dl C T (kept thresh Dl) (kept_le _ _)

/-- `self.Dl[s] = einsum("i,ii->i", self.Dl[s], self.BTinv[s])`. -/
def nextDl (BTinv : Mat m) (Dl : Fin m → ℂ) : Fin m → ℂ := fun i => Dl i * BTinv i i

/-- `Ccr`, stack.py 347-350 and 425-428, with the first `k` columns. -/
noncomputable def ccr (s : LSt m) (B : Mat m) (k : Nat) (h : k ≤ m) : RMat m k :=
  fun i j => (B * cols h s.Qr) i j * s.Dr (Fin.castLE h j)

/-- The counters after an update, stack.py 487-489. -/
def tick (s : LSt m) : LSt m :=
  { s with
    timeSlice := s.timeSlice + 1
    block := (s.timeSlice + 1) / s.stackSize
    counter := (s.counter + 1) % s.stackSize }

/-- The fields set by `lowGreen`. -/
def LSt.put (s : LSt m) (o : Out m) : LSt m := { s with ovlp := o.ovlp, G := o.G, CT := o.CT, theta := o.theta }

/-- The factors after an update in the middle of a bin, stack.py 418-428. -/
noncomputable def midFactors (BTinv : Mat m) (s : LSt m) (B : Mat m) (k : Nat) (h : k ≤ m) : LSt m :=
  { s with
    Dl := nextDl BTinv s.Dl
    Qr := padCols (B * cols h s.Qr) }

/-- An update in the middle of a bin, stack.py 418-479, with the first `k` columns of the right factor. -/
noncomputable def midUpdate (qr : QRPr) (thresh : ℝ) (BTinv : Mat m) (s : LSt m) (B : Mat m) (k : Nat) (h : k ≤ m) :
    Option (LSt m) :=
  (lowGreen qr thresh (nextDl BTinv s.Dl) (ccr s B k h) (rows h s.Tr)).map (midFactors BTinv s B k h).put

/-- `Dlcr` of the right factor, stack.py 352. -/
def rightDiag {k : Nat} (h : k ≤ m) (R : RMat m k) : Fin k → ℂ := fun i => R (Fin.castLE h i) i

/-- `Tlcr` of the right factor, stack.py 358-361. -/
noncomputable def rightT {k : Nat} (h : k ≤ m) (R : RMat m k) (P : Equiv.Perm (Fin k)) (Tr : Mat m) : RMat k m :=
  (Matrix.of fun i j => 1 / rightDiag h R i * R (Fin.castLE h i) (P.symm j) : RMat k k) * rows h Tr

/-- `einsum('ij,j->ij', Qlcr[:, :mR], Dlcr[:mR])`, stack.py 368. -/
def endC {k : Nat} (h : k ≤ m) (Q : Mat m) (R : RMat m k) : RMat m k := fun i j => cols h Q i j * rightDiag h R j

/-- The factors after an update that ends a bin, stack.py 341-363. -/
noncomputable def endFactors (qr : QRPr) (BTinv : Mat m) (s : LSt m) (B : Mat m) (k : Nat) (h : k ≤ m) : LSt m :=
  let f := qr m k (ccr s B k h)
  { s with
    Dl := nextDl BTinv s.Dl
    Qr := f.1
    Dr := padVec (rightDiag h f.2.1)
    Tr := fun i j => if hi : (i : Nat) < k then rightT h f.2.1 f.2.2 s.Tr ⟨i, hi⟩ j else s.Tr i j }

open Classical in
/-- An update that ends a bin, stack.py 341-416, with the first `k` columns of the right factor.  `none`: division by zero,
which leaves no number in the matrices. -/
noncomputable def endUpdate (qr : QRPr) (thresh : ℝ) (BTinv : Mat m) (s : LSt m) (B : Mat m) (k : Nat) (h : k ≤ m) :
    Option (LSt m) :=
  let f := qr m k (ccr s B k h)
  if ∃ i, rightDiag h f.2.1 i = 0 then none
  else
    (lowGreen qr thresh (nextDl BTinv s.Dl) (endC h f.1 f.2.1)
      (rightT h f.2.1 f.2.2 s.Tr)).map (endFactors qr BTinv s B k h).put

/-- `update_low_rank`, stack.py 326-489, one spin: the columns of the right factor kept are the first ones, as many as there
are entries of `Dr` above the threshold.  At the start of a bin the bin is read (line 333), which is an index
error after the last one. -/
noncomputable def updateLow (qr : QRPr) (thresh : ℝ) (BTinv : Mat m) (s : LSt m) (B : Mat m) : Option (LSt m) :=
  if s.counter = 0 ∧ s.left.length ≤ s.block then none
  else
    (if s.block < (s.timeSlice + 1) / s.stackSize then endUpdate qr thresh BTinv s B (kept thresh s.Dr) (kept_le _ _)
      else midUpdate qr thresh BTinv s B (kept thresh s.Dr) (kept_le _ _)).map tick

/-- `initialize_left`, stack.py 271-285. -/
def initDl (bins : List (Mat m)) : Fin m → ℂ :=
  (bins.drop 1).foldl (fun Dl B i => B i i * Dl i) fun i => (bins.getD 0 0) i i

/-- `set_all` of the low-rank factors, stack.py 245-250. -/
def setLow (st : Stack.St (Fin m) ℂ) (s : LSt m) : LSt m :=
  { s with
    toSt := st
    Dl := initDl st.stack
    Qr := 1
    Dr := fun _ => 1
    Tr := 1 }

/-- A walker with a low-rank stack. -/
structure LWk (m : Nat) where
  weight : ℝ
  phase : ℂ
  ot : ℂ
  G : Fin 2 → Mat m
  M0 : Fin 2 → ℂ
  stack : Fin 2 → LSt m

/-- The stack of a new walker, stack.py 131-192 and walkers/thermal.py 51-64: the Green's function at slice 0, the overlap
is one over its determinant. -/
noncomputable def newLSt (p : Setup m) (st : Stack.St (Fin m) ℂ) : LSt m :=
  let G := gfStrat p.qrp st.stack st.stackSize st.timeSlice
  ⟨st, initDl st.stack, 1, fun _ => 1, 1, 1 / G.det, G, 0, 0⟩

/-- A new walker, walkers/thermal.py 15-64.  `none`: the assertion that the trial density matrix is diagonal (stack.py
145-146), or the stack size does not divide the number of slices. -/
noncomputable def newLow (p : Setup m) (BT : Fin 2 → Mat m) (ss nsl : Nat) (w0 : ℝ) : Option (LWk m) :=
  if p.diag = false then none
  else match Stack.fresh p.diag (BT 0) ss nsl, Stack.fresh p.diag (BT 1) ss nsl with
  | some a, some b =>
    let st : Fin 2 → LSt m := ![newLSt p a, newLSt p b]
    some ⟨w0, 1, 1, fun s => (st s).G, fun s => ((st s).G).det, st⟩
  | _, _ => none

/-- `xbar` of `two_body_propagator`, planewave.py 240-262, from the walker's Green's function. -/
noncomputable def xbarLow (bias : (Fin 2 → Mat m) → Fin nx → ℂ) (w : LWk m) : Fin nx → ℂ :=
  fun i => rescale (bias (rdm w.G) i)

open Classical in
/-- The end of a phaseless low-rank step, planewave.py 548-573: `st` are the updated stacks.  Division by zero sets the
weight to zero.  `none`: logarithm of zero. -/
noncomputable def lowEnd (mfFac cmf cfb : ℂ) (w : LWk m) (st : Fin 2 → LSt m) : Option (LWk m) :=
  let old := fun s => (w.stack s).ovlp
  let new := fun s => (st s).ovlp
  if old 0 * old 1 = 0 then some { w with weight := 0, G := fun s => (st s).G, stack := st }
  else
    let oratio := new 0 * new 1 / (old 0 * old 1)
    if oratio = 0 then none
    else
      let hybrid := Complex.log oratio + cfb + cmf
      let expQ := mfFac * Complex.exp hybrid
      let dtheta := Complex.arg (Complex.exp (hybrid - cfb))
      some ⟨w.weight * (‖expQ‖ * max 0 (Real.cos dtheta)), w.phase, w.ot, fun s => (st s).G, new, st⟩

/-- Both spins of an update. -/
noncomputable def updateBoth (qr : QRPr) (thresh : ℝ) (BTinv : Fin 2 → Mat m) (st : Fin 2 → LSt m) (B : Fin 2 → Mat m) :
    Option (Fin 2 → LSt m) :=
  match updateLow qr thresh (BTinv 0) (st 0) (B 0), updateLow qr thresh (BTinv 1) (st 1) (B 1) with
  | some a, some b => some ![a, b]
  | _, _ => none

/-- `propagate_walker_phaseless_low_rank`, planewave.py 519-573. -/
noncomputable def lowStep (qr : QRPr) (thresh : ℝ) (p : Par nx m) (mfFac : ℂ) (bias : (Fin 2 → Mat m) → Fin nx → ℂ)
    (xi : Fin nx → ℝ) (w : LWk m) : Option (LWk m) :=
  let b := xbarLow bias w
  (updateBoth qr thresh p.BTinv w.stack (sliceOfB p b xi)).bind
    (lowEnd mfFac (cmf p.dt p.tab.mfShift xi b) (cfb xi b) w)

/-- The step `PlaneWave` uses with `low_rank`, planewave.py 64-66 and 71-79; `free` is `free_projection`. -/
noncomputable def lowPropagate (free : Bool) (qr : QRPr) (thresh : ℝ) (p : Par nx m) (mfFac : ℂ)
    (bias : (Fin 2 → Mat m) → Fin nx → ℂ) (xi : Fin nx → ℝ) (w : LWk m) : Option (LWk m) :=
  let propagateFree := lowStep qr thresh p mfFac bias
  let propagatePhaseless := lowStep qr thresh p mfFac bias
  if free then propagateFree xi w else propagatePhaseless xi w

/-- The walker after the slices with the given fields. -/
noncomputable def runLow (qr : QRPr) (thresh : ℝ) (p : Par nx m) (mfFac : ℂ) (bias : (Fin 2 → Mat m) → Fin nx → ℂ) :
    List (Fin nx → ℝ) → LWk m → Option (LWk m)
  | [], w => some w
  | x :: l, w => (lowStep qr thresh p mfFac bias x w).bind (runLow qr thresh p mfFac bias l)

/-- `Walkers.reset`, handler.py 424-430, after a path: the factors are set to the trial density matrix again, weight and
phase are one.  `greens_function` returns the Green's function of the stack (walkers/thermal.py 90-92) and changes nothing;
the overlaps of the stack keep their values. -/
noncomputable def resetLow (p : Setup m) (BT : Fin 2 → Mat m) (w : LWk m) : LWk m :=
  { w with
    weight := 1
    phase := 1
    stack := fun s => setLow ((w.stack s).toSt.reset.setAll p.diag (BT s)) (w.stack s) }

open Classical in
/-- The end of a free low-rank step, planewave.py 428-443: `mid` after the first, `st` after the second update. -/
noncomputable def freeEnd (cmf cfb : ℂ) (w : LWk m) (mid st : Fin 2 → LSt m) : LWk m :=
  let old := fun s => (mid s).ovlp
  let new := fun s => (st s).ovlp
  if old 0 * old 1 = 0 then { w with weight := 0, G := fun s => (st s).G, stack := st }
  else
    let z := Complex.exp (cmf + cfb) * (new 0 * new 1 / (old 0 * old 1))
    ⟨w.weight * ‖z‖, w.phase * Complex.exp (Complex.I * (Complex.arg z : ℂ)), 1, fun s => (st s).G, w.M0, st⟩

/-- `propagate_walker_free_low_rank`, planewave.py 380-443, with `optimised` off: the stack is updated in line 425 and
again in line 429.  No propagator built by the constructor uses it. -/
noncomputable def freeLowStep (qr : QRPr) (thresh : ℝ) (p : Par nx m) (xbar : Fin nx → ℂ) (xi : Fin nx → ℝ) (w : LWk m) :
    Option (LWk m) :=
  let B := sliceOfB p xbar xi
  (updateBoth qr thresh p.BTinv w.stack B).bind fun mid =>
    (updateBoth qr thresh p.BTinv mid B).map
      (freeEnd (cmf p.dt p.tab.mfShift xi xbar) (cfb xi xbar) w mid)

end Verif.LowRank
