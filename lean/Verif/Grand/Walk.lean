import Verif.Grand.Model
import Verif.Grand.Path
import Verif.Thermal.Discrete

/-!
# A walker along a path

The stack of a walker holds the product of the slices and of the trial propagator in the remaining ones; every way of
computing the Green's function gives the inverse of one plus this product, up to a cyclic permutation.  Weight times
phase is multiplied by the ratio of determinants.
-/

namespace Verif.Grand

open Matrix Finset
open Verif.Thermal (Mat QDT rightPart leftPart getBin stratStep stratFirst stratG splitLive gfStrat gfLeftRight IsQRP
  cyclicProduct startBin)
open Verif.Stack (FullInv DiagOk ordered)

variable {nx m : Nat}

/-! ## Bins -/

theorem full_chunks {ss : Nat} (BT : Mat m) (Bs : List (Mat m)) : ∀ k,
    ((List.range k).map fun b => BT ^ (ss - (Stack.slice ss Bs b).length) * ordered (Stack.slice ss Bs b)).reverse.prod =
      BT ^ (k * ss - Bs.length) * ordered (Bs.take (k * ss))
  | 0 => by simp [ordered]
  | k + 1 => by
    rw [List.range_succ, List.map_append, List.reverse_append, List.prod_append, full_chunks BT Bs k]
    simp only [List.map_cons, List.map_nil, List.reverse_singleton, List.prod_singleton]
    have e : ordered (Bs.take ((k + 1) * ss)) = ordered (Stack.slice ss Bs k) * ordered (Bs.take (k * ss)) := by
      rw [Nat.add_mul, Nat.one_mul, List.take_add, ordered, ordered, ordered, List.reverse_append, List.prod_append]
      rfl
    rw [e]
    have hl : (Stack.slice ss Bs k).length = min ss (Bs.length - k * ss) := by
      simp [Stack.slice, List.length_take, List.length_drop]
    rcases Nat.lt_or_ge Bs.length (k * ss) with h | h
    · have h0 : Stack.slice ss Bs k = [] := by
        rw [← List.length_eq_zero_iff, hl]; omega
      have h1 : (k + 1) * ss - Bs.length = ss + (k * ss - Bs.length) := by
        rw [Nat.add_mul, Nat.one_mul]; omega
      rw [h0, h1, pow_add]
      simp [ordered, mul_assoc]
    · have h1 : k * ss - Bs.length = 0 := by omega
      have h2 : (k + 1) * ss - Bs.length = ss - (Stack.slice ss Bs k).length := by
        rw [hl, Nat.add_mul, Nat.one_mul]; omega
      rw [h1, h2, pow_zero, one_mul, mul_assoc]

theorem FullInv.bins {ss nb : Nat} {BT : Mat m} {Bs : List (Mat m)} {st : Stack.St (Fin m) ℂ}
    (h : FullInv ss nb BT Bs st) : st.stack = (List.range nb).map fun b =>
      BT ^ (ss - (Stack.slice ss Bs b).length) * ordered (Stack.slice ss Bs b) := by
  apply List.ext_getElem?
  intro i
  by_cases hi : i < nb
  · rw [h.stack i hi, List.getElem?_map, List.getElem?_range hi]; rfl
  · rw [List.getElem?_eq_none (by rw [h.l1]; omega), List.getElem?_eq_none (by simpa using hi)]

theorem FullInv.total {ss nb : Nat} {BT : Mat m} {Bs : List (Mat m)} {st : Stack.St (Fin m) ℂ}
    (h : FullInv ss nb BT Bs st) (hl : Bs.length ≤ nb * ss) :
    st.stack.reverse.prod = BT ^ (nb * ss - Bs.length) * ordered Bs := by
  rw [FullInv.bins h, full_chunks, List.take_of_length_le hl]

theorem list_det : ∀ l : List (Mat m), (∀ B ∈ l, B.det ≠ 0) → l.prod.det ≠ 0
  | [], _ => by simp
  | B :: l, h => by
    rw [List.prod_cons, det_mul]
    exact mul_ne_zero (h B (by simp)) (list_det l fun C hC => h C (by simp [hC]))

theorem FullInv.bin_det {ss nb : Nat} {BT : Mat m} (hBT : BT.det ≠ 0) {Bs : List (Mat m)} (hB : ∀ B ∈ Bs, B.det ≠ 0)
    {st : Stack.St (Fin m) ℂ} (h : FullInv ss nb BT Bs st) : ∀ B ∈ st.stack, B.det ≠ 0 := by
  rw [FullInv.bins h]
  intro B hm
  obtain ⟨b, -, rfl⟩ := List.mem_map.1 hm
  rw [det_mul, det_pow]
  refine mul_ne_zero (pow_ne_zero _ hBT) (list_det _ fun C hC => hB C ?_)
  exact List.mem_of_mem_drop (List.mem_of_mem_take (List.mem_reverse.1 hC))

/-- Cyclic permutations do not change the determinant. -/
theorem det_cyclic (bins : List (Mat m)) (i : Nat) :
    (1 + cyclicProduct bins i).det = (1 + bins.reverse.prod).det := by
  rw [cyclicProduct, ← List.rotate_mod]
  generalize hj : i % bins.length = j
  by_cases hb : bins.length = 0
  · rw [List.length_eq_zero_iff.1 hb, List.rotate_nil]
  · have hle : j ≤ bins.length := by
      rw [← hj]; exact (Nat.mod_lt _ (Nat.pos_of_ne_zero hb)).le
    rw [List.rotate_eq_drop_append_take hle, List.reverse_append, List.prod_append, det_one_add_mul_comm,
      ← List.prod_append, ← List.reverse_append, List.take_append_drop]

theorem det_strat {qrp : Mat m → Mat m × Mat m × Equiv.Perm (Fin m)}
    (hq : ∀ A, IsQRP A (qrp A).1 (qrp A).2.1 (qrp A).2.2) {bins : List (Mat m)} (hb : bins ≠ [])
    (hd : ∀ B ∈ bins, B.det ≠ 0) (hG : (1 + bins.reverse.prod).det ≠ 0) (ss sl : Nat) :
    (gfStrat qrp bins ss sl).det = ((1 + bins.reverse.prod).det)⁻¹ := by
  have e := det_cyclic bins (startBin bins.length ss sl)
  rw [Thermal.gfStrat_eq qrp hq bins hb hd ss sl (by rw [e]; exact hG), det_nonsing_inv, e, Ring.inverse_eq_inv']

/-! ## The stored parts of the left-right scheme -/

/-- The stored parts are those of the bin `c`, as far as they are used. -/
structure Stored (qrp : Mat m → Mat m × Mat m × Equiv.Perm (Fin m)) (bins : List (Mat m)) (c : Nat)
    (lr : QDT m × (Fin m → ℂ)) : Prop where
  right : 0 < c → lr.1 = rightPart qrp bins c
  left : c < bins.length - 1 → lr.2 = leftPart bins c

theorem stored_compute (qrp : Mat m → Mat m × Mat m × Equiv.Perm (Fin m)) (bins : List (Mat m)) (c : Nat)
    (old : QDT m × (Fin m → ℂ)) : Stored qrp bins c (computeLR qrp bins c old) :=
  ⟨fun h => by rw [computeLR]; exact if_pos h, fun h => by rw [computeLR]; exact if_pos h⟩

theorem getBin_set (bins : List (Mat m)) (c i : Nat) (B : Mat m) (h : c ≠ i) :
    getBin (bins.set c B) i = getBin bins i := by
  rw [getBin, getBin, List.getD_eq_getElem?_getD, List.getD_eq_getElem?_getD, List.getElem?_set_ne h]

/-- Changing the bin itself does not matter. -/
theorem Stored.set {qrp : Mat m → Mat m × Mat m × Equiv.Perm (Fin m)} {bins : List (Mat m)} {c : Nat}
    {lr : QDT m × (Fin m → ℂ)} (h : Stored qrp bins c lr) (B : Mat m) : Stored qrp (bins.set c B) c lr := by
  constructor
  · intro hc
    rw [h.right hc, rightPart, rightPart, getBin_set _ _ _ _ hc.ne']
    congr 1
    refine List.map_congr_left fun i hi => (getBin_set _ _ _ _ ?_).symm
    rw [List.mem_range] at hi
    omega
  · intro hc
    rw [List.length_set] at hc
    rw [h.left hc, leftPart, leftPart, List.length_set]
    congr 1
    · funext i
      rw [getBin_set _ _ _ _ (by omega)]
    · refine List.map_congr_left fun i _ => (getBin_set _ _ _ _ ?_).symm
      omega

theorem Stored.green {qrp : Mat m → Mat m × Mat m × Equiv.Perm (Fin m)} {bins : List (Mat m)} {c : Nat}
    {lr : QDT m × (Fin m → ℂ)} (h : Stored qrp bins c lr) : gfStored qrp lr bins c = gfLeftRight qrp bins c := by
  have e : ∀ s : QDT m, (if c < bins.length - 1 then stratStep qrp s (diagonal lr.2) else s) =
      if c < bins.length - 1 then stratStep qrp s (diagonal (leftPart bins c)) else s := by
    intro s
    split_ifs with hc
    · rw [h.left hc]
    · rfl
  have e2 : (if 0 < c then stratStep qrp lr.1 (getBin bins c) else stratFirst qrp (getBin bins c)) =
      if 0 < c then stratStep qrp (rightPart qrp bins c) (getBin bins c) else stratFirst qrp (getBin bins c) := by
    split_ifs with hc
    · rw [h.right hc]
    · rfl
  simp only [gfStored, gfLeftRight, e, e2]

/-! ## One step -/

/-- What is assumed of the parameters: factorisations by `qr`, the inverse of the trial propagator, diagonal matrices
where the code reads only diagonals. -/
structure SetupOk (p : Setup m) (BT : Fin 2 → Mat m) (ss : Nat) : Prop where
  qr : ∀ A, IsQRP A (p.qrp A).1 (p.qrp A).2.1 (p.qrp A).2.2
  pos : 0 < ss
  inv : ∀ s, BT s * p.BTinv s = 1
  diagT : ∀ s, DiagOk p.diag (BT s)
  diagI : ∀ s, DiagOk p.diag (p.BTinv s)
  left : p.scheme = .leftRight → ∀ s, ∃ d, BT s = diagonal d

/-- With continuous fields: where only the diagonals of the one-body propagator are read it is diagonal. -/
structure ParOk (p : Par nx m) (BT : Fin 2 → Mat m) (ss : Nat) : Prop extends SetupOk p.toSetup BT ss where
  one : p.scheme ≠ .current → ∀ s, ∃ d, p.tab.BH1 s = diagonal d

theorem SetupOk.det {p : Setup m} {BT : Fin 2 → Mat m} {ss : Nat} (h : SetupOk p BT ss) (s : Fin 2) : (BT s).det ≠ 0 := by
  intro h0
  have := congrArg Matrix.det (h.inv s)
  rw [det_mul, h0, zero_mul, det_one] at this
  exact zero_ne_one this

theorem noBias_eq : (noBias : Fin nx → ℂ) = fun _ => 0 := by
  funext i
  simp [noBias, Weights.rescale]

theorem slab_eq (sch : Scheme) {BH1 : Mat m} (BV : Mat m) (h : sch ≠ .current → ∃ d, BH1 = diagonal d) :
    slab sch BH1 BV = BH1 * (BV * BH1) := by
  have key : sch ≠ .current → (Matrix.of fun i j => BH1 i i * (BV i j * BH1 j j)) = BH1 * (BV * BH1) := by
    intro hs
    obtain ⟨d, rfl⟩ := h hs
    ext i j
    rw [diagonal_mul, mul_diagonal]
    simp
  cases sch with
  | current => rfl
  | total => exact key (by simp)
  | leftRight => exact key (by simp)

theorem updateFull_stack {diag : Bool} {BTinv B : Mat m} {st st' : Stack.St (Fin m) ℂ}
    (h : st.updateFull diag BTinv B = some st') : ∃ X, st'.stack = st.stack.set st.block X := by
  unfold Stack.St.updateFull at h
  split at h
  · rw [← Option.some_inj.1 h]
    exact ⟨_, rfl⟩
  · exact absurd h (by simp)

/-- The Green's function of every scheme is the inverse of one plus the product of the bins in some cyclic order. -/
theorem green_inv {sch : Scheme} {qrp : Mat m → Mat m × Mat m × Equiv.Perm (Fin m)}
    (hq : ∀ A, IsQRP A (qrp A).1 (qrp A).2.1 (qrp A).2.2) {ss nb : Nat} (hnb : 0 < nb) {BT : Mat m} (hBT : BT.det ≠ 0)
    {Bs : List (Mat m)} (hB : ∀ B ∈ Bs, B.det ≠ 0) {st : Stack.St (Fin m) ℂ} (h : FullInv ss nb BT Bs st)
    (hl : Bs.length ≤ nb * ss) (lr : QDT m × (Fin m → ℂ)) (c : Nat)
    (hlr : sch = .leftRight → (∃ d, BT = diagonal d) ∧ Stored qrp st.stack c lr ∧ c < nb ∧ Bs.length ≤ (c + 1) * ss)
    (hG : (1 + BT ^ (nb * ss - Bs.length) * ordered Bs).det ≠ 0) :
    ∃ i, green sch qrp lr st c = (1 + cyclicProduct st.stack i)⁻¹ := by
  have hne : st.stack ≠ [] := by
    intro h0
    have := h.l1
    rw [h0] at this
    simp at this
    omega
  have hd := FullInv.bin_det hBT hB h
  rw [← FullInv.total h hl] at hG
  cases sch with
  | current => exact ⟨_, Thermal.gfStrat_eq qrp hq st.stack hne hd _ _ (by rw [det_cyclic]; exact hG)⟩
  | total => exact ⟨_, Thermal.gfStrat_eq qrp hq st.stack hne hd _ _ (by rw [det_cyclic]; exact hG)⟩
  | leftRight =>
    obtain ⟨⟨d, hdiag⟩, hs, hc, hcl⟩ := hlr rfl
    refine ⟨0, ?_⟩
    show gfStored qrp lr st.stack c = _
    rw [Thermal.cyclicProduct_zero, hs.green,
      Thermal.gfLeftRight_eq qrp hq st.stack c (by rw [h.l1]; exact hc) hd ?_ hG]
    intro B hBm
    obtain ⟨i, hi, rfl⟩ := List.mem_iff_getElem.1 hBm
    rw [List.getElem_drop]
    have hi' : c + 1 + i < nb := by
      rw [List.length_drop, h.l1] at hi; omega
    have h1 := h.stack _ hi'
    rw [List.getElem?_eq_getElem (by rw [h.l1]; exact hi'), Option.some_inj] at h1
    rw [h1]
    have h0 : Stack.slice ss Bs (c + 1 + i) = [] := by
      unfold Stack.slice
      rw [List.drop_eq_nil_of_le, List.take_nil]
      exact hcl.trans (Nat.mul_le_mul_right _ (by omega))
    rw [h0, hdiag]
    refine ⟨d ^ ss, ?_⟩
    simp [ordered, diagonal_pow]

/-- The determinant of the Green's function of every scheme. -/
theorem det_green {sch : Scheme} {qrp : Mat m → Mat m × Mat m × Equiv.Perm (Fin m)}
    (hq : ∀ A, IsQRP A (qrp A).1 (qrp A).2.1 (qrp A).2.2) {ss nb : Nat} (hnb : 0 < nb) {BT : Mat m} (hBT : BT.det ≠ 0)
    {Bs : List (Mat m)} (hB : ∀ B ∈ Bs, B.det ≠ 0) {st : Stack.St (Fin m) ℂ} (h : FullInv ss nb BT Bs st)
    (hl : Bs.length ≤ nb * ss) (lr : QDT m × (Fin m → ℂ)) (c : Nat)
    (hlr : sch = .leftRight → (∃ d, BT = diagonal d) ∧ Stored qrp st.stack c lr ∧ c < nb ∧ Bs.length ≤ (c + 1) * ss)
    (hG : (1 + BT ^ (nb * ss - Bs.length) * ordered Bs).det ≠ 0) :
    (green sch qrp lr st c).det = ((1 + BT ^ (nb * ss - Bs.length) * ordered Bs).det)⁻¹ := by
  obtain ⟨i, hi⟩ := green_inv hq hnb hBT hB h hl lr c hlr hG
  rw [hi, det_nonsing_inv, det_cyclic, Ring.inverse_eq_inv', FullInv.total h hl]

/-- A walker after `j` slices `Bs`. -/
structure WalkInv (p : Setup m) (BT : Fin 2 → Mat m) (ss nb j : Nat) (Bs : Fin 2 → List (Mat m)) (w : TWk m) : Prop where
  len : ∀ s, (Bs s).length = j
  full : ∀ s, FullInv ss nb (BT s) (Bs s) (w.stack s)
  det : ∀ s, ∀ B ∈ Bs s, B.det ≠ 0
  ot : w.ot = 1
  stored : p.scheme = .leftRight → j % ss ≠ 0 → ∀ s, Stored p.qrp (w.stack s).stack (j / ss) (w.lr s)

theorem polar_mul (a : ℝ) (b z : ℂ) :
    ((a * ‖z‖ : ℝ) : ℂ) * (b * Complex.exp (Complex.I * (Complex.arg z : ℂ))) = a * b * z := by
  have := Complex.norm_mul_exp_arg_mul_I z
  rw [mul_comm Complex.I]
  push_cast
  linear_combination (a * b : ℂ) * this

/-- One step: the stacks receive the slice, weight times phase is multiplied by the scalar factor and the ratio of
determinants. -/
theorem stepWith_full {p : Setup m} {BT : Fin 2 → Mat m} {ss nb j : Nat} (ok : SetupOk p BT ss) {Bs : Fin 2 → List (Mat m)}
    {w : TWk m} (h : WalkInv p BT ss nb j Bs w) (hj : j < nb * ss)
    (hC : ∀ s, (1 + BT s ^ (nb * ss - j) * ordered (Bs s)).det ≠ 0) (x : ℂ) (B : Fin 2 → Mat m)
    (hB : ∀ s, (B s).det ≠ 0)
    (hC' : ∀ s, (1 + BT s ^ (nb * ss - (j + 1)) * (B s * ordered (Bs s))).det ≠ 0) :
    ∃ w', stepWith p x B w = some w' ∧ WalkInv p BT ss nb (j + 1) (fun s => Bs s ++ [B s]) w' ∧
      (w'.weight : ℂ) * w'.phase = w.weight * w.phase * (x *
        (((1 + BT 0 ^ (nb * ss - (j + 1)) * (B 0 * ordered (Bs 0))).det *
          (1 + BT 1 ^ (nb * ss - (j + 1)) * (B 1 * ordered (Bs 1))).det) /
        ((1 + BT 0 ^ (nb * ss - j) * ordered (Bs 0)).det * (1 + BT 1 ^ (nb * ss - j) * ordered (Bs 1)).det))) ∧
      ∀ s, (w'.G s).det = ((1 + BT s ^ (nb * ss - (j + 1)) * (B s * ordered (Bs s))).det)⁻¹ ∧
        ∃ i, w'.G s = (1 + cyclicProduct (w'.stack s).stack i)⁻¹ := by
  have hnb : 0 < nb := by
    rcases Nat.eq_zero_or_pos nb with rfl | h0
    · simp at hj
    · exact h0
  have hblk : j / ss < nb := (Nat.div_lt_iff_lt_mul ok.pos).2 hj
  have hjs : j + 1 ≤ (j / ss + 1) * ss := by
    have h1 := Nat.div_add_mod j ss
    have h2 := Nat.mod_lt j ok.pos
    rw [Nat.add_mul, Nat.one_mul, Nat.mul_comm (j / ss)]
    omega
  have hcur : (w.stack 0).timeSlice / (w.stack 0).stackSize = j / ss := by
    rw [(h.full 0).ts, (h.full 0).size, h.len]
  have hcnt : (w.stack 0).counter = j % ss := by rw [(h.full 0).cnt, h.len]
  obtain ⟨a, ha, ha'⟩ := Stack.full_step ok.pos (ok.diagT 0) (ok.diagI 0) (ok.inv 0) (h.full 0)
    (by rw [h.len]; exact hj) (B 0)
  obtain ⟨b, hb, hb'⟩ := Stack.full_step ok.pos (ok.diagT 1) (ok.diagI 1) (ok.inv 1) (h.full 1)
    (by rw [h.len]; exact hj) (B 1)
  have hab : ∀ s, FullInv ss nb (BT s) (Bs s ++ [B s]) ((![a, b] : Fin 2 → Stack.St (Fin m) ℂ) s) := by
    rw [Fin.forall_fin_two]; exact ⟨ha', hb'⟩
  have hset : ∀ s, ∃ X, ((![a, b] : Fin 2 → Stack.St (Fin m) ℂ) s).stack = (w.stack s).stack.set (j / ss) X := by
    rw [Fin.forall_fin_two]
    constructor
    · have := updateFull_stack ha
      rwa [(h.full 0).blk, h.len] at this
    · have := updateFull_stack hb
      rwa [(h.full 1).blk, h.len] at this
  -- the stored parts
  have hst : p.scheme = .leftRight → ∀ s, Stored p.qrp (w.stack s).stack (j / ss) (partsOf p w s) := by
    intro hs s
    rw [partsOf, hcur, hcnt]
    by_cases h0 : j % ss = 0
    · rw [if_pos ⟨hs, h0⟩]
      exact stored_compute _ _ _ _
    · rw [if_neg fun h => h0 h.2]
      exact h.stored hs h0 s
  have hst' : p.scheme = .leftRight → ∀ s, Stored p.qrp ((![a, b] : Fin 2 → Stack.St (Fin m) ℂ) s).stack (j / ss) (partsOf p w s) := by
    intro hs s
    obtain ⟨X, hX⟩ := hset s
    rw [hX]
    exact (hst hs s).set X
  have hd0 : ∀ s, (green p.scheme p.qrp (partsOf p w s) (w.stack s) (j / ss)).det =
      ((1 + BT s ^ (nb * ss - j) * ordered (Bs s)).det)⁻¹ := by
    intro s
    have := det_green (sch := p.scheme) ok.qr hnb (ok.det s) (h.det s) (h.full s) (by rw [h.len]; omega) (partsOf p w s) (j / ss)
      (fun hs => ⟨ok.left hs s, hst hs s, hblk, by rw [h.len]; omega⟩) (by rw [h.len]; exact hC s)
    rwa [h.len] at this
  have hBs : ∀ s, ∀ C ∈ Bs s ++ [B s], C.det ≠ 0 := by
    intro s C hm
    rcases List.mem_append.1 hm with hm | hm
    · exact h.det s C hm
    · rw [List.mem_singleton.1 hm]; exact hB s
  have hlen : ∀ s, (Bs s ++ [B s]).length = j + 1 := by
    intro s; rw [List.length_append, h.len]; rfl
  have hd1 : ∀ s, (green p.scheme p.qrp (partsOf p w s) ((![a, b] : Fin 2 → Stack.St (Fin m) ℂ) s) (j / ss)).det =
      ((1 + BT s ^ (nb * ss - (j + 1)) * (B s * ordered (Bs s))).det)⁻¹ := by
    intro s
    have := det_green (sch := p.scheme) ok.qr hnb (ok.det s) (hBs s) (hab s) (by rw [hlen]; omega) (partsOf p w s) (j / ss)
      (fun hs => ⟨ok.left hs s, hst' hs s, hblk, by rw [hlen]; omega⟩)
      (by rw [hlen, Stack.ordered_append]; exact hC' s)
    rwa [hlen, Stack.ordered_append] at this
  have hd2 : ∀ s, ∃ i, green p.scheme p.qrp (partsOf p w s) ((![a, b] : Fin 2 → Stack.St (Fin m) ℂ) s) (j / ss) =
      (1 + cyclicProduct ((![a, b] : Fin 2 → Stack.St (Fin m) ℂ) s).stack i)⁻¹ := by
    intro s
    exact green_inv (sch := p.scheme) ok.qr hnb (ok.det s) (hBs s) (hab s) (by rw [hlen]; omega) (partsOf p w s) (j / ss)
      (fun hs => ⟨ok.left hs s, hst' hs s, hblk, by rw [hlen]; omega⟩)
      (by rw [hlen, Stack.ordered_append]; exact hC' s)
  have hM1 : (green p.scheme p.qrp (partsOf p w 0) ((![a, b] : Fin 2 → Stack.St (Fin m) ℂ) 0) (j / ss)).det *
      (green p.scheme p.qrp (partsOf p w 1) ((![a, b] : Fin 2 → Stack.St (Fin m) ℂ) 1) (j / ss)).det ≠ 0 := by
    rw [hd1, hd1]
    exact mul_ne_zero (inv_ne_zero (hC' 0)) (inv_ne_zero (hC' 1))
  refine ⟨finish p w x ![a, b], ?_, ?_⟩
  · unfold stepWith
    rw [ha, hb]
  unfold finish
  rw [hcur]
  simp only
  rw [if_neg hM1]
  refine ⟨⟨hlen, hab, hBs, rfl, ?_⟩, ?_, fun s => ⟨hd1 s, hd2 s⟩⟩
  · intro hs h0 s
    have e : (j + 1) / ss = j / ss := by
      rw [Nat.add_div ok.pos]
      have h1 : ss = 1 ∨ 1 < ss := by have := ok.pos; omega
      rcases h1 with h1 | h1
      · rw [h1, Nat.mod_one] at h0; exact absurd rfl h0
      · rw [Nat.div_eq_of_lt h1, Nat.mod_eq_of_lt h1, if_neg, Nat.add_zero]
        intro h2
        apply h0
        rw [Nat.add_mod, Nat.mod_eq_of_lt h1]
        have h3 := Nat.mod_lt j ok.pos
        have : j % ss + 1 = ss := by omega
        rw [this, Nat.mod_self]
    rw [e]
    exact hst' hs s
  · show ((w.weight * ‖_‖ : ℝ) : ℂ) * (w.phase * _) = _
    rw [polar_mul]
    congr 1
    rw [hd0, hd0, hd1, hd1]
    congr 1
    rw [← mul_inv, ← mul_inv, inv_div_inv]

theorem stepWith_ok {p : Setup m} {BT : Fin 2 → Mat m} {ss nb j : Nat} (ok : SetupOk p BT ss) {Bs : Fin 2 → List (Mat m)}
    {w : TWk m} (h : WalkInv p BT ss nb j Bs w) (hj : j < nb * ss)
    (hC : ∀ s, (1 + BT s ^ (nb * ss - j) * ordered (Bs s)).det ≠ 0) (x : ℂ) (B : Fin 2 → Mat m)
    (hB : ∀ s, (B s).det ≠ 0)
    (hC' : ∀ s, (1 + BT s ^ (nb * ss - (j + 1)) * (B s * ordered (Bs s))).det ≠ 0) :
    ∃ w', stepWith p x B w = some w' ∧ WalkInv p BT ss nb (j + 1) (fun s => Bs s ++ [B s]) w' ∧
      (w'.weight : ℂ) * w'.phase = w.weight * w.phase * (x *
        (((1 + BT 0 ^ (nb * ss - (j + 1)) * (B 0 * ordered (Bs 0))).det *
          (1 + BT 1 ^ (nb * ss - (j + 1)) * (B 1 * ordered (Bs 1))).det) /
        ((1 + BT 0 ^ (nb * ss - j) * ordered (Bs 0)).det * (1 + BT 1 ^ (nb * ss - j) * ordered (Bs 1)).det))) := by
  obtain ⟨w', h1, h2, h3, -⟩ := stepWith_full ok h hj hC x B hB hC'
  exact ⟨w', h1, h2, h3⟩

theorem freeStep_ok {p : Par nx m} {BT : Fin 2 → Mat m} {ss nb j : Nat} (ok : ParOk p BT ss) {Bs : Fin 2 → List (Mat m)}
    {w : TWk m} (h : WalkInv p.toSetup BT ss nb j Bs w) (hj : j < nb * ss)
    (hC : ∀ s, (1 + BT s ^ (nb * ss - j) * ordered (Bs s)).det ≠ 0) (xi : Fin nx → ℝ)
    (hB : ∀ s, (sliceOf p xi s).det ≠ 0)
    (hC' : ∀ s, (1 + BT s ^ (nb * ss - (j + 1)) * (sliceOf p xi s * ordered (Bs s))).det ≠ 0) :
    ∃ w', freeStep p xi w = some w' ∧ WalkInv p.toSetup BT ss nb (j + 1) (fun s => Bs s ++ [sliceOf p xi s]) w' ∧
      (w'.weight : ℂ) * w'.phase = w.weight * w.phase * (Complex.exp (Weights.cmf p.dt p.tab.mfShift xi noBias) *
        (((1 + BT 0 ^ (nb * ss - (j + 1)) * (sliceOf p xi 0 * ordered (Bs 0))).det *
          (1 + BT 1 ^ (nb * ss - (j + 1)) * (sliceOf p xi 1 * ordered (Bs 1))).det) /
        ((1 + BT 0 ^ (nb * ss - j) * ordered (Bs 0)).det * (1 + BT 1 ^ (nb * ss - j) * ordered (Bs 1)).det))) := by
  have hfb : Weights.cfb xi (noBias : Fin nx → ℂ) = 0 := by
    rw [noBias_eq]; simp [Weights.cfb]
  have := stepWith_ok ok.toSetupOk h hj hC
    (Complex.exp (Weights.cmf p.dt p.tab.mfShift xi noBias + Weights.cfb xi noBias)) (sliceOf p xi) hB hC'
  rw [hfb, add_zero] at this
  rw [freeStep, hfb, add_zero]
  exact this

end Verif.Grand
