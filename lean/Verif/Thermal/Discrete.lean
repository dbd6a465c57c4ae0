import Verif.Thermal.DiscreteModel
import Verif.Thermal.Props
import Verif.Util.RankOne
import Verif.Util.StepIntegral

/-!
# Thermal propagation with discrete fields: properties C21, C65
-/

namespace Verif.Thermal

open Matrix

variable {n : Nat}

/-! ## C21: one site -/

/-- `A` with row `i` multiplied by `a`. -/
def scaleRow (i : Fin n) (a : ℂ) (A : Mat n) : Mat n := fun j k => if j = i then a * A j k else A j k

theorem scaleRow_eq (i : Fin n) (a : ℂ) (A : Mat n) :
    1 + scaleRow i a A = (1 + A) + vecMulVec (Pi.single i (a - 1)) (A i) := by
  ext j k
  simp only [Matrix.add_apply, scaleRow, vecMulVec_apply, Pi.single_apply]
  split_ifs with h
  · subst h; ring
  · simp

theorem mul_green {A : Mat n} (h : (1 + A).det ≠ 0) : A * (1 + A)⁻¹ = 1 - (1 + A)⁻¹ := by
  have := Matrix.mul_nonsing_inv _ (isUnit_iff_ne_zero.2 h)
  rw [add_mul, one_mul] at this
  exact eq_sub_of_add_eq' this

theorem site_dot {A : Mat n} (h : (1 + A).det ≠ 0) (i : Fin n) (δ : ℂ) :
    1 + A i ⬝ᵥ ((1 + A)⁻¹ *ᵥ Pi.single i δ) = 1 + (1 - (1 + A)⁻¹ i i) * δ := by
  have h1 : A i ⬝ᵥ ((1 + A)⁻¹ *ᵥ Pi.single i δ) = (A * (1 + A)⁻¹) i i * δ := by
    rw [mulVec_single, Matrix.mul_apply, Finset.sum_mul, dotProduct]
    refine Finset.sum_congr rfl fun k _ => ?_
    simp [mul_assoc]
  rw [h1, mul_green h]; simp

theorem det_site {A : Mat n} (h : (1 + A).det ≠ 0) (i : Fin n) (a : ℂ) :
    (1 + scaleRow i a A).det = (1 + A).det * (1 + (1 - (1 + A)⁻¹ i i) * (a - 1)) := by
  rw [scaleRow_eq, RankOne.det_add _ h, site_dot h]

theorem updG_site {A : Mat n} (h : (1 + A).det ≠ 0) (i : Fin n) (a : ℂ)
    (hd : 1 + (1 - (1 + A)⁻¹ i i) * (a - 1) ≠ 0) :
    updG (a - 1) (1 + A)⁻¹ i = (1 + scaleRow i a A)⁻¹ := by
  rw [scaleRow_eq, RankOne.inv_add _ h _ _ (by rw [site_dot h]; exact hd), site_dot h]
  have hv : A i ᵥ* (1 + A)⁻¹ = (A * (1 + A)⁻¹) i := rfl
  rw [hv, mul_green h]
  ext j k
  simp only [updG, Matrix.sub_apply, Matrix.smul_apply, vecMulVec_apply, mulVec_single, smul_eq_mul,
    one_apply]
  have e : (if k = i then (1 : ℂ) else 0) = if i = k then 1 else 0 := by
    by_cases hk : k = i
    · subst hk; simp
    · simp [hk, Ne.symm hk]
  rw [e]
  simp
  ring

/-- C21 (a): with `G = (1 + A)⁻¹` for both spins, the overlap ratio for field `xi` at site `i` is
half the ratio of `det(1 + A')` to `det(1 + A)` multiplied over the spins, where `A'` is `A` with
row `i` multiplied by the auxiliary factor. -/
theorem thermal_ratio (p : Params n) (A : Fin 2 → Mat n) (hA : ∀ s, (1 + A s).det ≠ 0)
    (i : Fin n) (xi : Fin 2) :
    ratio p (fun s => (1 + A s)⁻¹) i xi =
      1 / 2 * ∏ s, (1 + scaleRow i (p.auxf xi s) (A s)).det / (1 + A s).det := by
  rw [Fin.prod_univ_two, det_site (hA 0), det_site (hA 1)]
  rw [mul_div_cancel_left₀ _ (hA 0), mul_div_cancel_left₀ _ (hA 1)]
  rfl

/-- C21 (b): if the ratio is not zero the updated Green's functions are those of the new product. -/
theorem thermal_site_update (p : Params n) (A : Fin 2 → Mat n) (hA : ∀ s, (1 + A s).det ≠ 0)
    (i : Fin n) (xi : Fin 2) (hr : ratio p (fun s => (1 + A s)⁻¹) i xi ≠ 0) (s : Fin 2) :
    (1 + scaleRow i (p.auxf xi s) (A s)).det ≠ 0 ∧
    updG (p.delta xi s) (1 + A s)⁻¹ i = (1 + scaleRow i (p.auxf xi s) (A s))⁻¹ := by
  have h2 : ∀ s, 1 + (1 - (1 + A s)⁻¹ i i) * (p.auxf xi s - 1) ≠ 0 := by
    intro s h0
    apply hr
    unfold ratio Params.delta
    revert s
    rw [Fin.forall_fin_two]
    constructor <;> intro h0 <;> simp [h0]
  refine ⟨?_, updG_site (hA s) i _ (h2 s)⟩
  rw [det_site (hA s)]
  exact mul_ne_zero (hA s) (h2 s)

/-- A site with both fields allowed, for the hypotheses of C21. -/
example : ∃ (p : Params 1) (A : Fin 2 → Mat 1), (∀ s, (1 + A s).det ≠ 0) ∧
    ∀ xi, ratio p (fun s => (1 + A s)⁻¹) 0 xi ≠ 0 := by
  refine ⟨⟨![![2, 1/2], ![1/2, 2]], fun _ => 1, fun _ => 1, fun _ => 1, fun _ => (1, 1, 1), 1, 0⟩,
    fun _ => 1, ?_, ?_⟩
  · intro s; simp
  · intro xi
    have : ((1 : Mat 1) + 1)⁻¹ = Matrix.of fun _ _ => 1 / 2 := by
      refine Matrix.inv_eq_right_inv ?_
      ext i j
      fin_cases i; fin_cases j
      rw [Matrix.mul_apply]
      simp; norm_num
    simp only [this]
    fin_cases xi <;> simp [ratio, Params.delta] <;> norm_num

/-! ## C66: sampling of a field -/

/-- C66: averaged over the uniform random number, the weight that ends up with field `xi` is the
old weight times the real part of the overlap ratio of `xi` (zero if negative) and the factor of
the energy shift. -/
theorem thermal_site_sampling (p : Params n) (w : Wk n) (i : Fin n) (f : Fin 2 → ℝ) :
    ∫ r in (0 : ℝ)..1, (siteStep p (fun _ => r) w i).weight * f (choose p w.G i r) =
      ∑ xi, w.weight * Real.exp p.eshift * max (ratio p w.G i xi).re 0 * f xi := by
  rw [Fin.sum_univ_two]
  set a := max (ratio p w.G i 0).re 0 with ha'
  set b := max (ratio p w.G i 1).re 0 with hb'
  have ha : 0 ≤ a := le_max_right _ _
  have hb : 0 ≤ b := le_max_right _ _
  by_cases hn : 0 < a + b
  · have e : ∀ r, (siteStep p (fun _ => r) w i).weight * f (choose p w.G i r) =
        if r < a / (a + b) then w.weight * (a + b) * Real.exp p.eshift * f 0
          else w.weight * (a + b) * Real.exp p.eshift * f 1 := by
      intro r
      unfold siteStep choose
      simp only [← ha', ← hb', if_pos hn]
      split_ifs <;> rfl
    simp only [e]
    rw [StepIntegral.integral_step _ _ _ (by positivity) (by rw [div_le_one hn]; linarith)]
    field_simp
    ring
  · have h0 : a = 0 := by linarith
    have h1 : b = 0 := by linarith
    have e : ∀ r, (siteStep p (fun _ => r) w i).weight * f (choose p w.G i r) = 0 := by
      intro r
      unfold siteStep
      simp only [← ha', ← hb', if_neg hn, zero_mul]
    simp [e, h0, h1]

example : ∃ (p : Params 1) (w : Wk 1), 0 < (ratio p w.G 0 0).re ∧ 0 < (ratio p w.G 0 1).re := by
  refine ⟨⟨![![2, 1/2], ![1/2, 2]], fun _ => 1, fun _ => 1, fun _ => 1, fun _ => (1, 1, 1), 1, 0⟩,
    ⟨1, fun _ => 0, fun _ => Stack.blank 1 1 1, fun _ _ => 0⟩, ?_, ?_⟩ <;>
  simp [ratio, Params.delta]

/-! ## C65: the stabilisation frequency of a thermal Hubbard run -/

/-- C65: whatever positive frequency is requested, the run uses the stack size. -/
theorem adjustNstblz_eq (fuel nstblz stackSize : Nat) (h0 : 0 < nstblz) (hs : 0 < stackSize)
    (hf : stackSize ≤ fuel) : adjustNstblz fuel nstblz stackSize = some stackSize := by
  unfold adjustNstblz
  rw [if_neg (by omega)]
  by_cases h1 : stackSize % nstblz ≠ 0 ∨ nstblz < stackSize
  · rw [if_pos h1]
    split_ifs with h2
    · rfl
    · obtain ⟨r, hr, hd, hn⟩ := Stack.updateStack_nearest nstblz stackSize h0 hs
      rw [hr fuel hf]
      have h3 := (hn stackSize (dvd_refl _)).1
      have h4 := Nat.le_of_dvd hs hd
      have : r = stackSize := by
        rw [abs_of_nonneg (by omega), abs_of_nonneg (by omega)] at h3
        omega
      simp [this]
  · rw [if_neg h1]
    push Not at h1
    have := Nat.dvd_of_mod_eq_zero h1.1
    have := Nat.le_of_dvd hs this
    congr 1; omega

example : adjustNstblz 10 7 10 = some 10 ∧ adjustNstblz 10 15 10 = some 10 := ⟨rfl, by decide⟩

/-! ## C21: the whole path -/

/-- The one-slice propagator for given fields. -/
noncomputable def slicePropagator (p : Params n) (x : Fin n → Fin 2) (s : Fin 2) : Mat n :=
  diagonal (fun j => p.auxf (x j) s) * p.BT s

/-- The product of the slices so far, later ones to the left. -/
noncomputable def pathProduct (p : Params n) (xs : List (Fin n → Fin 2)) (s : Fin 2) : Mat n :=
  (xs.map (fun x => slicePropagator p x s)).reverse.prod

theorem choose_ratio (p : Params n) (G : Fin 2 → Mat n) (i : Fin n) (r : ℝ)
    (hr : 0 ≤ r) (hr1 : r < 1)
    (hn : 0 < max (ratio p G i 0).re 0 + max (ratio p G i 1).re 0) :
    ratio p G i (choose p G i r) ≠ 0 := by
  have hpos : ∀ z : ℂ, 0 < max z.re 0 → z ≠ 0 := by
    rintro z hz rfl
    simp at hz
  unfold choose
  set a := max (ratio p G i 0).re 0
  set b := max (ratio p G i 1).re 0
  have ha : 0 ≤ a := le_max_right _ _
  have hb : 0 ≤ b := le_max_right _ _
  split_ifs with h
  · apply hpos
    by_contra hna
    have ha0 : a = 0 := le_antisymm (not_lt.1 hna) ha
    rw [ha0, zero_div] at h
    linarith
  · apply hpos
    by_contra hnb
    have hb0 : b = 0 := le_antisymm (not_lt.1 hnb) hb
    rw [hb0, add_zero] at h hn
    rw [div_self hn.ne'] at h
    exact h hr1

theorem siteStep_weight (p : Params n) (rs : Fin n → ℝ) (w : Wk n) (i : Fin n)
    (h : (siteStep p rs w i).weight ≠ 0) : w.weight ≠ 0 := by
  intro h0
  apply h
  unfold siteStep
  simp only
  split_ifs
  · simp [h0]
  · rfl

theorem siteStep_stack (p : Params n) (rs : Fin n → ℝ) (w : Wk n) (i : Fin n) :
    (siteStep p rs w i).stack = w.stack := by
  unfold siteStep
  simp only
  split_ifs <;> rfl

/-- State of a live walker after the sites `done`. -/
structure SiteInv (p : Params n) (A : Fin 2 → Mat n) (x : Fin n → Fin 2) (done : List (Fin n))
    (w : Wk n) : Prop where
  field : ∀ j ∈ done, ∀ s, w.BV s j = p.auxf (x j) s
  det : ∀ s, (1 + diagonal (fun j => if j ∈ done then p.auxf (x j) s else 1) * A s).det ≠ 0
  green : ∀ s, w.G s =
    (1 + diagonal (fun j => if j ∈ done then p.auxf (x j) s else 1) * A s)⁻¹

theorem sweep_inv (p : Params n) (rs : Fin n → ℝ) (hr : ∀ i, 0 ≤ rs i ∧ rs i < 1)
    (A : Fin 2 → Mat n) : ∀ (todo done : List (Fin n)) (w : Wk n), (done ++ todo).Nodup →
    (w.weight ≠ 0 → ∃ x, SiteInv p A x done w) →
    ((todo.foldl (siteStep p rs) w).weight ≠ 0 →
      ∃ x, SiteInv p A x (done ++ todo) (todo.foldl (siteStep p rs) w)) ∧
    (todo.foldl (siteStep p rs) w).stack = w.stack ∧
    ((todo.foldl (siteStep p rs) w).weight ≠ 0 → w.weight ≠ 0)
  | [], done, w, _, h => by simpa using h
  | i :: todo, done, w, hnd, h => by
    have hstep : (siteStep p rs w i).weight ≠ 0 →
        ∃ x, SiteInv p A x (done ++ [i]) (siteStep p rs w i) := by
      intro hw
      have hw0 := siteStep_weight p rs w i hw
      obtain ⟨x, hx⟩ := h hw0
      have hi : i ∉ done := by
        intro hmem
        rw [List.nodup_append] at hnd
        exact hnd.2.2 i hmem i (by simp) rfl
      unfold siteStep at hw ⊢
      simp only at hw ⊢
      split_ifs at hw ⊢ with hn
      · set xi := choose p w.G i (rs i) with hxi
        have hG : w.G = fun s =>
            (1 + diagonal (fun j => if j ∈ done then p.auxf (x j) s else 1) * A s)⁻¹ :=
          funext hx.green
        have hrat := choose_ratio p w.G i (rs i) (hr i).1 (hr i).2 hn
        rw [← hxi, hG] at hrat
        have hup := thermal_site_update p _ hx.det i xi hrat
        have hrow : ∀ s, scaleRow i (p.auxf xi s)
            (diagonal (fun j => if j ∈ done then p.auxf (x j) s else 1) * A s) =
            diagonal (fun j => if j ∈ done ++ [i] then p.auxf (Function.update x i xi j) s else 1) *
              A s := by
          intro s
          ext j k
          simp only [scaleRow, diagonal_mul]
          by_cases hj : j = i
          · subst hj; simp [hi]
          · simp [hj, Function.update_of_ne hj]
        refine ⟨Function.update x i xi, ?_, ?_, ?_⟩
        · intro j hj s
          simp only
          by_cases hji : j = i
          · subst hji; simp
          · rw [Function.update_of_ne hji, Function.update_of_ne hji]
            exact hx.field j (by simpa [hji] using hj) s
        · intro s; rw [← hrow]; exact (hup s).1
        · intro s; rw [← hrow, ← (hup s).2]; simp only [hx.green]
      · exact absurd rfl hw
    have := sweep_inv p rs hr A todo (done ++ [i]) (siteStep p rs w i) (by simpa using hnd) hstep
    rw [siteStep_stack] at this
    simp only [List.foldl_cons]
    refine ⟨by simpa using this.1, this.2.1, fun hw => siteStep_weight p rs w i (this.2.2 hw)⟩

theorem sweep_spec (p : Params n) (rs : Fin n → ℝ) (hr : ∀ i, 0 ≤ rs i ∧ rs i < 1)
    (A : Fin 2 → Mat n) (w : Wk n)
    (h : w.weight ≠ 0 → ∀ s, (1 + A s).det ≠ 0 ∧ w.G s = (1 + A s)⁻¹) :
    ((sweep p rs w).weight ≠ 0 → ∃ x : Fin n → Fin 2, ∀ s,
      (sweep p rs w).BV s = (fun j => p.auxf (x j) s) ∧
      (1 + diagonal (fun j => p.auxf (x j) s) * A s).det ≠ 0 ∧
      (sweep p rs w).G s = (1 + diagonal (fun j => p.auxf (x j) s) * A s)⁻¹) ∧
    (sweep p rs w).stack = w.stack ∧ ((sweep p rs w).weight ≠ 0 → w.weight ≠ 0) := by
  have := sweep_inv p rs hr A (List.finRange n) [] w (by simpa using List.nodup_finRange n)
    (fun hw => ⟨fun _ => 0, by simp, by simpa using fun s => (h hw s).1,
      by simpa using fun s => (h hw s).2⟩)
  refine ⟨fun hw => ?_, this.2.1, this.2.2⟩
  obtain ⟨x, hx⟩ := this.1 hw
  refine ⟨x, fun s => ⟨funext fun j => hx.field j (by simp) s, ?_, ?_⟩⟩
  · simpa using hx.det s
  · have := hx.green s
    simp only [List.nil_append, List.mem_finRange, if_true] at this
    exact this

/-! ### Products of bins -/

theorem chunks (ss : Nat) (Bs : List (Mat n)) : ∀ k,
    ((List.range k).map (fun b => Stack.ordered (Stack.slice ss Bs b))).reverse.prod =
      Stack.ordered (Bs.take (k * ss))
  | 0 => by simp [Stack.ordered]
  | k + 1 => by
    rw [List.range_succ, List.map_append, List.reverse_append, List.prod_append, chunks ss Bs k]
    simp only [List.map_cons, List.map_nil, List.reverse_singleton, List.prod_singleton]
    rw [Nat.add_mul, Nat.one_mul, List.take_add, Stack.ordered, Stack.ordered, Stack.ordered,
      List.reverse_append, List.prod_append]
    rfl

theorem bins_product {ss nb k : Nat} (hss : 0 < ss) (hk : k ≤ nb) {BT : Mat n}
    {Bs : List (Mat n)} (hl : Bs.length = k * ss) {st : Stack.St (Fin n) ℂ}
    (h : Stack.Inv ss nb (fun _ => BT ^ ss) Bs st) :
    cyclicProduct st.stack k = Stack.ordered Bs * BT ^ (nb * ss - k * ss) := by
  have htake : st.stack.take k =
      (List.range k).map (fun b => Stack.ordered (Stack.slice ss Bs b)) := by
    apply List.ext_getElem?
    intro i
    rw [List.getElem?_take]
    split_ifs with hi
    · rw [h.bins i (by omega), List.getElem?_map, List.getElem?_range hi]
      have : Stack.slice ss Bs i ≠ [] := by
        intro h0
        have h1 := congrArg List.length h0
        simp only [Stack.slice, List.length_take, List.length_drop, List.length_nil] at h1
        have : (i + 1) * ss ≤ k * ss := Nat.mul_le_mul_right _ hi
        rw [Nat.add_mul, Nat.one_mul] at this
        omega
      simp [this]
    · rw [List.getElem?_eq_none (by simpa using hi)]
  have hdrop : st.stack.drop k = List.replicate (nb - k) (BT ^ ss) := by
    apply List.ext_getElem?
    intro i
    rw [List.getElem?_drop]
    by_cases hi : k + i < nb
    · rw [h.bins _ hi, List.getElem?_replicate, if_pos (show i < nb - k by omega)]
      have : Stack.slice ss Bs (k + i) = [] := by
        unfold Stack.slice
        rw [List.drop_eq_nil_of_le (by rw [hl]; exact Nat.mul_le_mul_right _ (by omega)),
          List.take_nil]
      simp [this]
    · rw [List.getElem?_eq_none (by rw [h.len]; omega), List.getElem?_replicate,
        if_neg (by omega)]
  unfold cyclicProduct
  rw [List.rotate_eq_drop_append_take (by rw [h.len]; exact hk), List.reverse_append,
    List.prod_append, htake, hdrop, chunks, List.take_of_length_le (by omega),
    List.reverse_replicate, List.prod_replicate, ← pow_mul, ← Nat.mul_sub_right_distrib, Nat.mul_comm ss]

theorem bins_det {ss nb : Nat} {BT : Mat n} (hBT : BT.det ≠ 0) {Bs : List (Mat n)}
    (hB : ∀ B ∈ Bs, B.det ≠ 0) {st : Stack.St (Fin n) ℂ}
    (h : Stack.Inv ss nb (fun _ => BT ^ ss) Bs st) : ∀ B ∈ st.stack, B.det ≠ 0 := by
  intro B hm
  obtain ⟨b, hb, rfl⟩ := List.mem_iff_getElem.1 hm
  have h1 := h.bins b (by rw [← h.len]; exact hb)
  rw [List.getElem?_eq_getElem hb, Option.some_inj] at h1
  rw [h1]
  split_ifs
  · rw [det_pow]; exact pow_ne_zero _ hBT
  · have : ∀ l : List (Mat n), (∀ B ∈ l, B.det ≠ 0) → l.prod.det ≠ 0 := by
      intro l
      induction l with
      | nil => simp
      | cons B l ih =>
        intro h
        rw [List.prod_cons, det_mul]
        exact mul_ne_zero (h B (by simp)) (ih fun C hC => h C (by simp [hC]))
    refine this _ fun C hC => hB C ?_
    exact List.mem_of_mem_drop (List.mem_of_mem_take (List.mem_reverse.1 hC))

theorem conj_green {A BT BTinv : Mat n} (hinv : BT * BTinv = 1) (hA : (1 + A).det ≠ 0) :
    (1 + BT * A * BTinv).det ≠ 0 ∧ BT * (1 + A)⁻¹ * BTinv = (1 + BT * A * BTinv)⁻¹ := by
  have hinv' : BTinv * BT = 1 := mul_eq_one_comm.1 hinv
  have e : 1 + BT * A * BTinv = BT * (1 + A) * BTinv := by
    rw [mul_add, add_mul, mul_one, hinv]
  constructor
  · rw [e, det_mul, det_mul, mul_comm, ← mul_assoc, ← det_mul, hinv', det_one, one_mul]
    exact hA
  · refine (Matrix.inv_eq_right_inv ?_).symm
    rw [e]
    calc BT * (1 + A) * BTinv * (BT * (1 + A)⁻¹ * BTinv)
        = BT * (1 + A) * (BTinv * BT) * (1 + A)⁻¹ * BTinv := by simp only [Matrix.mul_assoc]
      _ = 1 := by
        rw [hinv', mul_one, Matrix.mul_assoc BT, Matrix.mul_nonsing_inv _ (isUnit_iff_ne_zero.2 hA),
          mul_one, hinv]

/-! ### The path -/

/-- Assumptions on a run: the one-body propagator is the trial density matrix, which is invertible;
auxiliary factors do not vanish; the Green's function is recomputed every full bin. -/
structure RunOk (p : Params n) (ss : Nat) : Prop where
  qr : ∀ A, IsQRP A (p.qrp A).1 (p.qrp A).2.1 (p.qrp A).2.2
  same : p.BH1 = p.BT
  inv : ∀ s, p.BT s * p.BTinv s = 1
  aux : ∀ xi s, p.auxf xi s ≠ 0
  stab : p.nstblz = ss
  pos : 0 < ss

theorem RunOk.detBT {p : Params n} {ss : Nat} (h : RunOk p ss) (s : Fin 2) :
    (p.BT s).det ≠ 0 := by
  intro h0
  have := congrArg Matrix.det (h.inv s)
  rw [det_mul, h0, zero_mul, det_one] at this
  exact zero_ne_one this

/-- The matrix product whose Green's function a live walker holds between slices. -/
noncomputable def betweenSlices (p : Params n) (L : Nat) (xs : List (Fin n → Fin 2)) (s : Fin 2) :
    Mat n :=
  if xs.length < L then p.BT s * pathProduct p xs s * p.BT s ^ (L - xs.length - 1)
  else pathProduct p xs s

/-- Invariant of the path. -/
structure PathInv (p : Params n) (ss nb : Nat) (t : Nat) (w : Wk n) : Prop where
  stack : ∃ Bs : Fin 2 → List (Mat n), (∀ s, (Bs s).length = t) ∧
    (∀ s, Stack.Inv ss nb (fun _ => p.BT s ^ ss) (Bs s) (w.stack s)) ∧
    (w.weight ≠ 0 → ∃ xs : List (Fin n → Fin 2),
      (∀ s, Bs s = xs.map (fun x => slicePropagator p x s)) ∧
      ∀ s, (1 + betweenSlices p (nb * ss) xs s).det ≠ 0 ∧
        w.G s = (1 + betweenSlices p (nb * ss) xs s)⁻¹)

theorem slicePropagator_det {p : Params n} {ss : Nat} (hp : RunOk p ss) (x : Fin n → Fin 2)
    (s : Fin 2) : (slicePropagator p x s).det ≠ 0 := by
  unfold slicePropagator
  rw [det_mul, det_diagonal]
  exact mul_ne_zero (Finset.prod_ne_zero_iff.2 fun j _ => hp.aux _ _) (hp.detBT s)

/-- After the sweep of slice `t + 1`: new product. -/
theorem between_sweep (p : Params n) (L : Nat) (xs : List (Fin n → Fin 2)) (hl : xs.length < L)
    (x : Fin n → Fin 2) (s : Fin 2) :
    diagonal (fun j => p.auxf (x j) s) * betweenSlices p L xs s =
      pathProduct p (xs ++ [x]) s * p.BT s ^ (L - (xs.length + 1)) := by
  unfold betweenSlices pathProduct
  rw [if_pos hl]
  simp only [List.map_append, List.map_cons, List.map_nil, List.reverse_append,
    List.reverse_singleton, List.prod_append, List.prod_singleton]
  unfold slicePropagator
  rw [Nat.sub_sub]
  simp only [Matrix.mul_assoc]

theorem propagate_inv {p : Params n} {ss nb t : Nat} (hp : RunOk p ss) {w : Wk n}
    (h : PathInv p ss nb t w) (ht : t < nb * ss) (rs : Fin n → ℝ)
    (hr : ∀ i, 0 ≤ rs i ∧ rs i < 1) :
    ∃ w', propagate p rs w = some w' ∧ PathInv p ss nb (t + 1) w' := by
  obtain ⟨Bs, hlen, hinv, hlive⟩ := h.stack
  -- the fields of the slices so far, for a live walker
  by_cases hw0 : w.weight = 0
  · -- dead walker: only the stack matters
    have hsw := sweep_spec p rs hr (fun _ => 0) w (fun hne => absurd hw0 hne)
    have hdead : (sweep p rs w).weight = 0 := by
      by_contra hne; exact hsw.2.2 hne hw0
    have hstep : ∀ s, ∃ st, ((sweep p rs w).stack s).update
        (diagonal ((sweep p rs w).BV s) * p.BH1 s) = some st ∧
        Stack.Inv ss nb (fun _ => p.BT s ^ ss)
          (Bs s ++ [diagonal ((sweep p rs w).BV s) * p.BH1 s]) st := by
      intro s
      rw [hsw.2.1]
      exact Stack.inv_step hp.pos (hinv s) (by rw [hlen s]; exact ht) _
    obtain ⟨a, ha, ha'⟩ := hstep 0
    obtain ⟨b, hb, hb'⟩ := hstep 1
    unfold propagate
    simp only [ha, hb]
    refine ⟨_, rfl, ⟨fun s => Bs s ++ [diagonal ((sweep p rs w).BV s) * p.BH1 s], ?_, ?_, ?_⟩⟩
    · intro s; simp [hlen s]
    · rw [Fin.forall_fin_two]; exact ⟨ha', hb'⟩
    · intro hne; exact absurd hdead hne
  · obtain ⟨xs, hxs, hG⟩ := hlive hw0
    have hxl : xs.length = t := by rw [← hlen 0, hxs 0, List.length_map]
    have hsw := sweep_spec p rs hr (fun s => betweenSlices p (nb * ss) xs s) w (fun _ => hG)
    have hstep : ∀ s, ∃ st, ((sweep p rs w).stack s).update
        (diagonal ((sweep p rs w).BV s) * p.BH1 s) = some st ∧
        Stack.Inv ss nb (fun _ => p.BT s ^ ss)
          (Bs s ++ [diagonal ((sweep p rs w).BV s) * p.BH1 s]) st := by
      intro s
      rw [hsw.2.1]
      exact Stack.inv_step hp.pos (hinv s) (by rw [hlen s]; exact ht) _
    obtain ⟨a, ha, ha'⟩ := hstep 0
    obtain ⟨b, hb, hb'⟩ := hstep 1
    have hab : ∀ s, Stack.Inv ss nb (fun _ => p.BT s ^ ss)
        (Bs s ++ [diagonal ((sweep p rs w).BV s) * p.BH1 s])
        ((![a, b] : Fin 2 → Stack.St (Fin n) ℂ) s) := by
      rw [Fin.forall_fin_two]; exact ⟨ha', hb'⟩
    unfold propagate
    simp only [ha, hb]
    refine ⟨_, rfl, ⟨fun s => Bs s ++ [diagonal ((sweep p rs w).BV s) * p.BH1 s], ?_, hab, ?_⟩⟩
    · intro s; simp [hlen s]
    · intro hne
      obtain ⟨x, hx⟩ := hsw.1 hne
      have hB : ∀ s, Bs s ++ [diagonal ((sweep p rs w).BV s) * p.BH1 s] =
          (xs ++ [x]).map (fun x => slicePropagator p x s) := by
        intro s
        rw [hxs s, List.map_append, List.map_singleton, (hx s).1, hp.same]; rfl
      refine ⟨xs ++ [x], hB, ?_⟩
      intro s
      have hts : ((![a, b] : Fin 2 → Stack.St (Fin n) ℂ) s).timeSlice = t + 1 := by
        rw [(hab s).ts]; simp [hlen s]
      have hsl := (hab s).slices
      have hsize := (hab s).size
      -- Green's function before the basis change
      set A1 := pathProduct p (xs ++ [x]) s * p.BT s ^ (nb * ss - (t + 1)) with hA1
      have hbs := between_sweep p (nb * ss) xs (by omega) x s
      rw [hxl] at hbs
      have hdet : (1 + A1).det ≠ 0 := by
        have := (hx s).2.1
        rw [hbs] at this; exact this
      have hGs : (sweep p rs w).G s = (1 + A1)⁻¹ := by
        have := (hx s).2.2
        rw [hbs] at this; exact this
      have hG1 : (if ((![a, b] : Fin 2 → Stack.St (Fin n) ℂ) s).timeSlice % p.nstblz = 0 then
          gfStrat p.qrp ((![a, b] : Fin 2 → Stack.St (Fin n) ℂ) s).stack
            ((![a, b] : Fin 2 → Stack.St (Fin n) ℂ) s).stackSize
            (((![a, b] : Fin 2 → Stack.St (Fin n) ℂ) s).timeSlice - 1)
          else (sweep p rs w).G s) = (1 + A1)⁻¹ := by
        split_ifs with hm
        · rw [hts, hp.stab] at hm
          obtain ⟨k, hk⟩ := Nat.dvd_of_mod_eq_zero hm
          rw [Nat.mul_comm] at hk
          have hk0 : 0 < k := by
            rcases Nat.eq_zero_or_pos k with rfl | h
            · omega
            · exact h
          have hkn : k ≤ nb := by
            by_contra hc
            have : nb * ss < k * ss := Nat.mul_lt_mul_of_pos_right (by omega) hp.pos
            omega
          rw [hts, hsize, Nat.add_sub_cancel]
          have hdiv : t / ss = k - 1 := by
            obtain ⟨k, rfl⟩ := Nat.exists_eq_succ_of_ne_zero hk0.ne'
            have : t = k * ss + (ss - 1) := by
              have := hp.pos
              rw [Nat.succ_mul] at hk; omega
            rw [this, Nat.mul_comm, Nat.mul_add_div hp.pos, Nat.div_eq_of_lt (by have := hp.pos; omega)]
            simp
          have hst : startBin ((![a, b] : Fin 2 → Stack.St (Fin n) ℂ) s).stack.length ss t = k := by
            unfold startBin
            rw [(hab s).len, hdiv, if_neg (by omega)]; omega
          have hprod := bins_product hp.pos hkn (by simp [hlen s, hk]) (hab s)
          have hAe : cyclicProduct ((![a, b] : Fin 2 → Stack.St (Fin n) ℂ) s).stack k = A1 := by
            rw [hprod, hB s, hA1, hk]; rfl
          rw [gfStrat_eq p.qrp hp.qr _ _ _ ss t, hst, hAe]
          · rw [hst, hAe]; exact hdet
          · intro h0
            have := (hab s).len
            rw [h0] at this
            simp at this; omega
          · refine bins_det (hp.detBT s) ?_ (hab s)
            rw [hB s]
            intro B hBm
            obtain ⟨x, -, rfl⟩ := List.mem_map.1 hBm
            exact slicePropagator_det hp x s
        · exact hGs
      show (1 + betweenSlices p (nb * ss) (xs ++ [x]) s).det ≠ 0 ∧ (if _ then _ else _) = _
      rw [hG1, hts, hsl]
      unfold betweenSlices
      rw [List.length_append, List.length_singleton, hxl]
      split_ifs with hlt
      · have hc := conj_green (hp.inv s) hdet
        have e : p.BT s * A1 * p.BTinv s =
            p.BT s * pathProduct p (xs ++ [x]) s * p.BT s ^ (nb * ss - (t + 1) - 1) := by
          rw [hA1]
          obtain ⟨m, hm⟩ := Nat.exists_eq_succ_of_ne_zero (n := nb * ss - (t + 1)) (by omega)
          rw [hm, Nat.succ_sub_one, pow_succ]
          simp only [Matrix.mul_assoc]
          rw [hp.inv s, mul_one]
        rw [← e]; exact hc
      · have e : A1 = pathProduct p (xs ++ [x]) s := by
          rw [hA1, Nat.sub_eq_zero_of_le (by omega), pow_zero, mul_one]
        rw [← e]; exact ⟨hdet, rfl⟩

theorem path_inv {p : Params n} {ss nb : Nat} (hp : RunOk p ss) :
    ∀ (rss : List (Fin n → ℝ)) (t : Nat) (w : Wk n), PathInv p ss nb t w →
      t + rss.length ≤ nb * ss → (∀ rs ∈ rss, ∀ i, 0 ≤ rs i ∧ rs i < 1) →
      ∃ w', path p rss w = some w' ∧ PathInv p ss nb (t + rss.length) w'
  | [], t, w, h, _, _ => ⟨w, rfl, h⟩
  | rs :: rss, t, w, h, hl, hr => by
    simp only [List.length_cons] at hl
    obtain ⟨w1, h1, h2⟩ := propagate_inv hp h (by omega) rs (hr rs (by simp))
    obtain ⟨w2, h3, h4⟩ := path_inv hp rss (t + 1) w1 h2 (by omega)
      (fun r hm => hr r (by simp [hm]))
    refine ⟨w2, by simp only [path, h1, h3], ?_⟩
    simp only [List.length_cons]
    rwa [show t + (rss.length + 1) = t + 1 + rss.length by omega]

/-- C21 (c), whole path: start a walker from the trial density matrix and propagate it through any
number of slices up to `L`, with any random numbers.  No step fails, and a walker that still has
weight carries fields `xs`, one array per slice, such that its Green's functions are exactly
`(1 + A)⁻¹` with `A = BT · B_t ⋯ B_1 · BT^(L-t-1)` before the last slice and `A = B_L ⋯ B_1` after
it; the recomputation from the stack and the rank-one updates agree. -/
theorem thermal_path (p : Params n) (ss L : Nat) (hp : RunOk p ss) (hd : ss ∣ L) (hL : 0 < L)
    (diag : Bool) (hdiag : ∀ s, Stack.DiagOk diag (p.BT s))
    (hdet : ∀ s, (1 + p.BT s ^ L).det ≠ 0) (BV : Fin 2 → Fin n → ℂ) (w0 : ℝ)
    (rss : List (Fin n → ℝ)) (hl : rss.length ≤ L)
    (hr : ∀ rs ∈ rss, ∀ i, 0 ≤ rs i ∧ rs i < 1) :
    ∃ w w', newWalker p diag ss L BV w0 = some w ∧ path p rss w = some w' ∧
      (w'.weight ≠ 0 → ∃ xs : List (Fin n → Fin 2), xs.length = rss.length ∧ ∀ s,
        (1 + betweenSlices p L xs s).det ≠ 0 ∧ w'.G s = (1 + betweenSlices p L xs s)⁻¹ ∧
        ∀ b, b < L / ss → (w'.stack s).stack[b]? = some
          (if b * ss < xs.length then pathProduct p ((xs.drop (b * ss)).take ss) s
            else p.BT s ^ ss)) := by
  obtain ⟨nb, rfl⟩ := hd
  have hnb : 0 < nb := Nat.pos_of_mul_pos_left hL
  obtain ⟨a, a1, ha, ha1, hai⟩ := Stack.fresh_updates diag (p.BT 0) (hdiag 0) ss nb hp.pos []
    (by simp)
  obtain ⟨b, b1, hb, hb1, hbi⟩ := Stack.fresh_updates diag (p.BT 1) (hdiag 1) ss nb hp.pos []
    (by simp)
  simp only [Stack.St.updates, Option.some_inj] at ha1 hb1
  subst ha1 hb1
  have hab : ∀ s, Stack.Inv ss nb (fun _ => p.BT s ^ ss) []
      ((![a, b] : Fin 2 → Stack.St (Fin n) ℂ) s) := by
    rw [Fin.forall_fin_two]; exact ⟨hai, hbi⟩
  unfold Stack.fresh at ha hb
  have hnew : newWalker p diag ss (ss * nb) BV w0 = some ⟨w0, fun s =>
      gfStrat p.qrp ((![a, b] : Fin 2 → Stack.St (Fin n) ℂ) s).stack
        ((![a, b] : Fin 2 → Stack.St (Fin n) ℂ) s).stackSize
        ((![a, b] : Fin 2 → Stack.St (Fin n) ℂ) s).timeSlice, ![a, b], BV⟩ := by
    unfold newWalker
    simp only [ha, hb]
  have hinit : PathInv p ss nb 0 ⟨w0, fun s =>
      gfStrat p.qrp ((![a, b] : Fin 2 → Stack.St (Fin n) ℂ) s).stack
        ((![a, b] : Fin 2 → Stack.St (Fin n) ℂ) s).stackSize
        ((![a, b] : Fin 2 → Stack.St (Fin n) ℂ) s).timeSlice, ![a, b], BV⟩ := by
    refine ⟨fun _ => [], fun _ => rfl, hab, fun _ => ⟨[], fun _ => rfl, fun s => ?_⟩⟩
    have e : betweenSlices p (nb * ss) [] s = p.BT s ^ (ss * nb) := by
      unfold betweenSlices pathProduct
      rw [if_pos (by rw [Nat.mul_comm]; simpa using hL)]
      simp only [List.map_nil, List.reverse_nil, List.prod_nil, mul_one, List.length_nil,
        Nat.sub_zero]
      rw [← pow_succ', Nat.sub_add_cancel (by rw [Nat.mul_comm]; omega), Nat.mul_comm]
    have hstack : ((![a, b] : Fin 2 → Stack.St (Fin n) ℂ) s).stack =
        List.replicate nb (p.BT s ^ ss) := by
      apply List.ext_getElem?
      intro i
      by_cases hi : i < nb
      · rw [(hab s).bins i hi, List.getElem?_replicate, if_pos hi]
        simp [Stack.slice]
      · rw [List.getElem?_eq_none (by rw [(hab s).len]; omega), List.getElem?_replicate, if_neg hi]
    have hcyc : ∀ k, cyclicProduct (List.replicate nb (p.BT s ^ ss)) k = p.BT s ^ (ss * nb) := by
      intro k
      rw [cyclicProduct, List.rotate_replicate, List.reverse_replicate, List.prod_replicate,
        ← pow_mul]
    rw [e]
    refine ⟨hdet s, ?_⟩
    show gfStrat p.qrp _ _ _ = _
    rw [gfStrat_eq p.qrp hp.qr, hstack, hcyc]
    · rw [hstack]; intro h0; simp at h0; omega
    · exact bins_det (hp.detBT s) (by simp) (hab s)
    · rw [hstack, hcyc]; exact hdet s
  obtain ⟨w', h1, h2⟩ := path_inv hp rss 0 _ hinit (by rw [Nat.zero_add, Nat.mul_comm]; exact hl) hr
  refine ⟨_, w', hnew, h1, fun hne => ?_⟩
  obtain ⟨Bs, hlen, hinv, hlive⟩ := h2.stack
  obtain ⟨xs, hxs, hG⟩ := hlive hne
  have hxl : xs.length = rss.length := by
    have := hlen 0
    rw [hxs 0, List.length_map, Nat.zero_add] at this
    exact this
  refine ⟨xs, hxl, fun s => ?_⟩
  rw [Nat.mul_comm ss nb]
  refine ⟨(hG s).1, (hG s).2, fun c hc => ?_⟩
  rw [Nat.mul_div_cancel _ hp.pos] at hc
  rw [(hinv s).bins c hc, hxs s]
  have hsl : Stack.slice ss (xs.map (fun x => slicePropagator p x s)) c =
      ((xs.drop (c * ss)).take ss).map (fun x => slicePropagator p x s) := by
    unfold Stack.slice
    rw [← List.map_drop, ← List.map_take]
  rw [hsl]
  by_cases hcl : c * ss < xs.length
  · rw [if_pos hcl, if_neg]
    · rfl
    · rw [List.map_eq_nil_iff]
      intro h0
      have := congrArg List.length h0
      simp only [List.length_take, List.length_drop, List.length_nil] at this
      have := hp.pos
      omega
  · rw [if_neg hcl, if_pos]
    rw [List.drop_eq_nil_of_le (by omega), List.take_nil, List.map_nil]

/-- A run that meets the assumptions, with a walker that keeps its weight. -/
noncomputable def exParams : Params 1 :=
  ⟨![![2, 1/2], ![1/2, 2]], fun _ => diagonal ![3], fun _ => diagonal ![3],
    fun _ => diagonal ![1/3], someQRP, 2, 0⟩

example : RunOk exParams 2 ∧ (∀ s, Stack.DiagOk true (exParams.BT s)) ∧
    (∀ s, (1 + exParams.BT s ^ 4).det ≠ 0) := by
  refine ⟨⟨someQRP_spec, rfl, ?_, ?_, rfl, by omega⟩, fun _ _ => ⟨_, rfl⟩, ?_⟩
  · intro s
    ext i j
    fin_cases i; fin_cases j
    simp [exParams]
  · intro xi s
    fin_cases xi <;> fin_cases s <;> simp [exParams]
  · intro s
    simp only [exParams, diagonal_pow]
    simp
    norm_num

end Verif.Thermal
