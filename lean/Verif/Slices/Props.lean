import Verif.Slices.Model
import Mathlib.Tactic.Linarith
import Mathlib.Tactic.FieldSimp
import Mathlib.Tactic.Positivity
import Mathlib.Tactic.NormNum

/-!
# The temperature of thermal runs: C129
-/

namespace Verif.Slices

open Verif.Stack

/-! ## Rounding -/

theorem rne_int (n : ℤ) : rne n = n := by
  simp [rne]

theorem rne_near (x : ℚ) : |(rne x : ℚ) - x| ≤ 1 / 2 := by
  have h1 := Int.floor_le x
  have h2 := Int.lt_floor_add_one x
  rw [abs_le, rne]
  split_ifs with a b c <;> push_cast <;> constructor <;> linarith

theorem rne_of_near {x : ℚ} {n : ℤ} (h : |x - n| < 1 / 2) : rne x = n := by
  have h1 := rne_near x
  rw [abs_lt] at h
  rw [abs_le] at h1
  have h2 : (rne x : ℚ) < n + 1 := by linarith
  have h3 : (n : ℚ) < rne x + 1 := by linarith
  have h2' : rne x < n + 1 := by exact_mod_cast h2
  have h3' : n < rne x + 1 := by exact_mod_cast h3
  omega

theorem rne_floor (x : ℚ) : rne x = ⌊x⌋ ∨ rne x = ⌊x⌋ + 1 := by
  rw [rne]
  split_ifs
  · exact Or.inl rfl
  · exact Or.inr rfl
  · exact Or.inl rfl
  · exact Or.inr rfl

/-- **C129** (rounding) The relative error of a rounded number. -/
theorem fl_near {x : ℚ} (hx : 0 < x) : |fl x - x| ≤ x / 2 ^ 53 := by
  have hp : (0 : ℚ) < 2 ^ (Int.log 2 |x| - 52) := zpow_pos (by norm_num) _
  have h1 := rne_near (x / 2 ^ (Int.log 2 |x| - 52))
  have e : fl x - x = ((rne (x / 2 ^ (Int.log 2 |x| - 52)) : ℚ) - x / 2 ^ (Int.log 2 |x| - 52)) * 2 ^ (Int.log 2 |x| - 52) := by
    rw [sub_mul, div_mul_cancel₀ _ hp.ne', fl]
  rw [e, abs_mul, abs_of_pos hp]
  have h2 : (2 : ℚ) ^ Int.log 2 |x| ≤ x := by
    have := Int.zpow_log_le_self (b := 2) (by norm_num) (abs_pos.2 hx.ne')
    rwa [abs_of_pos hx] at this ⊢
  have h3 : (2 : ℚ) ^ (Int.log 2 |x| - 52) = 2 ^ Int.log 2 |x| / 2 ^ 52 := by
    rw [zpow_sub₀ (by norm_num)]
    norm_num
  calc _ ≤ 1 / 2 * (2 : ℚ) ^ (Int.log 2 |x| - 52) := mul_le_mul_of_nonneg_right h1 hp.le
    _ = 2 ^ Int.log 2 |x| / 2 ^ 53 := by rw [h3]; ring
    _ ≤ _ := by gcongr

/-- Whole numbers below `2^53` are not rounded. -/
theorem fl_nat {n : Nat} (h0 : 0 < n) (h : n < 2 ^ 53) : fl n = n := by
  have hp : (0 : ℚ) < n := by exact_mod_cast h0
  have h1 : Int.log 2 |(n : ℚ)| < 53 := by
    rw [abs_of_pos hp]
    have := Int.zpow_log_le_self (b := 2) (by norm_num) hp
    have h2 : ((2 : ℚ) : ℚ) ^ Int.log 2 (n : ℚ) < 2 ^ (53 : ℤ) := lt_of_le_of_lt this (by exact_mod_cast h)
    exact (zpow_lt_zpow_iff_right₀ (by norm_num)).1 h2
  obtain ⟨k, hk⟩ : ∃ k : Nat, Int.log 2 |(n : ℚ)| - 52 = -(k : ℤ) := ⟨(52 - Int.log 2 |(n : ℚ)|).toNat, by omega⟩
  rw [fl, hk, zpow_neg, div_inv_eq_mul]
  have e : (n : ℚ) * 2 ^ (k : ℤ) = ((n * 2 ^ k : ℤ) : ℚ) := by push_cast; rw [zpow_natCast]
  rw [e, rne_int]
  push_cast
  rw [← zpow_natCast]
  field_simp

/-! ## Slices of the driver and of the trial -/

/-- **C129** The driver runs over the slices of the trial or over one more; it runs over one more if the rest is more than half a slice (ties to
even). -/
theorem slices_general {q : ℚ} (hq : 0 ≤ q) :
    (driverSlices q = whole q ∨ driverSlices q = whole q + 1) ∧
      (q - whole q < 1 / 2 → driverSlices q = whole q) ∧ (1 / 2 < q - whole q → driverSlices q = whole q + 1) ∧
      (q - whole q = 1 / 2 → (driverSlices q = whole q ↔ Even (whole q))) ∧ |q - driverSlices q| ≤ 1 / 2 := by
  have hf : 0 ≤ ⌊q⌋ := Int.floor_nonneg.2 hq
  obtain ⟨n, hn⟩ := Int.eq_ofNat_of_zero_le hf
  have hw : whole q = n := by rw [whole, hn]; rfl
  have hr := rne_near q
  rw [hw, driverSlices]
  have hc : rne q = if q - n < 1 / 2 then (n : ℤ) else if 1 / 2 < q - n then (n : ℤ) + 1 else if (n : ℤ) % 2 = 0 then (n : ℤ) else n + 1 := by
    rw [rne, hn]
    rfl
  refine ⟨?_, fun h => ?_, fun h => ?_, fun h => ?_, ?_⟩
  · rcases rne_floor q with h | h <;> rw [h, hn]
    · left; rfl
    · right; rfl
  · rw [hc, if_pos h]; rfl
  · rw [hc, if_neg (by linarith), if_pos h]; rfl
  · rw [hc, if_neg (by linarith), if_neg (by linarith), Nat.even_iff]
    split_ifs with h2
    · simp; omega
    · constructor
      · intro h3; omega
      · intro h3; omega
  · have h0 : 0 ≤ rne q := by rcases rne_floor q with h | h <;> omega
    rw [abs_sub_comm]
    have : ((rne q).toNat : ℚ) = rne q := by exact_mod_cast congrArg (Int.cast : ℤ → ℚ) (Int.toNat_of_nonneg h0)
    rw [this]
    exact hr

/-- **C129** In exact arithmetic, if `beta` is a whole number of slices, driver and trial have that number of slices. -/
theorem slices_exact {beta dt : ℚ} (hd : dt ≠ 0) {n : Nat} (h : beta = n * dt) :
    driverSlices (beta / dt) = n ∧ whole (beta / dt) = n := by
  have e : beta / dt = ((n : ℤ) : ℚ) := by rw [h, mul_div_cancel_right₀ _ hd]; simp
  rw [e, driverSlices, whole, rne_int, Int.floor_intCast]
  simp

/-- A quotient in floating point of a number that was rounded when it was read and one with an error of up to three roundings. -/
theorem quotient_near3 {b d D : ℚ} (hb : 0 < b) (hd : 0 < d) (hD : |D - d| ≤ d * (3 / 2 ^ 53)) :
    |fdiv (fl b) D - b / d| ≤ b / d * (8 / 2 ^ 53) ∧ 0 < fl b ∧ 0 < D := by
  have h1 := abs_le.1 (fl_near hb)
  have h2 := abs_le.1 hD
  obtain ⟨u, hu⟩ : ∃ u : ℚ, u = 1 / 2 ^ 53 := ⟨_, rfl⟩
  have hu0 : 0 < u := by norm_num [hu]
  have hu1 : u < 1 / 1000 := by norm_num [hu]
  have eb : b / 2 ^ 53 = b * u := by rw [hu]; ring
  have ed : d * (3 / 2 ^ 53) = 3 * (d * u) := by rw [hu]; ring
  rw [eb] at h1
  rw [ed] at h2
  have pb : 0 < fl b := by nlinarith
  have pd : 0 < D := by nlinarith
  refine ⟨?_, pb, pd⟩
  have hq : 0 < fl b / D := div_pos pb pd
  have h3 := abs_le.1 (fl_near hq)
  have eq : fl b / D / 2 ^ 53 = fl b / D * u := by rw [hu]; ring
  rw [eq] at h3
  have hr : 0 < b / d := div_pos hb hd
  have e4 : (8 : ℚ) / 2 ^ 53 = 8 * u := by rw [hu]; ring
  have hup : fl b / D ≤ b / d * ((1 + u) / (1 - 3 * u)) := by
    rw [div_mul_div_comm, div_le_div_iff₀ pd (mul_pos hd (by linarith))]
    have : fl b ≤ b * (1 + u) := by linarith
    have h5 : d * (1 - 3 * u) ≤ D := by linarith
    have h6 : 0 < d * (1 - 3 * u) := mul_pos hd (by linarith)
    exact mul_le_mul this h5 h6.le (by positivity)
  have hlo : b / d * ((1 - u) / (1 + 3 * u)) ≤ fl b / D := by
    rw [div_mul_div_comm, div_le_div_iff₀ (mul_pos hd (by linarith)) pd]
    have : b * (1 - u) ≤ fl b := by linarith
    have h5 : D ≤ d * (1 + 3 * u) := by linarith
    have h6 : 0 ≤ b * (1 - u) := (mul_pos hb (by linarith)).le
    exact mul_le_mul this h5 pd.le pb.le
  have k1 : (1 + u) / (1 - 3 * u) * (1 + u) ≤ 1 + 8 * u := by
    rw [div_mul_eq_mul_div, div_le_iff₀ (by linarith)]
    nlinarith
  have k2 : 1 - 8 * u ≤ (1 - u) / (1 + 3 * u) * (1 - u) := by
    rw [div_mul_eq_mul_div, le_div_iff₀ (by linarith)]
    nlinarith
  rw [abs_le, e4, fdiv]
  constructor
  · have : b / d * ((1 - u) / (1 + 3 * u)) * (1 - u) ≤ fl b / D * (1 - u) := mul_le_mul_of_nonneg_right hlo (by linarith)
    have := mul_le_mul_of_nonneg_left k2 hr.le
    nlinarith
  · have : fl b / D * (1 + u) ≤ b / d * ((1 + u) / (1 - 3 * u)) * (1 + u) := mul_le_mul_of_nonneg_right hup (by linarith)
    have := mul_le_mul_of_nonneg_left k1 hr.le
    nlinarith

/-- A number near the whole number `n`. -/
theorem whole_near {q : ℚ} {n : Nat} (h0 : 0 < n) (hn : n < 2 ^ 49) (h : |q - n| ≤ n * (8 / 2 ^ 53)) :
    driverSlices q = n ∧ (whole q = n ∨ whole q + 1 = n) ∧ (whole q = n ↔ (n : ℚ) ≤ q) := by
  have hn' : (n : ℚ) < 2 ^ 49 := by exact_mod_cast hn
  have h2 : |q - ((n : ℤ) : ℚ)| < 1 / 2 := by
    refine lt_of_le_of_lt (by exact_mod_cast h) ?_
    have : (n : ℚ) * (8 / 2 ^ 53) < 2 ^ 49 * (8 / 2 ^ 53) + 0 := by
      have : (0 : ℚ) < 8 / 2 ^ 53 := by norm_num
      nlinarith
    refine lt_of_lt_of_le this ?_
    norm_num
  have h3 := abs_lt.1 h2
  push_cast at h3
  have hlt : ⌊q⌋ < (n : ℤ) + 1 := by
    rw [Int.floor_lt]
    push_cast
    linarith
  have hge : (n : ℤ) - 1 ≤ ⌊q⌋ := by
    rw [Int.le_floor]
    push_cast
    linarith
  refine ⟨?_, ?_, ?_⟩
  · rw [driverSlices, rne_of_near h2]; rfl
  · rw [whole]; omega
  · rw [whole]
    constructor
    · intro h4
      have : (n : ℤ) ≤ ⌊q⌋ := by omega
      have := Int.le_floor.1 this
      exact_mod_cast this
    · intro h4
      have : (n : ℤ) ≤ ⌊q⌋ := Int.le_floor.2 (by exact_mod_cast h4)
      omega

/-- **C129** In floating point, if the decimal number `b` is `n` times the decimal number `d`, the driver runs over `n` slices, and everything that is
computed as `int(b/d)` (slices of the trial and of the stack, steps of windows) is `n` or `n - 1`. -/
theorem slices_float {b d : ℚ} (hd : 0 < d) {n : Nat} (h0 : 0 < n) (hn : n < 2 ^ 49) (h : b = n * d) :
    driverSlices (fdiv (fl b) (fl d)) = n ∧ (whole (fdiv (fl b) (fl d)) = n ∨ whole (fdiv (fl b) (fl d)) + 1 = n) ∧
      (whole (fdiv (fl b) (fl d)) = n ↔ (n : ℚ) ≤ fdiv (fl b) (fl d)) := by
  have hn0 : (0 : ℚ) < n := by exact_mod_cast h0
  have e : b / d = n := by rw [h, mul_div_cancel_right₀ _ hd.ne']
  refine whole_near h0 hn ?_
  rw [← e]
  refine (quotient_near3 (h ▸ mul_pos hn0 hd) hd ((fl_near hd).trans ?_)).1
  rw [div_eq_mul_inv]
  refine mul_le_mul_of_nonneg_left ?_ hd.le
  norm_num

/-- **C129** The bins of the trial: if `b` is `k` stacks of `s` slices, the density matrix and the chemical potential of the trial are those of
`k` or of `k - 1` stacks. -/
theorem bins_float {b d : ℚ} (hd : 0 < d) {s k : Nat} (hs : 0 < s) (h0 : 0 < k) (hk : k < 2 ^ 49) (h : b = k * (s * d)) :
    (bins (fl b) (fl d) s = k ∨ bins (fl b) (fl d) s + 1 = k) ∧
      (bins (fl b) (fl d) s = k ↔ (k : ℚ) ≤ fdiv (fl b) (fl (s * fl d))) := by
  have hs0 : (0 : ℚ) < s := by exact_mod_cast hs
  have hk0 : (0 : ℚ) < k := by exact_mod_cast h0
  have hsd := mul_pos hs0 hd
  have e : b / (s * d) = k := by rw [h, mul_div_cancel_right₀ _ hsd.ne']
  have key : |fl (s * fl d) - s * d| ≤ s * d * (3 / 2 ^ 53) := by
    have h1 := abs_le.1 (fl_near hd)
    have pd : 0 < fl d := by
      have : d / 2 ^ 53 < d := div_lt_self hd (by norm_num)
      linarith
    have h2 := abs_le.1 (fl_near (mul_pos hs0 pd))
    obtain ⟨u, hu⟩ : ∃ u : ℚ, u = 1 / 2 ^ 53 := ⟨_, rfl⟩
    have hu0 : 0 < u := by norm_num [hu]
    have hu1 : u < 1 / 1000 := by norm_num [hu]
    have e1 : d / 2 ^ 53 = d * u := by rw [hu]; ring
    have e2 : s * fl d / 2 ^ 53 = s * fl d * u := by rw [hu]; ring
    have e3 : (3 : ℚ) / 2 ^ 53 = 3 * u := by rw [hu]; ring
    rw [e1] at h1
    rw [e2] at h2
    rw [e3, abs_le]
    have a1 : s * fl d ≤ s * d * (1 + u) := by nlinarith
    have a2 : s * d * (1 - u) ≤ s * fl d := by nlinarith
    have hu2 : 0 < s * d * u * (1 - u) := mul_pos (mul_pos hsd hu0) (by linarith)
    constructor
    · have := mul_le_mul_of_nonneg_right a1 hu0.le
      nlinarith
    · have := mul_le_mul_of_nonneg_right a1 hu0.le
      nlinarith
  have q := (quotient_near3 (h ▸ mul_pos hk0 hsd) hsd key).1
  rw [e] at q
  exact (whole_near h0 hk q).2

/-- **C129** Numbers that are not rounded when they are read: nothing is lost. -/
theorem slices_representable {b d : ℚ} (hd : 0 < d) {n : Nat} (h0 : 0 < n) (hn : n < 2 ^ 53) (h : b = n * d) (hb' : fl b = b) (hd' : fl d = d) :
    driverSlices (fdiv (fl b) (fl d)) = n ∧ whole (fdiv (fl b) (fl d)) = n := by
  rw [hb', hd', fdiv, h, mul_div_cancel_right₀ _ hd.ne', fl_nat h0 hn]
  have := slices_exact (beta := n) (dt := 1) one_ne_zero (n := n) (by ring)
  simpa using this

/-! ## Runs -/

variable {m : Type} [Fintype m] [DecidableEq m] {R : Type} [CommRing R]

/-- What an update of the stack needs to succeed. -/
structure Shape (ss nb k : Nat) (s : St m R) : Prop where
  size : s.stackSize = ss
  nbins : s.nbins = nb
  slices : s.nslices = nb * ss
  stack : s.stack.length = nb
  left : s.left.length = nb
  right : s.right.length = nb
  time : s.timeSlice = k
  block : s.block = k / ss

theorem shape_update {ss nb k : Nat} {s : St m R} (h : Shape ss nb k s) (B : Matrix m m R) :
    (k / ss < nb → ∃ s', s.update B = some s' ∧ Shape ss nb (k + 1) s') ∧ (¬ k / ss < nb → s.update B = none) := by
  constructor
  · intro hk
    have : s.block < s.stack.length := by rw [h.block, h.stack]; exact hk
    rw [St.update, List.getElem?_eq_getElem this]
    exact ⟨_, rfl, ⟨h.size, h.nbins, h.slices, by simp [h.stack], h.left, h.right, by simp [h.time], by simp [h.time, h.size]⟩⟩
  · intro hk
    have : s.stack.length ≤ s.block := by rw [h.block, h.stack]; omega
    rw [St.update, List.getElem?_eq_none this]

theorem shape_updateFull {ss nb k : Nat} {s : St m R} (h : Shape ss nb k s) (diag : Bool) (BTinv B : Matrix m m R) :
    (k / ss < nb → ∃ s', s.updateFull diag BTinv B = some s' ∧ Shape ss nb (k + 1) s') ∧
      (¬ k / ss < nb → s.updateFull diag BTinv B = none) := by
  constructor
  · intro hk
    have h1 : s.block < s.right.length := by rw [h.block, h.right]; exact hk
    have h2 : s.block < s.left.length := by rw [h.block, h.left]; exact hk
    rw [St.updateFull, List.getElem?_eq_getElem h1, List.getElem?_eq_getElem h2]
    exact ⟨_, rfl, ⟨h.size, h.nbins, h.slices, by simp [h.stack], by simp [h.left], by simp [h.right], by simp [h.time], by simp [h.time, h.size]⟩⟩
  · intro hk
    have h1 : s.right.length ≤ s.block := by rw [h.block, h.right]; omega
    rw [St.updateFull, List.getElem?_eq_none h1]

theorem shape_updates {ss nb : Nat} (hss : 0 < ss) : ∀ (Bs : List (Matrix m m R)) (k : Nat) (s : St m R), Shape ss nb k s →
    (k + Bs.length ≤ nb * ss → ∃ s', s.updates Bs = some s' ∧ Shape ss nb (k + Bs.length) s') ∧
      (k ≤ nb * ss → nb * ss < k + Bs.length → s.updates Bs = none)
  | [], k, s, h => ⟨fun _ => ⟨s, rfl, h⟩, fun h1 h2 => absurd h2 (by simp; exact h1)⟩
  | B :: Bs, k, s, h => by
    have hlt : k / ss < nb ↔ k < nb * ss := Nat.div_lt_iff_lt_mul hss
    obtain ⟨h1, h2⟩ := shape_update h B
    constructor
    · intro hk
      simp only [List.length_cons] at hk
      obtain ⟨s', e, hs⟩ := h1 (hlt.2 (by omega))
      obtain ⟨s'', e', hs'⟩ := (shape_updates hss Bs (k + 1) s' hs).1 (by omega)
      refine ⟨s'', by rw [St.updates, e]; exact e', ?_⟩
      rw [List.length_cons, Nat.add_comm Bs.length 1, ← Nat.add_assoc]
      exact hs'
    · intro hk hk'
      simp only [List.length_cons] at hk'
      by_cases hb : k < nb * ss
      · obtain ⟨s', e, hs⟩ := h1 (hlt.2 hb)
        rw [St.updates, e]
        exact (shape_updates hss Bs (k + 1) s' hs).2 (by omega) (by omega)
      · rw [St.updates, h2 (fun h => hb (hlt.1 h))]

theorem shape_updatesFull {ss nb : Nat} (hss : 0 < ss) (diag : Bool) (BTinv : Matrix m m R) : ∀ (Bs : List (Matrix m m R)) (k : Nat) (s : St m R),
    Shape ss nb k s →
    (k + Bs.length ≤ nb * ss → ∃ s', s.updatesFull diag BTinv Bs = some s' ∧ Shape ss nb (k + Bs.length) s') ∧
      (k ≤ nb * ss → nb * ss < k + Bs.length → s.updatesFull diag BTinv Bs = none)
  | [], k, s, h => ⟨fun _ => ⟨s, rfl, h⟩, fun h1 h2 => absurd h2 (by simp; exact h1)⟩
  | B :: Bs, k, s, h => by
    have hlt : k / ss < nb ↔ k < nb * ss := Nat.div_lt_iff_lt_mul hss
    obtain ⟨h1, h2⟩ := shape_updateFull h diag BTinv B
    constructor
    · intro hk
      simp only [List.length_cons] at hk
      obtain ⟨s', e, hs⟩ := h1 (hlt.2 (by omega))
      obtain ⟨s'', e', hs'⟩ := (shape_updatesFull hss diag BTinv Bs (k + 1) s' hs).1 (by omega)
      refine ⟨s'', by rw [St.updatesFull, e]; exact e', ?_⟩
      rw [List.length_cons, Nat.add_comm Bs.length 1, ← Nat.add_assoc]
      exact hs'
    · intro hk hk'
      simp only [List.length_cons] at hk'
      by_cases hb : k < nb * ss
      · obtain ⟨s', e, hs⟩ := h1 (hlt.2 hb)
        rw [St.updatesFull, e]
        exact (shape_updatesFull hss diag BTinv Bs (k + 1) s' hs).2 (by omega) (by omega)
      · rw [St.updatesFull, h2 (fun h => hb (hlt.1 h))]

theorem shape_setAll {ss nb k : Nat} (diag : Bool) (BT : Matrix m m R) {s : St m R} (h : Shape ss nb k s) :
    Shape ss nb k (s.setAll diag BT) := by
  rw [St.setAll]
  generalize List.range s.nslices = l
  induction l generalizing s with
  | nil => exact h
  | cons i l ih =>
    rw [List.foldl_cons]
    exact ih ⟨h.size, h.nbins, h.slices, by simp [St.setOne, h.stack], by simp [St.setOne, h.left], h.right, h.time, h.block⟩

theorem shape_reset {ss nb k : Nat} {s : St m R} (h : Shape ss nb k s) : Shape ss nb 0 s.reset :=
  ⟨h.size, h.nbins, h.slices, by simp [St.reset, h.nbins], by simp [St.reset, h.nbins], by simp [St.reset, h.nbins], rfl, by simp [St.reset]⟩

theorem shape_fresh (diag : Bool) (BT : Matrix m m R) {ss nsl : Nat} (hss : 0 < ss) (hd : ss ∣ nsl) {s : St m R} (h : fresh diag BT ss nsl = some s) :
    Shape ss (nsl / ss) 0 s := by
  rw [fresh, make_some hss hd, Option.map_some, Option.some.injEq] at h
  rw [← h]
  refine shape_setAll diag BT ⟨rfl, rfl, ?_, by simp [St.reset, blank], by simp [St.reset, blank], by simp [St.reset, blank], rfl, by simp [St.reset, blank]⟩
  exact (Nat.div_mul_cancel hd).symm

theorem paths_iff {ss nb : Nat} (hss : 0 < ss) (diag : Bool) (BT BTinv : Matrix m m R) : ∀ (l : List (List (Matrix m m R))) (s : St m R), Shape ss nb 0 s →
    (paths diag BT l s ≠ none ↔ ∀ Bs ∈ l, Bs.length ≤ nb * ss) ∧ (pathsFull diag BT BTinv l s ≠ none ↔ ∀ Bs ∈ l, Bs.length ≤ nb * ss)
  | [], s, _ => by simp [paths, pathsFull]
  | Bs :: l, s, h => by
    have a := shape_updates hss Bs 0 s h
    have b := shape_updatesFull hss diag BTinv Bs 0 s h
    rw [Nat.zero_add] at a b
    by_cases hl : Bs.length ≤ nb * ss
    · obtain ⟨s', e, hs⟩ := a.1 hl
      obtain ⟨s2, e2, hs2⟩ := b.1 hl
      rw [paths, e, pathsFull, e2]
      simp only
      rw [(paths_iff hss diag BT BTinv l _ (shape_setAll diag BT (shape_reset hs))).1,
        (paths_iff hss diag BT BTinv l _ (shape_setAll diag BT (shape_reset hs2))).2]
      simp [hl]
    · rw [paths, a.2 (Nat.zero_le _) (by omega), pathsFull, b.2 (Nat.zero_le _) (by omega)]
      simp [hl]

/-- **C129** A thermal run with at least one path completes exactly if driver and trial have the same number of slices, whatever the stack
size; otherwise the last slice of the first path raises. -/
theorem run_completes (diag : Bool) (BT BTinv : Matrix m m R) {q : ℚ} (hq : 0 ≤ q) {ss : Nat} (hss : 0 < ss) (hd : ss ∣ whole q) {s : St m R}
    (hs : fresh diag BT ss (whole q) = some s) {l : List (List (Matrix m m R))} (hl : l ≠ []) (hlen : ∀ Bs ∈ l, Bs.length = driverSlices q) :
    (paths diag BT l s ≠ none ↔ driverSlices q = whole q) ∧ (pathsFull diag BT BTinv l s ≠ none ↔ driverSlices q = whole q) := by
  have h := paths_iff hss diag BT BTinv l s (shape_fresh diag BT hss hd hs)
  rw [Nat.div_mul_cancel hd] at h
  have hd := (slices_general hq).1
  have e : (∀ Bs ∈ l, Bs.length ≤ whole q) ↔ driverSlices q = whole q := by
    obtain ⟨B, l', rfl⟩ := List.exists_cons_of_ne_nil hl
    constructor
    · intro h1
      have := h1 B List.mem_cons_self
      rw [hlen B List.mem_cons_self] at this
      omega
    · intro h1 Bs hB
      rw [hlen Bs hB, h1]
  exact ⟨h.1.trans e, h.2.trans e⟩

theorem ordered_append (a b : List (Matrix m m R)) : ordered (a ++ b) = ordered b * ordered a := by
  induction a with
  | nil => simp [ordered]
  | cons x a ih => simp [ordered, ih, mul_assoc]

theorem chunks_prod {ss : Nat} (hss : 0 < ss) : ∀ (nb : Nat) (Bs : List (Matrix m m R)), Bs.length = ss * nb → ∀ l : List (Matrix m m R),
    l.length = nb → (∀ b, b < nb → l[b]? = some (ordered ((Bs.drop (b * ss)).take ss))) → l.reverse.prod = ordered Bs
  | 0, Bs, h, l, hl, _ => by
    rw [Nat.mul_zero] at h
    rw [List.length_eq_zero_iff.1 h, List.length_eq_zero_iff.1 hl]
    simp [ordered]
  | nb + 1, Bs, h, l, hl, hb => by
    obtain ⟨x, l', rfl⟩ : ∃ x l', l = x :: l' := List.exists_cons_of_length_eq_add_one hl
    have h0 := hb 0 (by omega)
    simp at h0
    have ih := chunks_prod hss nb (Bs.drop ss) (by rw [List.length_drop, h, Nat.mul_add]; omega) l' (by simpa using hl) fun b hb' => by
      have := hb (b + 1) (by omega)
      rw [List.getElem?_cons_succ] at this
      rw [this, List.drop_drop, Nat.add_mul, Nat.one_mul, Nat.add_comm ss]
    rw [List.reverse_cons, List.prod_append, ih, h0, List.prod_singleton, ← ordered_append, List.take_append_drop]

/-- **C129** The product of the matrices in the stack at the end of a path of a run that completes is the ordered product of all slices: the inverse
temperature of the run is `whole q` times `dt`, which differs from the one asked for by at most half a slice. -/
theorem run_temperature (diag : Bool) (BT : Matrix m m R) (hBT : DiagOk diag BT) {q : ℚ} (hq : 0 ≤ q) {ss : Nat} (hss : 0 < ss) (hd : ss ∣ whole q)
    (h : driverSlices q = whole q) (Bs : List (Matrix m m R)) (hlen : Bs.length = driverSlices q) :
    (∃ s0 s, fresh diag BT ss (whole q) = some s0 ∧ s0.updates Bs = some s ∧ s.timeSlice = whole q ∧ s.stack.reverse.prod = ordered Bs) ∧
      |q - whole q| ≤ 1 / 2 := by
  refine ⟨?_, ?_⟩
  · obtain ⟨s0, s, h0, h1, h2, h3, h4, h5, h6⟩ := stack_update_product diag BT hBT ss (whole q) hss hd Bs (by rw [hlen, h])
    refine ⟨s0, s, h0, h1, by rw [h2, hlen, h], ?_⟩
    obtain ⟨nb, hnb⟩ := hd
    have e : whole q / ss = nb := by rw [hnb, Nat.mul_div_cancel_left _ hss]
    rw [e] at h5 h6
    have hB : Bs.length = ss * nb := by rw [hlen, h, hnb]
    refine chunks_prod hss nb Bs hB s.stack h5 fun b hb => ?_
    rw [h6 b hb, if_pos]
    rw [hB, Nat.mul_comm]
    exact Nat.mul_lt_mul_of_pos_left hb hss
  · have := (slices_general hq).2.2.2.2
    rwa [h] at this

/-! ## Reduced units -/

/-- **C129** Reduced units: the times are divided by the Fermi energy, the quotient of `beta` and `dt` does not change, but the number of
equilibration steps is computed from the time step before the conversion. -/
theorem times_reduced {ef : ℚ} (hef : ef ≠ 0) {o : List (String × ℚ)} {d b : ℚ} (hd : o.lookup "dt" = some d) (hb : o.lookup "beta" = some b) :
    ∃ t, times true ef o true = some t ∧ t.dt = d / ef ∧ t.beta = b / ef ∧ t.beta / t.dt = b / d := by
  rw [times, hb, hd]
  exact ⟨_, rfl, rfl, rfl, div_div_div_cancel_right₀ hef b d⟩

/-- **C129** With the documented name `timestep` instead of its alias `dt` a run in reduced units raises, and so does any other system. -/
theorem times_raise (ef : ℚ) (o : List (String × ℚ)) (hd : o.lookup "dt" = none) : times true ef o true = none ∧ ∀ o, times false ef o true = none := by
  refine ⟨?_, fun o => ?_⟩
  · rw [times]
    cases o.lookup "beta" <;> simp [hd]
  · rw [times]
    cases o.lookup "beta" <;> simp

end Verif.Slices
