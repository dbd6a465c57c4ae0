import Verif.Stack.Model
import Mathlib.LinearAlgebra.Matrix.NonsingularInverse
import Mathlib.Tactic.Ring
import Mathlib.Tactic.Linarith
import Mathlib.Tactic.NormNum
import Mathlib.LinearAlgebra.Matrix.Notation

/-!
# Properties C16, C17, C18, C63: the propagator stack and its size
-/

namespace Verif.Stack

/-! ## C18: `update_stack` -/

theorem not_dvd_iff {n b : Nat} (hb : 0 < b) : n / b * b < n ↔ ¬ b ∣ n := by
  constructor
  · intro h hd
    rw [Nat.div_mul_cancel hd] at h
    exact lt_irrefl _ h
  · intro h
    rcases Nat.lt_or_ge (n / b * b) n with h1 | h1
    · exact h1
    · exact absurd (Dvd.intro_left _ (Nat.le_antisymm (Nat.div_mul_le_self n b) h1)) h

theorem lowerLoop_spec (n : Nat) : ∀ (b f : Nat), 0 < b → b ≤ f →
    ∃ r, lowerLoop n f b = .done r ∧ r ∣ n ∧ r ≤ b ∧ ∀ d, d ∣ n → d ≤ b → d ≤ r
  | 0, _, h, _ => absurd h (by omega)
  | b + 1, 0, _, h => by omega
  | b + 1, f + 1, _, hf => by
    unfold lowerLoop
    rw [if_neg (by omega)]
    by_cases hd : (b + 1) ∣ n
    · rw [if_neg (by rw [not_dvd_iff (by omega)]; simpa using hd)]
      exact ⟨b + 1, rfl, hd, le_rfl, fun d _ h => h⟩
    · rw [if_pos ((not_dvd_iff (by omega)).2 hd)]
      have hb : b ≠ 0 := by
        rintro rfl
        exact hd (one_dvd n)
      obtain ⟨r, h1, h2, h3, h4⟩ := lowerLoop_spec n b f (by omega) (by omega)
      refine ⟨r, h1, h2, by omega, ?_⟩
      intro d hdn hdb
      apply h4 d hdn
      have : d ≠ b + 1 := by rintro rfl; exact hd hdn
      omega

theorem upperLoop_spec (n : Nat) : ∀ (k b f : Nat), 0 < b → b + k = n → k + 1 ≤ f →
    ∃ r, upperLoop n f b = .done r ∧ r ∣ n ∧ b ≤ r ∧ ∀ d, d ∣ n → b ≤ d → r ≤ d
  | _, _, 0, _, _, h => by omega
  | k, b, f + 1, hb, hk, hf => by
    unfold upperLoop
    rw [if_neg (by omega)]
    by_cases hd : b ∣ n
    · rw [if_neg (by rw [not_dvd_iff hb]; simpa using hd)]
      exact ⟨b, rfl, hd, le_rfl, fun d _ h => h⟩
    · rw [if_pos ((not_dvd_iff hb).2 hd)]
      cases k with
      | zero => exact absurd (by rw [← hk]; simp) hd
      | succ k =>
        obtain ⟨r, h1, h2, h3, h4⟩ := upperLoop_spec n k (b + 1) f (by omega) (by omega) (by omega)
        refine ⟨r, h1, h2, by omega, ?_⟩
        intro d hdn hdb
        apply h4 d hdn
        have : d ≠ b := by rintro rfl; exact hd hdn
        omega

/-- C18: for every positive request `s` and positive number of slices `n` the search ends (after at
most `n` tests per loop) with a divisor of `n` that is nearest to the request; among equally near
divisors it is the smallest. -/
theorem updateStack_nearest (s n : Nat) (hs : 0 < s) (hn : 0 < n) :
    ∃ r, (∀ fuel, n ≤ fuel → updateStack fuel s n = .done r) ∧ r ∣ n ∧
      ∀ d, d ∣ n → |(s : Int) - r| ≤ |(s : Int) - d| ∧
        (|(s : Int) - d| = |(s : Int) - r| → r ≤ d) := by
  obtain ⟨lo, -, l2, l3, l4⟩ := lowerLoop_spec n (min s n) n (by omega) (by omega)
  obtain ⟨hi, -, u2, u3, u4⟩ := upperLoop_spec n (n - min s n) (min s n) n (by omega) (by omega)
    (by omega)
  have hlo : ∀ fuel, n ≤ fuel → lowerLoop n fuel (min s n) = .done lo := by
    intro fuel hf
    obtain ⟨r, h1, h2, h3, h4⟩ := lowerLoop_spec n (min s n) fuel (by omega) (by omega)
    rw [h1, Nat.le_antisymm (l4 r h2 h3) (h4 lo l2 l3)]
  have hhi : ∀ fuel, n ≤ fuel → upperLoop n fuel (min s n) = .done hi := by
    intro fuel hf
    obtain ⟨r, h1, h2, h3, h4⟩ := upperLoop_spec n (n - min s n) (min s n) fuel (by omega)
      (by omega) (by omega)
    rw [h1, Nat.le_antisymm (h4 hi u2 u3) (u4 r h2 h3)]
  have hlon : lo ≤ n := Nat.le_of_dvd hn l2
  have hhin : hi ≤ n := Nat.le_of_dvd hn u2
  refine ⟨if (s : Int) - lo ≤ (hi : Int) - s then lo else hi, ?_, ?_, ?_⟩
  · intro fuel hf
    unfold updateStack
    rw [hlo fuel hf, hhi fuel hf]
    simp only
    split_ifs <;> rfl
  · split_ifs
    · exact l2
    · exact u2
  · intro d hd
    have hdn : d ≤ n := Nat.le_of_dvd hn hd
    have h1 := l4 d hd
    have h2 := u4 d hd
    split_ifs with h
    · rcases Nat.le_total d (min s n) with hc | hc
      · have := h1 hc
        refine ⟨?_, ?_⟩
        · rw [abs_of_nonneg (by omega), abs_of_nonneg (by omega)]; omega
        · intro h3
          rw [abs_of_nonneg (by omega), abs_of_nonneg (by omega)] at h3; omega
      · have := h2 hc
        refine ⟨?_, fun _ => by omega⟩
        rw [abs_of_nonneg (by omega), abs_of_nonpos (by omega)]; omega
    · rcases Nat.le_total d (min s n) with hc | hc
      · have := h1 hc
        rcases Nat.le_total s hi with hsh | hsh
        · refine ⟨?_, ?_⟩
          · rw [abs_of_nonpos (by omega), abs_of_nonneg (by omega)]; omega
          · intro h3
            rw [abs_of_nonneg (by omega), abs_of_nonpos (by omega)] at h3; omega
        · have : hi = min s n ∨ hi = n := by omega
          refine ⟨?_, ?_⟩
          · rw [abs_of_nonneg (by omega), abs_of_nonneg (by omega)]; omega
          · intro h3
            rw [abs_of_nonneg (by omega), abs_of_nonneg (by omega)] at h3; omega
      · have := h2 hc
        rcases Nat.le_total s hi with hsh | hsh
        · refine ⟨?_, fun _ => by omega⟩
          rw [abs_of_nonpos (by omega), abs_of_nonpos (by omega)]; omega
        · refine ⟨?_, fun _ => by omega⟩
          rcases Nat.lt_or_ge s n with hc' | hc'
          · have : hi = s := by omega
            subst this
            simp
          · have : d = hi := by omega
            subst this
            exact le_rfl

/-- C18, error branch: a request of zero is a division by zero. -/
theorem updateStack_zero (n fuel : Nat) : updateStack (fuel + 1) 0 n = .error := by
  simp [updateStack, lowerLoop]

example : (0 < 7 ∧ 0 < 20) ∧ (∃ r, updateStack 20 7 20 = .done r ∧ r = 5) :=
  ⟨by omega, 5, by rfl, rfl⟩

/-! ## C16 -/

variable {m : Type} [Fintype m] [DecidableEq m] {R : Type} [CommRing R]

/-- The slices of bin `b` among the propagators applied so far, oldest first. -/
def slice (ss : Nat) (Bs : List (Matrix m m R)) (b : Nat) : List (Matrix m m R) :=
  (Bs.drop (b * ss)).take ss

/-- Product with later slices to the left. -/
def ordered (Bs : List (Matrix m m R)) : Matrix m m R := Bs.reverse.prod

theorem ordered_append (Bs : List (Matrix m m R)) (B : Matrix m m R) :
    ordered (Bs ++ [B]) = B * ordered Bs := by simp [ordered]

theorem slice_cur_length {ss : Nat} (hss : 0 < ss) (Bs : List (Matrix m m R)) :
    (slice ss Bs (Bs.length / ss)).length = Bs.length % ss := by
  unfold slice
  rw [List.length_take, List.length_drop]
  have := Nat.mod_add_div Bs.length ss
  rw [Nat.mul_comm] at this
  have := Nat.mod_lt Bs.length hss
  omega

theorem slice_append {ss : Nat} (hss : 0 < ss) (Bs : List (Matrix m m R)) (B : Matrix m m R)
    (b : Nat) : slice ss (Bs ++ [B]) b =
      if b = Bs.length / ss then slice ss Bs b ++ [B] else slice ss Bs b := by
  have h1 := Nat.mod_add_div Bs.length ss
  rw [Nat.mul_comm] at h1
  have h2 := Nat.mod_lt Bs.length hss
  split_ifs with h
  · subst h
    unfold slice
    rw [List.drop_append_of_le_length (by omega), List.take_append, List.length_drop]
    rw [List.take_of_length_le (l := [B]) (by simp; omega)]
  · unfold slice
    rcases Nat.lt_or_gt_of_ne h with h | h
    · have h3 : (b + 1) * ss ≤ Bs.length / ss * ss := Nat.mul_le_mul_right _ h
      rw [Nat.add_mul, Nat.one_mul] at h3
      rw [List.drop_append_of_le_length (by omega), List.take_append_of_le_length]
      rw [List.length_drop]; omega
    · have h3 : (Bs.length / ss + 1) * ss ≤ b * ss := Nat.mul_le_mul_right _ h
      rw [Nat.add_mul, Nat.one_mul] at h3
      rw [List.drop_eq_nil_of_le (by simp; omega), List.drop_eq_nil_of_le (by omega)]

/-- Contents of the stack after the updates `Bs`, for a stack that held `init b` in bin `b`. -/
structure Inv (ss nb : Nat) (init : Nat → Matrix m m R) (Bs : List (Matrix m m R)) (s : St m R) :
    Prop where
  size : s.stackSize = ss
  nbins : s.nbins = nb
  slices : s.nslices = nb * ss
  len : s.stack.length = nb
  ts : s.timeSlice = Bs.length
  blk : s.block = Bs.length / ss
  cnt : s.counter = Bs.length % ss
  bins : ∀ b, b < nb → s.stack[b]? =
    some (if slice ss Bs b = [] then init b else ordered (slice ss Bs b))

theorem mod_succ_eq (a ss : Nat) : (a % ss + 1) % ss = (a + 1) % ss := by
  rw [Nat.add_mod, Nat.mod_mod, ← Nat.add_mod]

theorem inv_step {ss nb : Nat} (hss : 0 < ss) {init : Nat → Matrix m m R}
    {Bs : List (Matrix m m R)} {s : St m R} (h : Inv ss nb init Bs s) (hl : Bs.length < nb * ss)
    (B : Matrix m m R) : ∃ s', s.update B = some s' ∧ Inv ss nb init (Bs ++ [B]) s' := by
  have hb : Bs.length / ss < nb := (Nat.div_lt_iff_lt_mul hss).2 hl
  have hcur := h.bins _ hb
  have hlen := slice_cur_length hss Bs
  have hval : (if s.counter = 0 then 1 else
      (if slice ss Bs (Bs.length / ss) = [] then init (Bs.length / ss)
        else ordered (slice ss Bs (Bs.length / ss)))) = ordered (slice ss Bs (Bs.length / ss)) := by
    rw [h.cnt]
    split_ifs with h1 h2
    · rw [h1] at hlen
      rw [List.eq_nil_of_length_eq_zero hlen]
      simp [ordered]
    · rw [h2] at hlen
      exact absurd hlen.symm h1
    · rfl
  unfold St.update
  rw [h.blk, hcur]
  simp only [hval]
  refine ⟨_, rfl, ⟨h.size, h.nbins, h.slices, by simp [h.len], by simp [h.ts], ?_, ?_, ?_⟩⟩
  · simp [h.ts, h.size]
  · simp only [h.cnt, h.size, List.length_append, List.length_singleton]
    exact mod_succ_eq _ _
  · intro b hbn
    by_cases hbe : b = Bs.length / ss
    · subst hbe
      show (s.stack.set _ _)[_]? = _
      rw [List.getElem?_set_self (by rw [h.len]; exact hb), slice_append hss, if_pos rfl,
        if_neg (by simp), ordered_append]
    · show (s.stack.set _ _)[_]? = _
      rw [List.getElem?_set_ne (fun h => hbe h.symm), slice_append hss, if_neg hbe]
      exact h.bins b hbn

theorem inv_updates {ss nb : Nat} (hss : 0 < ss) {init : Nat → Matrix m m R} :
    ∀ (Bs done : List (Matrix m m R)) (s : St m R), Inv ss nb init done s →
      (done ++ Bs).length ≤ nb * ss →
      ∃ s', s.updates Bs = some s' ∧ Inv ss nb init (done ++ Bs) s'
  | [], done, s, h, _ => ⟨s, rfl, by simpa using h⟩
  | B :: Bs, done, s, h, hl => by
    simp only [List.length_append, List.length_cons] at hl
    obtain ⟨s1, h1, h2⟩ := inv_step hss h (by omega) B
    obtain ⟨s2, h3, h4⟩ := inv_updates hss Bs (done ++ [B]) s1 h2 (by simp; omega)
    refine ⟨s2, by simp only [St.updates, h1, h3], ?_⟩
    simpa using h4

theorem make_some {ss nsl : Nat} (hss : 0 < ss) (hd : ss ∣ nsl) :
    St.make (m := m) (R := R) ss nsl = some (St.reset (blank ss nsl (nsl / ss))) := by
  unfold St.make
  rw [if_neg (by omega), if_neg (by rw [Nat.div_mul_cancel hd]; omega)]

/-! ### Initialisation with the trial propagator -/

/-- The diagonal code path is only used with diagonal matrices. -/
def DiagOk (diag : Bool) (A : Matrix m m R) : Prop := diag = true → ∃ d : m → R, A = .diagonal d

omit [DecidableEq m] in
theorem dmul_eq [DecidableEq m] {diag : Bool} {A B : Matrix m m R} (hA : DiagOk diag A)
    (hB : DiagOk diag B) : dmul diag A B = A * B := by
  unfold dmul
  split_ifs with h
  · obtain ⟨a, rfl⟩ := hA h
    obtain ⟨b, rfl⟩ := hB h
    simp
  · rfl

theorem rmul_eq {diag : Bool} {A B : Matrix m m R} (hA : DiagOk diag A) :
    rmul diag A B = A * B := by
  unfold rmul
  split_ifs with h
  · obtain ⟨a, rfl⟩ := hA h
    ext i j
    simp
  · rfl

theorem DiagOk.pow {diag : Bool} {A : Matrix m m R} (hA : DiagOk diag A) (k : Nat) :
    DiagOk diag (A ^ k) := by
  intro h
  obtain ⟨a, rfl⟩ := hA h
  exact ⟨a ^ k, by rw [Matrix.diagonal_pow]⟩

theorem DiagOk.mul {diag : Bool} {A B : Matrix m m R} (hA : DiagOk diag A) (hB : DiagOk diag B) :
    DiagOk diag (A * B) := by
  intro h
  obtain ⟨a, rfl⟩ := hA h
  obtain ⟨b, rfl⟩ := hB h
  exact ⟨fun i => a i * b i, by simp⟩

/-- State of `set_all` after `k` iterations. -/
structure SetInv (ss nb : Nat) (BT : Matrix m m R) (s0 : St m R) (k : Nat) (s : St m R) :
    Prop where
  size : s.stackSize = ss
  nbins : s.nbins = nb
  slices : s.nslices = nb * ss
  ts : s.timeSlice = s0.timeSlice
  blk : s.block = s0.block
  cnt : s.counter = s0.counter
  right : s.right = s0.right
  l1 : s.left.length = nb
  l2 : s.stack.length = nb
  left : ∀ b, b < nb → s.left[b]? = some (BT ^ min ss (k - b * ss))
  stack : ∀ b, b < nb → s.stack[b]? = some (BT ^ min ss (k - b * ss))

theorem setInv_step {ss nb : Nat} (hss : 0 < ss) {diag : Bool} {BT : Matrix m m R}
    (hBT : DiagOk diag BT) {s0 s : St m R} {k : Nat} (h : SetInv ss nb BT s0 k s)
    (hk : k < nb * ss) : SetInv ss nb BT s0 (k + 1) (s.setOne diag BT k) := by
  have h1 := Nat.mod_add_div k ss
  rw [Nat.mul_comm] at h1
  have h2 := Nat.mod_lt k hss
  have hb : k / ss < nb := (Nat.div_lt_iff_lt_mul hss).2 hk
  have hget : s.left.getD (k / ss) 0 = BT ^ (k % ss) := by
    rw [List.getD_eq_getElem?_getD, h.left _ hb]
    simp only [Option.getD_some]
    congr 1; omega
  have hl : dmul diag BT (s.left.getD (k / ss) 0) = BT ^ (k % ss + 1) := by
    rw [hget, dmul_eq hBT (hBT.pow _), pow_succ']
  have key : ∀ (l : List (Matrix m m R)), l.length = nb →
      (∀ b, b < nb → l[b]? = some (BT ^ min ss (k - b * ss))) → ∀ b, b < nb →
      (l.set (k / ss) (BT ^ (k % ss + 1)))[b]? = some (BT ^ min ss (k + 1 - b * ss)) := by
    intro l hlen hl b hbn
    by_cases hbe : k / ss = b
    · subst hbe
      rw [List.getElem?_set_self (by omega)]
      congr 2; omega
    · rw [List.getElem?_set_ne hbe, hl b hbn]
      congr 2
      rcases Nat.lt_or_gt_of_ne hbe with hlt | hlt
      · have h3 : (k / ss + 1) * ss ≤ b * ss := Nat.mul_le_mul_right _ hlt
        rw [Nat.add_mul, Nat.one_mul] at h3
        omega
      · have h3 : (b + 1) * ss ≤ k / ss * ss := Nat.mul_le_mul_right _ hlt
        rw [Nat.add_mul, Nat.one_mul] at h3
        omega
  have e : s.setOne diag BT k = { s with
      left := s.left.set (k / ss) (BT ^ (k % ss + 1))
      stack := s.stack.set (k / ss) (BT ^ (k % ss + 1)) } := by
    unfold St.setOne
    simp only [h.size, hl]
  rw [e]
  exact ⟨h.size, h.nbins, h.slices, h.ts, h.blk, h.cnt, h.right, by simp [h.l1], by simp [h.l2],
    key _ h.l1 h.left, key _ h.l2 h.stack⟩

theorem setAll_inv {ss nb : Nat} (hss : 0 < ss) {diag : Bool} {BT : Matrix m m R}
    (hBT : DiagOk diag BT) {s : St m R} (h1 : s.stackSize = ss) (h2 : s.nbins = nb)
    (h3 : s.nslices = nb * ss) (hl : s.left = List.replicate nb 1)
    (hs : s.stack = List.replicate nb 1) :
    SetInv ss nb BT s (nb * ss) (s.setAll diag BT) := by
  have key : ∀ k, k ≤ nb * ss → SetInv ss nb BT s k
      ((List.range k).foldl (St.setOne diag BT) s) := by
    intro k
    induction k with
    | zero =>
      intro _
      refine ⟨h1, h2, h3, rfl, rfl, rfl, rfl, by simp [hl], by simp [hs], ?_, ?_⟩
      · intro b hb; simp [hl, hb]
      · intro b hb; simp [hs, hb]
    | succ k ih =>
      intro hk
      rw [List.range_succ, List.foldl_append]
      exact setInv_step hss hBT (ih (by omega)) (by omega)
  unfold St.setAll
  rw [h3]
  exact key _ le_rfl

theorem bin_full {ss nb b : Nat} (hb : b < nb) : min ss (nb * ss - b * ss) = ss := by
  have : (b + 1) * ss ≤ nb * ss := Nat.mul_le_mul_right _ hb
  rw [Nat.add_mul, Nat.one_mul] at this
  omega

/-- A stack of a walker before the first update: `make`, then optionally `set_all`
(walkers/thermal.py 51-60). -/
def fresh (diag : Bool) (BT : Matrix m m R) (ss nsl : Nat) : Option (St m R) :=
  (St.make ss nsl).map (St.setAll diag BT)

theorem fresh_some (diag : Bool) (BT : Matrix m m R) (hBT : DiagOk diag BT) (ss nb : Nat)
    (hss : 0 < ss) : ∃ s0, fresh diag BT ss (ss * nb) = some s0 ∧
      s0 = (St.reset (blank ss (ss * nb) nb)).setAll diag BT ∧
      SetInv ss nb BT (St.reset (blank ss (ss * nb) nb)) (nb * ss) s0 := by
  have hnb : ss * nb / ss = nb := Nat.mul_div_cancel_left nb hss
  have hset := setAll_inv (nb := nb) (R := R) (m := m) hss hBT (s := St.reset (blank ss (ss * nb) nb)) rfl rfl
      (by simp [St.reset, blank, Nat.mul_comm]) rfl rfl
  refine ⟨_, ?_, rfl, hset⟩
  rw [fresh, make_some hss ⟨nb, rfl⟩, hnb]; rfl

theorem fresh_updates (diag : Bool) (BT : Matrix m m R) (hBT : DiagOk diag BT) (ss nb : Nat)
    (hss : 0 < ss) (Bs : List (Matrix m m R)) (hl : Bs.length ≤ ss * nb) :
    ∃ s0 s, fresh diag BT ss (ss * nb) = some s0 ∧ s0.updates Bs = some s ∧
      Inv ss nb (fun _ => BT ^ ss) Bs s := by
  obtain ⟨s0, h0, -, hset⟩ := fresh_some diag BT hBT ss nb hss
  obtain ⟨s, h1, h2⟩ := inv_updates hss (init := fun _ => BT ^ ss) Bs [] s0
    ⟨hset.size, hset.nbins, hset.slices, hset.l2, by rw [hset.ts]; rfl,
      by rw [hset.blk]; simp [St.reset, blank], by rw [hset.cnt]; simp [St.reset, blank], by
        intro b hb
        rw [hset.stack b hb, bin_full hb]
        simp [slice]⟩ (by simpa [Nat.mul_comm] using hl)
  exact ⟨s0, s, h0, h1, h2⟩

/-- C16: for every stack size dividing the number of slices and every sequence of at most that many
propagators, updating a freshly initialised stack succeeds; every bin that has been started holds
the product of its propagators (later ones to the left), every other bin still holds the product of
trial propagators it was initialised with, and the slice, bin and counter indices agree. -/
theorem stack_update_product (diag : Bool) (BT : Matrix m m R) (hBT : DiagOk diag BT) (ss nsl : Nat)
    (hss : 0 < ss) (hd : ss ∣ nsl) (Bs : List (Matrix m m R)) (hl : Bs.length ≤ nsl) :
    ∃ s0 s, fresh diag BT ss nsl = some s0 ∧ s0.updates Bs = some s ∧
      s.timeSlice = Bs.length ∧ s.block = Bs.length / ss ∧ s.counter = Bs.length % ss ∧
      s.stack.length = nsl / ss ∧
      ∀ b, b < nsl / ss → s.stack[b]? =
        some (if b * ss < Bs.length then ordered ((Bs.drop (b * ss)).take ss) else BT ^ ss) := by
  obtain ⟨nb, rfl⟩ := hd
  have hnb : ss * nb / ss = nb := Nat.mul_div_cancel_left nb hss
  obtain ⟨s0, s, h0, h1, h2⟩ := fresh_updates diag BT hBT ss nb hss Bs hl
  refine ⟨s0, s, h0, h1, h2.ts, h2.blk, h2.cnt, by rw [h2.len, hnb], ?_⟩
  intro b hb
  rw [hnb] at hb
  rw [h2.bins b hb]
  by_cases hlt : b * ss < Bs.length
  · rw [if_pos hlt, if_neg]
    · rfl
    · intro h
      have := congrArg List.length h
      unfold slice at this
      rw [List.length_take, List.length_drop] at this
      simp at this; omega
  · rw [if_neg hlt, if_pos]
    unfold slice
    rw [List.drop_eq_nil_of_le (by omega), List.take_nil]

/-- C16, boundary: one update more than there are slices is an index error. -/
theorem stack_update_overrun (diag : Bool) (BT : Matrix m m R) (hBT : DiagOk diag BT) (ss nsl : Nat)
    (hss : 0 < ss) (hd : ss ∣ nsl) (Bs : List (Matrix m m R)) (hl : Bs.length = nsl)
    (B : Matrix m m R) :
    ∃ s0 s, fresh diag BT ss nsl = some s0 ∧ s0.updates Bs = some s ∧ s.update B = none := by
  obtain ⟨s0, s, h1, h2, -, h4, -, h6, -⟩ := stack_update_product diag BT hBT ss nsl hss hd Bs
    (by omega)
  refine ⟨s0, s, h1, h2, ?_⟩
  unfold St.update
  rw [h4, hl, List.getElem?_eq_none (by omega)]

/-- C16, construction: a stack size that does not divide the number of slices is rejected. -/
theorem stack_make_rejects (ss nsl : Nat) :
    (St.make (m := m) (R := R) ss nsl).isSome ↔ 0 < ss ∧ ss ∣ nsl := by
  constructor
  · intro h
    unfold St.make at h
    split_ifs at h with h1 h2
    · simp at h
    · simp at h
    · refine ⟨by omega, ?_⟩
      by_contra hd
      exact h2 ((not_dvd_iff (by omega)).2 hd)
  · rintro ⟨h1, h2⟩
    rw [make_some h1 h2]; rfl

/-! ## C17 -/

structure FullInv (ss nb : Nat) (BT : Matrix m m R) (Bs : List (Matrix m m R)) (s : St m R) :
    Prop where
  size : s.stackSize = ss
  l1 : s.stack.length = nb
  l2 : s.left.length = nb
  l3 : s.right.length = nb
  ts : s.timeSlice = Bs.length
  blk : s.block = Bs.length / ss
  cnt : s.counter = Bs.length % ss
  left : ∀ b, b < nb → s.left[b]? = some (BT ^ (ss - (slice ss Bs b).length))
  right : ∀ b, b < nb → s.right[b]? = some (ordered (slice ss Bs b))
  stack : ∀ b, b < nb → s.stack[b]? =
    some (BT ^ (ss - (slice ss Bs b).length) * ordered (slice ss Bs b))

theorem full_step {ss nb : Nat} (hss : 0 < ss) {diag : Bool} {BT BTinv : Matrix m m R}
    (hBT : DiagOk diag BT) (hBTi : DiagOk diag BTinv) (hinv : BT * BTinv = 1)
    {Bs : List (Matrix m m R)} {s : St m R} (h : FullInv ss nb BT Bs s)
    (hl : Bs.length < nb * ss) (B : Matrix m m R) :
    ∃ s', s.updateFull diag BTinv B = some s' ∧ FullInv ss nb BT (Bs ++ [B]) s' := by
  have hb : Bs.length / ss < nb := (Nat.div_lt_iff_lt_mul hss).2 hl
  have hlen := slice_cur_length hss Bs
  have hlt := Nat.mod_lt Bs.length hss
  unfold St.updateFull
  rw [h.blk, h.right _ hb, h.left _ hb]
  simp only
  have hleft : dmul diag (BT ^ (ss - (slice ss Bs (Bs.length / ss)).length)) BTinv =
      BT ^ (ss - (slice ss (Bs ++ [B]) (Bs.length / ss)).length) := by
    rw [dmul_eq (hBT.pow _) hBTi, slice_append hss, if_pos rfl, List.length_append, hlen]
    have e : ss - Bs.length % ss = (ss - (Bs.length % ss + [B].length)) + 1 := by simp; omega
    rw [e, pow_succ, mul_assoc, hinv, mul_one]
  have hright : B * (if s.counter = 0 then 1 else ordered (slice ss Bs (Bs.length / ss))) =
      ordered (slice ss (Bs ++ [B]) (Bs.length / ss)) := by
    rw [slice_append hss, if_pos rfl, ordered_append]
    congr 1
    split_ifs with h1
    · rw [h.cnt] at h1
      rw [h1] at hlen
      rw [List.eq_nil_of_length_eq_zero hlen]
      simp [ordered]
    · rfl
  rw [hleft, hright, rmul_eq (hBT.pow _)]
  have key : ∀ (l : List (Matrix m m R)) (f : List (Matrix m m R) → Matrix m m R),
      l.length = nb → (∀ b, b < nb → l[b]? = some (f (slice ss Bs b))) → ∀ b, b < nb →
      (l.set (Bs.length / ss) (f (slice ss (Bs ++ [B]) (Bs.length / ss))))[b]? =
        some (f (slice ss (Bs ++ [B]) b)) := by
    intro l f hll hf b hbn
    by_cases hbe : Bs.length / ss = b
    · subst hbe
      rw [List.getElem?_set_self (by omega)]
    · rw [List.getElem?_set_ne hbe, hf b hbn, slice_append hss (b := b), if_neg (fun h => hbe h.symm)]
  refine ⟨_, rfl, ⟨h.size, by simp [h.l1], by simp [h.l2], by simp [h.l3], by simp [h.ts],
    by simp [h.ts, h.size], ?_, ?_, ?_, ?_⟩⟩
  · simp only [h.cnt, h.size, List.length_append, List.length_singleton]
    exact mod_succ_eq _ _
  · exact key s.left (fun l => BT ^ (ss - l.length)) h.l2 h.left
  · exact key s.right ordered h.l3 h.right
  · exact key s.stack (fun l => BT ^ (ss - l.length) * ordered l) h.l1 h.stack

theorem full_updates {ss nb : Nat} (hss : 0 < ss) {diag : Bool} {BT BTinv : Matrix m m R}
    (hBT : DiagOk diag BT) (hBTi : DiagOk diag BTinv) (hinv : BT * BTinv = 1) :
    ∀ (Bs done : List (Matrix m m R)) (s : St m R), FullInv ss nb BT done s →
      (done ++ Bs).length ≤ nb * ss →
      ∃ s', s.updatesFull diag BTinv Bs = some s' ∧ FullInv ss nb BT (done ++ Bs) s'
  | [], done, s, h, _ => ⟨s, rfl, by simpa using h⟩
  | B :: Bs, done, s, h, hl => by
    simp only [List.length_append, List.length_cons] at hl
    obtain ⟨s1, h1, h2⟩ := full_step hss hBT hBTi hinv h (by omega) B
    obtain ⟨s2, h3, h4⟩ := full_updates hss hBT hBTi hinv Bs (done ++ [B]) s1 h2 (by simp; omega)
    refine ⟨s2, by simp only [St.updatesFull, h1, h3], ?_⟩
    simpa using h4

/-- C17: with the full-rank update, bin `b` of which `n` slices have been sampled equals
`BT ^ (stack_size - n)` times the product of the `n` sampled propagators; a completed bin is the
plain product. -/
theorem stack_full_rank (diag : Bool) (BT BTinv : Matrix m m R) (hBT : DiagOk diag BT)
    (hBTi : DiagOk diag BTinv) (hinv : BT * BTinv = 1) (ss nsl : Nat) (hss : 0 < ss)
    (hd : ss ∣ nsl) (Bs : List (Matrix m m R)) (hl : Bs.length ≤ nsl) :
    ∃ s0 s, fresh diag BT ss nsl = some s0 ∧ s0.updatesFull diag BTinv Bs = some s ∧
      s.timeSlice = Bs.length ∧ s.block = Bs.length / ss ∧ s.counter = Bs.length % ss ∧
      ∀ b, b < nsl / ss →
        (∀ n, n ≤ ss → (Bs.length = b * ss + n) → s.stack[b]? =
          some (BT ^ (ss - n) * ordered (Bs.drop (b * ss)))) ∧
        (Bs.length ≤ b * ss → s.stack[b]? = some (BT ^ ss)) ∧
        ((b + 1) * ss ≤ Bs.length → s.stack[b]? =
          some (ordered ((Bs.drop (b * ss)).take ss))) := by
  obtain ⟨nb, rfl⟩ := hd
  have hnb : ss * nb / ss = nb := Nat.mul_div_cancel_left nb hss
  obtain ⟨s0, h0, -, hset⟩ := fresh_some diag BT hBT ss nb hss
  obtain ⟨s, h1, h2⟩ := full_updates hss hBT hBTi hinv Bs [] s0
    (show FullInv ss nb BT [] _ from ⟨hset.size, hset.l2, hset.l1,
      by rw [hset.right]; simp [St.reset, blank], by rw [hset.ts]; rfl,
      by rw [hset.blk]; simp [St.reset, blank], by rw [hset.cnt]; simp [St.reset, blank],
      by intro b hb; rw [hset.left b hb, bin_full hb]; simp [slice],
      by intro b hb; rw [hset.right]; simp [St.reset, blank, hb, slice, ordered],
      by intro b hb; rw [hset.stack b hb, bin_full hb]; simp [slice, ordered]⟩)
    (by simpa [Nat.mul_comm] using hl)
  refine ⟨s0, s, h0, h1, h2.ts, h2.blk, h2.cnt, ?_⟩
  intro b hb
  rw [hnb] at hb
  rw [h2.stack b hb]
  simp only [List.nil_append]
  refine ⟨?_, ?_, ?_⟩
  · intro n hn hlen
    have : slice ss Bs b = Bs.drop (b * ss) := by
      unfold slice
      rw [List.take_of_length_le]
      rw [List.length_drop]; omega
    rw [this, List.length_drop]
    congr 4; omega
  · intro hlen
    have : slice ss Bs b = [] := by
      unfold slice
      rw [List.drop_eq_nil_of_le (by omega), List.take_nil]
    rw [this]
    simp [ordered]
  · intro hlen
    rw [Nat.add_mul, Nat.one_mul] at hlen
    have : (slice ss Bs b).length = ss := by
      unfold slice
      rw [List.length_take, List.length_drop]; omega
    rw [this]
    simp [slice]

/-! ## C63: reset -/

/-- C63, partial: resetting and re-initialising a stack whose updates filled complete bins gives
exactly the freshly initialised stack.  Missing: a reset in the middle of a bin, see below. -/
theorem stack_reset_partial (diag : Bool) (BT : Matrix m m R) (hBT : DiagOk diag BT) (ss nsl : Nat)
    (hss : 0 < ss) (hd : ss ∣ nsl) (Bs : List (Matrix m m R)) (hl : Bs.length ≤ nsl)
    (hfull : ss ∣ Bs.length) (s0 s : St m R) (h0 : fresh diag BT ss nsl = some s0)
    (hs : s0.updates Bs = some s) : s.reset.setAll diag BT = s0 := by
  obtain ⟨nb, rfl⟩ := hd
  obtain ⟨s1, h1, h2, -⟩ := fresh_some diag BT hBT ss nb hss
  obtain ⟨s2, s3, h3, h4, h5⟩ := fresh_updates diag BT hBT ss nb hss Bs hl
  rw [h0] at h1 h3
  cases h1
  cases h3
  rw [hs] at h4
  cases h4
  have e : s.reset = St.reset (blank ss (ss * nb) nb) := by
    have a1 := h5.size
    have a2 := h5.slices
    have a3 := h5.nbins
    have a4 := h5.cnt
    rw [Nat.mod_eq_zero_of_dvd hfull] at a4
    rw [Nat.mul_comm] at a2
    cases s
    simp only at a1 a2 a3 a4
    simp [St.reset, blank, a1, a2, a3, a4]
  rw [e, ← h2]

/-- C63 is false in general: `reset` keeps the position inside the bin.  If the last bin was not
complete, the first update after the reset does not start bin 0 afresh but multiplies onto the trial
propagators, giving `B * BT ^ stack_size` in bin 0 where a fresh stack has `B`. -/
theorem stack_reset_mid_bin (diag : Bool) (BT : Matrix m m R) (hBT : DiagOk diag BT) (ss nsl : Nat)
    (hss : 0 < ss) (hd : ss ∣ nsl) (Bs : List (Matrix m m R)) (hl : Bs.length ≤ nsl)
    (hpart : ¬ ss ∣ Bs.length) (s0 s : St m R) (h0 : fresh diag BT ss nsl = some s0)
    (hs : s0.updates Bs = some s) (B : Matrix m m R) :
    ∃ s1, (s.reset.setAll diag BT).update B = some s1 ∧ s1.stack[0]? = some (B * BT ^ ss) := by
  obtain ⟨nb, rfl⟩ := hd
  obtain ⟨s2, s3, h3, h4, h5⟩ := fresh_updates diag BT hBT ss nb hss Bs hl
  rw [h0] at h3
  cases h3
  rw [hs] at h4
  cases h4
  have hnb : 0 < nb := by
    rcases Nat.eq_zero_or_pos nb with rfl | h
    · exact absurd (by simp at hl; simp [hl]) hpart
    · exact h
  have hset := setAll_inv hss hBT (s := s.reset) (nb := nb) h5.size h5.nbins h5.slices
    (by simp [St.reset, h5.nbins]) (by simp [St.reset, h5.nbins])
  unfold St.update
  have hb0 : (s.reset.setAll diag BT).block = 0 := hset.blk
  have hc0 : (s.reset.setAll diag BT).counter ≠ 0 := by
    rw [hset.cnt]
    show s.counter ≠ 0
    rw [h5.cnt]
    exact fun h => hpart (Nat.dvd_of_mod_eq_zero h)
  have hst := hset.stack 0 hnb
  rw [bin_full hnb] at hst
  rw [hb0, hst]
  refine ⟨_, rfl, ?_⟩
  show (List.set _ _ _)[0]? = _
  rw [List.getElem?_set_self (by rw [hset.l2]; exact hnb), if_neg hc0]

/-- Non-vacuity: two by two matrices, four slices in bins of two, three propagators (the last bin
is incomplete), and an invertible non-trivial diagonal trial propagator. -/
example :
    let BT : Matrix (Fin 2) (Fin 2) ℚ := .diagonal ![2, 1 / 3]
    let BTi : Matrix (Fin 2) (Fin 2) ℚ := .diagonal ![1 / 2, 3]
    DiagOk true BT ∧ DiagOk true BTi ∧ BT * BTi = 1 ∧ (0 < 2 ∧ 2 ∣ 4) ∧
      [BT, !![1, 2; 3, 4], BTi].length ≤ 4 ∧ ¬ 2 ∣ [BT, !![1, 2; 3, 4], BTi].length := by
  refine ⟨fun _ => ⟨_, rfl⟩, fun _ => ⟨_, rfl⟩, ?_, by decide, by simp, by simp⟩
  ext i j
  fin_cases i <;> fin_cases j <;> simp [Matrix.diagonal_mul_diagonal]

end Verif.Stack
