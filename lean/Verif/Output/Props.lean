import Verif.Output.Model
import Mathlib.Order.Interval.Finset.Nat
import Mathlib.Data.Fintype.Card
import Mathlib.Data.List.Sort

/-!
# Output files: C38 and C39
-/

namespace Verif.Output

open Verif.Util

/-! ## Splitting and parsing -/

theorem splitDot_ne_nil (l : List Char) : splitDot l ≠ [] := by
  cases l with
  | nil => simp [splitDot]
  | cons c cs =>
    unfold splitDot
    split_ifs
    · simp
    · split <;> simp

/-- A piece without dot before a dot is the first piece. -/
theorem splitDot_append (a b : List Char) (ha : '.' ∉ a) :
    splitDot (a ++ '.' :: b) = a :: splitDot b := by
  induction a with
  | nil => simp [splitDot]
  | cons c cs ih =>
    have hc : c ≠ '.' := fun h => ha (by simp [h])
    rw [List.cons_append, splitDot, if_neg hc, ih (fun h => ha (by simp [h]))]

theorem digitChar_toNat {d : Nat} (h : d < 10) : (digitChar d).toNat = d + 48 := by
  revert d; decide

theorem parse_fold (l : List Nat) (h : ∀ d ∈ l, d < 10) (n : Nat) :
    (l.map digitChar).foldl (fun n c => 10 * n + (c.toNat - 48)) n =
      l.foldl (fun n d => 10 * n + d) n := by
  induction l generalizing n with
  | nil => rfl
  | cons d l ih =>
    rw [List.map_cons, List.foldl_cons, List.foldl_cons, ih (fun d hd => h d (by simp [hd])),
      digitChar_toNat (h d (by simp)), Nat.add_sub_cancel]

theorem foldl_reverse_ofDigits (l : List Nat) :
    l.reverse.foldl (fun n d => 10 * n + d) 0 = Nat.ofDigits 10 l := by
  rw [List.foldl_reverse]
  induction l with
  | nil => rfl
  | cons d l ih => rw [List.foldr_cons, ih, Nat.ofDigits_cons]; simp [add_comm]

/-- Reading back a printed number. -/
theorem parseInt_decimal (n : Nat) : parseInt (decimal n) = some n := by
  have hd := decDigits_lt n
  have hne : decDigits n ≠ [] := by
    unfold decDigits
    split_ifs with h
    · simp
    · simpa [Nat.digits_eq_nil_iff_eq_zero] using h
  unfold parseInt
  rw [decimal_eq, if_neg, parse_fold _ hd]
  · congr 1
    unfold decDigits
    split_ifs with h
    · simp [h]
    · rw [foldl_reverse_ofDigits, Nat.ofDigits_digits]
  · rintro (h | h)
    · exact hne (List.map_eq_nil_iff.mp h)
    · apply h
      rw [List.all_eq_true]
      intro c hc
      obtain ⟨d, h1, rfl⟩ := List.mem_map.mp hc
      have := hd d h1
      rw [digitChar_toNat this]
      simp only [decide_eq_true_eq]
      omega

theorem fileName_inj (base : List Char) {i j : Nat} (h : fileName base i = fileName base j) :
    i = j := by
  unfold fileName at h
  have h1 := List.append_cancel_right h
  have h2 := List.append_cancel_left h1
  exact decimal_inj (List.cons.inj h2).2

/-- For a base name without dot the index read back is the current one. -/
theorem nextIndex_nodot (base : List Char) (hb : '.' ∉ base) (i : Nat) :
    nextIndex base i = some (i + 1) := by
  have h : splitDot (fileName base i) = base :: decimal i :: splitDot ("h5".toList) := by
    have h5 : ".h5".toList = '.' :: "h5".toList := rfl
    unfold fileName
    rw [h5, List.append_assoc, List.cons_append, splitDot_append _ _ hb,
      splitDot_append _ _ (dot_notMem_decimal i)]
  unfold nextIndex
  rw [h]
  show (parseInt (decimal i)).map (· + 1) = _
  rw [parseInt_decimal]
  rfl

/-! ## C38 -/

/-- With the overwrite option the name is the one asked for. -/
theorem search_overwrite (base : List Char) (ex : List Char → Bool) (i j : Nat) :
    Search base ex true i j ↔ j = i := by
  constructor
  · intro h
    cases h with
    | stop => rfl
    | next h => simp at h
  · rintro rfl
    exact Search.stop (by simp)

/-- **C38**: for a base name without dot and any finite set of existing files the search ends, with
exactly one result: the least index from the starting one on whose file does not exist. -/
theorem search_spec (base : List Char) (hb : '.' ∉ base) (files : List (List Char)) (start : Nat) :
    ∃ j, (∀ k, Search base (fun f => files.contains f) false start k ↔ k = j) ∧ start ≤ j ∧
      fileName base j ∉ files ∧ ∀ i, start ≤ i → i < j → fileName base i ∈ files := by
  -- some index is free
  have hfree : ∃ n, fileName base (start + n) ∉ files := by
    by_contra hcon
    push Not at hcon
    have hinj : Function.Injective fun n : Fin (files.length + 1) => fileName base (start + n) := by
      intro a b hab
      have := fileName_inj base hab
      exact Fin.ext (by omega)
    have hsub : ((Finset.univ : Finset (Fin (files.length + 1))).image
        fun n : Fin (files.length + 1) => fileName base (start + (n : Nat))) ⊆ files.toFinset := by
      intro x hx
      obtain ⟨n, _, rfl⟩ := Finset.mem_image.mp hx
      exact List.mem_toFinset.mpr (hcon n)
    have h1 := Finset.card_le_card hsub
    rw [Finset.card_image_of_injective _ hinj, Finset.card_univ, Fintype.card_fin] at h1
    have := List.toFinset_card_le files
    omega
  classical
  let n := Nat.find hfree
  have hn : fileName base (start + n) ∉ files := Nat.find_spec hfree
  have hmin : ∀ m < n, fileName base (start + m) ∈ files := by
    intro m hm
    have := Nat.find_min hfree hm
    simpa using this
  refine ⟨start + n, ?_, by omega, hn, ?_⟩
  · -- induct downwards on the distance to the free index
    have key : ∀ d, d ≤ n → ∀ k,
        Search base (fun f => files.contains f) false (start + (n - d)) k ↔ k = start + n := by
      intro d
      induction d with
      | zero =>
        intro _ k
        rw [Nat.sub_zero]
        constructor
        · intro h
          cases h with
          | stop => rfl
          | next h => exact absurd (by simpa using h.1) hn
        · rintro rfl
          refine Search.stop ?_
          simpa using hn
      | succ d ih =>
        intro hd k
        have hstep : start + (n - (d + 1)) + 1 = start + (n - d) := by omega
        have hex : fileName base (start + (n - (d + 1))) ∈ files := hmin _ (by omega)
        rw [← ih (by omega) k]
        constructor
        · intro h
          cases h with
          | stop h => exact absurd ⟨by simpa using hex, by simp⟩ h
          | next h hn' hr =>
            rw [nextIndex_nodot base hb, hstep] at hn'
            cases hn'
            exact hr
        · intro h
          refine Search.next ⟨by simpa using hex, by simp⟩ ?_ h
          rw [nextIndex_nodot base hb, hstep]
    intro k
    have := key n (le_refl n) k
    rwa [Nat.sub_self, Nat.add_zero] at this
  · intro i h1 h2
    have := hmin (i - start) (by omega)
    rwa [Nat.add_sub_cancel' h1] at this

/-- In words: whatever the search returns does not exist. -/
theorem search_not_exists (base : List Char) (ex : List Char → Bool) (i j : Nat)
    (h : Search base ex false i j) : ex (fileName base j) = false := by
  induction h with
  | stop h =>
    by_contra hc
    exact h ⟨by simpa using hc, by simp⟩
  | next _ _ _ ih => exact ih

/-- **Finding (C38)**: with a dot in the base name the index read back is the second piece of the
base name, whatever the current index. -/
theorem nextIndex_dotted (a b : List Char) (ha : '.' ∉ a) (hb : '.' ∉ b) (i : Nat) :
    nextIndex (a ++ '.' :: b) i = (parseInt b).map (· + 1) := by
  have h : splitDot (fileName (a ++ '.' :: b) i) =
      a :: b :: splitDot (decimal i ++ ".h5".toList) := by
    unfold fileName
    rw [List.append_assoc, List.append_assoc, List.cons_append, List.cons_append,
      splitDot_append _ _ ha, splitDot_append _ _ hb]
  unfold nextIndex
  rw [h]
  rfl

/-- **C38 fails** for a base name such as `run.1`: when the files number `start` and the one after
the second piece of the base name exist the search never ends. -/
theorem search_dotted_never_ends (a b : List Char) (ha : '.' ∉ a) (hb : '.' ∉ b) (m start : Nat)
    (hm : parseInt b = some m) (ex : List Char → Bool)
    (h1 : ex (fileName (a ++ '.' :: b) start) = true)
    (h2 : ex (fileName (a ++ '.' :: b) (m + 1)) = true) (k : Nat) :
    ¬ Search (a ++ '.' :: b) ex false start k := by
  intro h
  have key : ∀ i, (ex (fileName (a ++ '.' :: b) i) = true) →
      ∀ k, Search (a ++ '.' :: b) ex false i k → False := by
    intro i hi k hs
    induction hs with
    | stop h => exact h ⟨hi, by simp⟩
    | next _ hn _ ih =>
      rw [nextIndex_dotted a b ha hb, hm] at hn
      cases hn
      exact ih h2
  exact key start h1 k h

/-- **C38 fails** for a base name with a directory such as `./out`: an existing file raises an
error. -/
theorem search_dotted_error (a b : List Char) (ha : '.' ∉ a) (hb : '.' ∉ b)
    (hm : parseInt b = none) (ex : List Char → Bool) (start : Nat)
    (h1 : ex (fileName (a ++ '.' :: b) start) = true) (k : Nat) :
    ¬ Search (a ++ '.' :: b) ex false start k := by
  intro h
  cases h with
  | stop h => exact h ⟨h1, by simp⟩
  | next _ hn _ =>
    rw [nextIndex_dotted a b ha hb, hm] at hn
    simp at hn

/-- Instances of the two failures. -/
example : parseInt "1".toList = some 1 := by decide
example : parseInt "/out".toList = none := by decide

/-- Files 0 and 1 exist, 2 does not: the search from 0 gives 2. -/
example : Search "estimates".toList
    (fun f => [fileName "estimates".toList 0, fileName "estimates".toList 1,
      fileName "estimates".toList 3].contains f) false 0 2 := by
  refine Search.next (by decide +kernel) (nextIndex_nodot _ (by decide) 0) ?_
  refine Search.next (by decide +kernel) (nextIndex_nodot _ (by decide) 1) ?_
  exact Search.stop (by decide +kernel)

/-! ## C39 -/

theorem nameLe_refl : ∀ l : List Char, nameLe l l = true
  | [] => rfl
  | a :: as => by simp [nameLe, nameLe_refl as]

/-- Strict order of equal-length digit lists, most significant digit first. -/
theorem nameLe_digits : ∀ (l l' : List Nat), l.length = l'.length → (∀ d ∈ l, d < 10) →
    (∀ d ∈ l', d < 10) → l.foldl (fun n d => 10 * n + d) 0 < l'.foldl (fun n d => 10 * n + d) 0 →
    nameLe (l.map digitChar) (l'.map digitChar) = true ∧
      nameLe (l'.map digitChar) (l.map digitChar) = false := by
  have hfold : ∀ (l : List Nat) (n : Nat), l.foldl (fun n d => 10 * n + d) n =
      n * 10 ^ l.length + l.foldl (fun n d => 10 * n + d) 0 := by
    intro l
    induction l with
    | nil => simp
    | cons d l ih =>
      intro n
      rw [List.foldl_cons, ih, List.foldl_cons, ih (10 * 0 + d), List.length_cons, pow_succ]
      ring
  have hlt : ∀ l : List Nat, (∀ d ∈ l, d < 10) →
      l.foldl (fun n d => 10 * n + d) 0 < 10 ^ l.length := by
    intro l
    induction l with
    | nil => simp
    | cons d l ih =>
      intro h
      rw [List.foldl_cons, hfold, List.length_cons, pow_succ]
      have h1 := ih (fun d hd => h d (by simp [hd]))
      have h2 := h d (by simp)
      nlinarith [Nat.pos_of_ne_zero (pow_ne_zero l.length (by norm_num : (10 : Nat) ≠ 0))]
  intro l
  induction l with
  | nil =>
    intro l' hlen _ _ h
    have : l' = [] := List.length_eq_zero_iff.mp hlen.symm
    subst this
    simp at h
  | cons d l ih =>
    intro l' hlen h1 h2 h
    cases l' with
    | nil => simp at hlen
    | cons e l' =>
      simp only [List.length_cons, add_left_inj] at hlen
      rw [List.foldl_cons, List.foldl_cons, hfold l, hfold l', hlen] at h
      simp only [mul_zero, zero_add] at h
      have hl := hlt l (fun d hd => h1 d (by simp [hd]))
      have hl' := hlt l' (fun d hd => h2 d (by simp [hd]))
      have hd := h1 d (by simp)
      have he := h2 e (by simp)
      rw [hlen] at hl
      have hde : d ≤ e := by
        by_contra hc
        push Not at hc
        have : e * 10 ^ l'.length + 10 ^ l'.length ≤ d * 10 ^ l'.length := by nlinarith
        omega
      simp only [List.map_cons, nameLe, digitChar_toNat hd, digitChar_toNat he]
      rcases Nat.lt_or_eq_of_le hde with hlt' | heq
      · rw [if_pos (by omega), if_neg (by omega), if_pos (by omega)]
        exact ⟨rfl, rfl⟩
      · subst heq
        rw [if_neg (by omega), if_neg (by omega), if_neg (by omega), if_neg (by omega)]
        exact ih l' hlen (fun d hd => h1 d (by simp [hd])) (fun d hd => h2 d (by simp [hd]))
          (by omega)

theorem padded_digits (n : Nat) : padded 9 n =
    (List.replicate (9 - (decDigits n).length) 0 ++ decDigits n).map digitChar := by
  have h0 : digitChar 0 = '0' := by decide
  unfold padded
  rw [decimal_eq, List.map_append, List.map_replicate, List.length_map, h0]

theorem foldl_decDigits (n : Nat) : (decDigits n).foldl (fun n d => 10 * n + d) 0 = n := by
  unfold decDigits
  split_ifs with h
  · simp [h]
  · rw [foldl_reverse_ofDigits, Nat.ofDigits_digits]

theorem length_decDigits {n : Nat} (h : n < 10 ^ 9) : (decDigits n).length ≤ 9 := by
  unfold decDigits
  split_ifs with h0
  · simp
  · rw [List.length_reverse]
    exact (Nat.digits_length_le_iff (by norm_num) n).mpr h

/-- Names of datasets are strictly ordered as their numbers, up to a thousand million. -/
theorem padded_lt {i j : Nat} (hij : i < j) (hj : j < 10 ^ 9) :
    nameLe (padded 9 i) (padded 9 j) = true ∧ nameLe (padded 9 j) (padded 9 i) = false := by
  have hi : i < 10 ^ 9 := hij.trans hj
  rw [padded_digits, padded_digits]
  have hz : ∀ k (l : List Nat), (List.replicate k 0 ++ l).foldl (fun n d => 10 * n + d) 0 =
      l.foldl (fun n d => 10 * n + d) 0 := by
    intro k l
    induction k with
    | zero => rfl
    | succ k ih => rw [List.replicate_succ, List.cons_append, List.foldl_cons]; simpa using ih
  refine nameLe_digits _ _ ?_ ?_ ?_ ?_
  · have h1 := length_decDigits hi
    have h2 := length_decDigits hj
    simp only [List.length_append, List.length_replicate]
    omega
  · intro d hd
    rcases List.mem_append.mp hd with h | h
    · rw [(List.mem_replicate.mp h).2]; norm_num
    · exact decDigits_lt i d h
  · intro d hd
    rcases List.mem_append.mp hd with h | h
    · rw [(List.mem_replicate.mp h).2]; norm_num
    · exact decDigits_lt j d h
  · rw [hz, hz, foldl_decDigits, foldl_decDigits]; exact hij

theorem padded_inj {i j : Nat} (hi : i < 10 ^ 9) (hj : j < 10 ^ 9) (h : padded 9 i = padded 9 j) :
    i = j := by
  rcases lt_trichotomy i j with hlt | heq | hlt
  · have := (padded_lt hlt hj).2
    rw [h, nameLe_refl] at this
    simp at this
  · exact heq
  · have := (padded_lt hlt hi).2
    rw [h, nameLe_refl] at this
    simp at this

/-- The store after pushing `ds` from index `i` on. -/
def names {α : Type*} : Nat → List α → List (List Char × α)
  | _, [] => []
  | i, d :: ds => (padded 9 i, d) :: names (i + 1) ds

theorem pushAll_eq {α : Type*} (ds : List α) (pre : List α) (hlen : pre.length + ds.length ≤ 10 ^ 9) :
    pushAll ⟨pre.length, 9, 1, names 0 pre⟩ ds =
      some ⟨pre.length + ds.length, 9, 1, names 0 (pre ++ ds)⟩ := by
  have hsnoc : ∀ (l : List α) (d : α) (i : Nat),
      names i (l ++ [d]) = names i l ++ [(padded 9 (i + l.length), d)] := by
    intro l
    induction l with
    | nil => intro d i; rfl
    | cons a l ih =>
      intro d i
      rw [List.cons_append, names, ih, names, List.length_cons,
        show i + (l.length + 1) = i + 1 + l.length by omega, List.cons_append]
  have hmem : ∀ (l : List α) (i : Nat) (x : List Char), x ∈ (names i l).map (·.1) →
      ∃ k, i ≤ k ∧ k < i + l.length ∧ x = padded 9 k := by
    intro l
    induction l with
    | nil => intro i x hx; simp [names] at hx
    | cons a l ih =>
      intro i x hx
      rw [names, List.map_cons, List.mem_cons] at hx
      rcases hx with rfl | hx
      · exact ⟨i, le_refl _, by simp, rfl⟩
      · obtain ⟨k, h1, h2, h3⟩ := ih (i + 1) x hx
        exact ⟨k, by omega, by simp only [List.length_cons]; omega, h3⟩
  induction ds generalizing pre with
  | nil => simp [pushAll]
  | cons d ds ih =>
    have hfresh : ¬ ((names 0 pre).map (·.1)).contains (padded 9 pre.length) := by
      rw [List.contains_iff_mem]
      intro hx
      obtain ⟨k, _, h2, h3⟩ := hmem pre 0 _ hx
      simp only [List.length_cons] at hlen
      have := padded_inj (i := pre.length) (j := k) (by omega) (by omega) h3
      omega
    have hp : push (α := α) ⟨pre.length, 9, 1, names 0 pre⟩ d =
        some ⟨pre.length, 9, 1, names 0 (pre ++ [d])⟩ := by
      unfold push
      rw [if_neg hfresh, hsnoc, Nat.zero_add]
    rw [pushAll, hp]
    show pushAll (increment ⟨pre.length, 9, 1, names 0 (pre ++ [d])⟩) ds = _
    have := ih (pre ++ [d]) (by
      simp only [List.length_append, List.length_cons, List.length_nil] at hlen ⊢; omega)
    rw [List.length_append, List.length_singleton, List.append_assoc] at this
    unfold increment
    rw [Nat.div_one, this, List.length_cons]
    simp [Nat.add_comm, Nat.add_left_comm]

/-- **C39**: up to a thousand million blocks all datasets are written and listing them in name order
gives the blocks in the order they were written. -/
theorem extract_pushAll {α : Type*} (ds : List α) (h : ds.length ≤ 10 ^ 9) :
    (pushAll (mkHelper α 1) ds).map extract = some ds := by
  have := pushAll_eq ds [] (by simpa using h)
  have h0 : mkHelper α 1 = ⟨([] : List α).length, 9, 1, names 0 []⟩ := rfl
  rw [h0, this]
  simp only [List.nil_append, Option.map_some, Option.some.injEq]
  unfold extract
  have hpw : ∀ (l : List α) (i : Nat), i + l.length ≤ 10 ^ 9 →
      (names i l).Pairwise fun a b => nameLe a.1 b.1 = true := by
    intro l
    induction l with
    | nil => intro i _; exact List.Pairwise.nil
    | cons a l ih =>
      intro i hi
      simp only [List.length_cons] at hi
      rw [names, List.pairwise_cons]
      refine ⟨?_, ih (i + 1) (by omega)⟩
      have hmem : ∀ (l : List α) (k : Nat) (x : List Char × α), x ∈ names k l →
          ∃ j, k ≤ j ∧ j < k + l.length ∧ x.1 = padded 9 j := by
        intro l
        induction l with
        | nil => intro k x hx; simp [names] at hx
        | cons a l ih =>
          intro k x hx
          rw [names, List.mem_cons] at hx
          rcases hx with rfl | hx
          · exact ⟨k, le_refl _, by simp, rfl⟩
          · obtain ⟨j, h1, h2, h3⟩ := ih (k + 1) x hx
            exact ⟨j, by omega, by simp only [List.length_cons]; omega, h3⟩
      intro x hx
      obtain ⟨j, h1, h2, h3⟩ := hmem l (i + 1) x hx
      rw [h3]
      exact (padded_lt (by omega) (by omega)).1
  rw [List.mergeSort_of_pairwise (hpw ds 0 (by simpa using h))]
  have : ∀ (l : List α) (i : Nat), (names i l).map (·.2) = l := by
    intro l
    induction l with
    | nil => intro i; rfl
    | cons a l ih => intro i; rw [names, List.map_cons, ih]
  exact this ds 0

/-- **Finding (C39)**: beyond that the order breaks: block number `10^9` is listed before block
number `10^9 - 1`. -/
theorem padded_overflow : nameLe (padded 9 (10 ^ 9)) (padded 9 (10 ^ 9 - 1)) = true ∧
    nameLe (padded 9 (10 ^ 9 - 1)) (padded 9 (10 ^ 9)) = false := by
  decide +kernel

/-- **Finding**: with an averaging number of two or more the counter never leaves zero and the second
dataset cannot be written. -/
theorem pushAll_nav {α : Type*} (nav : Nat) (hn : 2 ≤ nav) (a b : α) (ds : List α) :
    pushAll (mkHelper α nav) (a :: b :: ds) = none := by
  have h1 : (0 + 1) / nav = 0 := Nat.div_eq_of_lt (by omega)
  simp [pushAll, mkHelper, push, increment, Nat.div_eq_of_lt (show 1 < nav by omega)]

end Verif.Output
