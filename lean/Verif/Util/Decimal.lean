import Mathlib.Data.Nat.Digits.Defs
import Mathlib.Data.Nat.Digits.Lemmas

/-!
# Decimal representation of numbers

Python's `'%d' % n` / `str(n)` for a non-negative integer.
-/

namespace Verif.Util

/-- A digit as character. -/
def digitChar (d : Nat) : Char := Char.ofNat (d + 48)

/-- The digits of `n`, most significant first (`'%d' % n` in Python, `n ≥ 0`). -/
def decimal (n : Nat) : List Char :=
  if n = 0 then ['0'] else ((Nat.digits 10 n).reverse).map digitChar

theorem digitChar_inj {a b : Nat} (ha : a < 10) (hb : b < 10) (h : digitChar a = digitChar b) :
    a = b := by
  have key : ∀ a < 10, ∀ b < 10, digitChar a = digitChar b → a = b := by decide
  exact key a ha b hb h

theorem digitChar_ne_dot {a : Nat} (ha : a < 10) : digitChar a ≠ '.' := by
  revert a; decide

theorem map_digitChar_inj : ∀ {l l' : List Nat}, (∀ d ∈ l, d < 10) → (∀ d ∈ l', d < 10) →
    l.map digitChar = l'.map digitChar → l = l'
  | [], [], _, _, _ => rfl
  | [], _ :: _, _, _, h => by simp at h
  | _ :: _, [], _, _, h => by simp at h
  | a :: l, b :: l', h1, h2, h => by
    simp only [List.map_cons, List.cons.injEq] at h
    rw [digitChar_inj (h1 a (by simp)) (h2 b (by simp)) h.1,
      map_digitChar_inj (fun d hd => h1 d (by simp [hd])) (fun d hd => h2 d (by simp [hd])) h.2]

/-- The digit list of `decimal`. -/
def decDigits (n : Nat) : List Nat := if n = 0 then [0] else (Nat.digits 10 n).reverse

theorem decimal_eq (n : Nat) : decimal n = (decDigits n).map digitChar := by
  unfold decimal decDigits
  split_ifs
  · decide
  · rfl

theorem decDigits_lt (n : Nat) : ∀ d ∈ decDigits n, d < 10 := by
  intro d hd
  unfold decDigits at hd
  split_ifs at hd
  · simp at hd; omega
  · exact Nat.digits_lt_base (by norm_num) (List.mem_reverse.1 hd)

theorem decDigits_inj {m n : Nat} (h : decDigits m = decDigits n) : m = n := by
  unfold decDigits at h
  split_ifs at h with h1 h2 h2
  · omega
  · exfalso
    have h3 := congrArg List.reverse h
    simp only [List.reverse_reverse, List.reverse_singleton] at h3
    have := congrArg (Nat.ofDigits 10) h3
    rw [Nat.ofDigits_digits] at this
    simp at this; omega
  · exfalso
    have h3 := congrArg List.reverse h
    simp only [List.reverse_reverse, List.reverse_singleton] at h3
    have := congrArg (Nat.ofDigits 10) h3
    rw [Nat.ofDigits_digits] at this
    simp at this; omega
  · exact Nat.digits_inj_iff.1 (List.reverse_injective h)

theorem decimal_inj {m n : Nat} (h : decimal m = decimal n) : m = n := by
  rw [decimal_eq, decimal_eq] at h
  exact decDigits_inj (map_digitChar_inj (decDigits_lt m) (decDigits_lt n) h)

theorem dot_notMem_decimal (n : Nat) : '.' ∉ decimal n := by
  rw [decimal_eq, List.mem_map]
  rintro ⟨d, hd, h⟩
  exact digitChar_ne_dot (decDigits_lt n d hd) h

end Verif.Util
