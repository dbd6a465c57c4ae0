import Mathlib.Algebra.BigOperators.Group.Finset.Sigma
import Verif.CI.Sums
import Verif.CI.Model
import Mathlib.Tactic.FieldSimp
import Mathlib.Tactic.LinearCombination
import Mathlib.Algebra.CharZero.Defs
import Mathlib.Data.Rat.Defs
import Mathlib.Algebra.Order.Field.Rat

/-!
# Determinant matrix elements obey the Slater-Condon rules (C55)
-/

namespace Verif.CI

/-! ### Positions and signs -/

theorem idxOf_sorted : ∀ (d : List Nat), d.Pairwise (· < ·) → ∀ o ∈ d, d.idxOf o = (d.toFinset.filter (· < o)).card
  | [], _, o, h => by simp at h
  | x :: d, hs, o, ho => by
    rw [List.pairwise_cons] at hs
    by_cases hx : x = o
    · subst hx
      rw [List.idxOf_cons_self]
      symm
      rw [Finset.card_eq_zero, Finset.filter_eq_empty_iff]
      intro y hy
      rw [List.mem_toFinset, List.mem_cons] at hy
      rcases hy with rfl | hy
      · omega
      · have := hs.1 y hy; omega
    · have ho' : o ∈ d := by
        rw [List.mem_cons] at ho
        rcases ho with h | h
        · exact absurd h.symm hx
        · exact h
      have hlt := hs.1 o ho'
      rw [List.idxOf_cons_ne d hx, idxOf_sorted d hs.2 o ho', List.toFinset_cons, Finset.filter_insert, if_pos hlt,
        Finset.card_insert_of_notMem]
      intro hc
      rw [Finset.mem_filter, List.mem_toFinset] at hc
      have := hs.1 x hc.1
      omega

/-- The sign that goes with the parity of an integer. -/
def par (m : Int) : ℤ := if m % 2 = 1 then -1 else 1

theorem par_add (a b : Int) : par (a + b) = par a * par b := by
  unfold par
  rcases Int.emod_two_eq_zero_or_one a with ha | ha <;> rcases Int.emod_two_eq_zero_or_one b with hb | hb <;>
    simp [Int.add_emod, ha, hb]

theorem par_nat (k : Nat) : par (k : Int) = (-1) ^ k := by
  induction k with
  | zero => simp [par]
  | succ k ih =>
    push_cast
    rw [par_add, ih, pow_succ]
    simp [par]

theorem par_idx {d : List Nat} (hd : d.Pairwise (· < ·)) {o : Nat} (ho : o ∈ d) :
    par (d.idxOf o : Int) = sgn o d.toFinset := by
  rw [par_nat, idxOf_sorted d hd o ho]
  rfl

theorem ite_par {K : Type*} [Field K] (m : Int) (x : K) : (if (m % 2 == 1) = true then -x else x) = (par m : K) * x := by
  unfold par
  by_cases h : m % 2 = 1 <;> simp [h]

/-! ### Orbitals and spins -/

variable {K : Type*} [Field K]

theorem mapOrb_eq {n p : Nat} (hp : p < 2 * n) : (mapOrb p n).1 = sp n p ∧ ((mapOrb p n).2 = 0 ↔ up n p = true) ∧
    ((mapOrb p n).2 = 1 ↔ up n p = false) := by
  unfold mapOrb sp up
  by_cases h : p < n
  · rw [if_pos (Nat.div_eq_of_lt h)]
    simp [h]
  · have h1 : p / n ≠ 0 := by
      have : n ≤ p := by omega
      have h2 : 0 < n := by omega
      have := Nat.div_pos this h2
      omega
    rw [if_neg h1]
    simp [h]

theorem spin_eq_iff {n p q : Nat} (hp : p < 2 * n) (hq : q < 2 * n) :
    (mapOrb p n).2 = (mapOrb q n).2 ↔ up n p = up n q := by
  have h1 := (mapOrb_eq hp).2
  have h2 := (mapOrb_eq hq).2
  cases hu : up n p <;> cases hv : up n q <;> simp only [hu, hv] at h1 h2 <;> simp at h1 h2 <;> simp <;> omega

theorem mapOrb_inj {n p q : Nat} (hp : p < 2 * n) (hq : q < 2 * n)
    (h : 2 * (mapOrb p n).1 + (mapOrb p n).2 = 2 * (mapOrb q n).1 + (mapOrb q n).2) : p = q := by
  have a1 : (mapOrb p n) = if p < n then (p, 0) else (p - n, 1) := by
    unfold mapOrb
    by_cases h : p < n
    · rw [if_pos (Nat.div_eq_of_lt h), if_pos h]
    · have : 0 < p / n := Nat.div_pos (by omega) (by omega)
      rw [if_neg (by omega), if_neg h]
  have a2 : (mapOrb q n) = if q < n then (q, 0) else (q - n, 1) := by
    unfold mapOrb
    by_cases h : q < n
    · rw [if_pos (Nat.div_eq_of_lt h), if_pos h]
    · have : 0 < q / n := Nat.div_pos (by omega) (by omega)
      rw [if_neg (by omega), if_neg h]
  rw [a1, a2] at h
  split_ifs at h <;> simp only at h <;> omega

/-! ### Determinants -/

/-- A determinant: spin orbitals in increasing order. -/
structure Det (n : Nat) (d : List Nat) : Prop where
  sorted : d.Pairwise (· < ·)
  bound : ∀ o ∈ d, o < 2 * n

theorem Det.nodup {n : Nat} {d : List Nat} (h : Det n d) : d.Nodup := h.sorted.imp fun hab => Nat.ne_of_lt hab

theorem Det.sub {n : Nat} {d : List Nat} (h : Det n d) : d.toFinset ⊆ Finset.range (2 * n) := fun x hx =>
  Finset.mem_range.2 (h.bound x (List.mem_toFinset.1 hx))

/-- The same numbers of electrons of each spin. -/
def SameSpins (n : Nat) (di dj : List Nat) : Prop :=
  di.length = dj.length ∧ (di.toFinset.filter (· < n)).card = (dj.toFinset.filter (· < n)).card

/-- The two-electron integrals do not depend on which electron is called the first. -/
def Exchange (V : Nat → Nat → Nat → Nat → K) : Prop := ∀ p q r s, V p q r s = V q p s r

theorem v2_exchange {V : Nat → Nat → Nat → Nat → K} (hV : Exchange V) (n p q r s : Nat) :
    v2 n V p q r s = v2 n V q p s r := by
  unfold v2
  rw [hV (sp n p)]
  exact if_congr and_comm rfl rfl

/-! ### The three loops -/

theorem sum_pairs (g : Nat → Nat → K) (hg : ∀ x y, g x y = g y x) : ∀ (d : List Nat), d.Nodup →
    ∀ f : List Nat → K, (f [] = 0) → (∀ x l, f (x :: l) = (l.map (g x)).sum + f l) →
    ∑ r ∈ d.toFinset, ∑ s ∈ d.toFinset.erase r, g r s = 2 * f d
  | [], _, f, h0, _ => by simp [h0]
  | x :: d, hnd, f, h0, h1 => by
    rw [List.nodup_cons] at hnd
    have ih := sum_pairs g hg d hnd.2 f h0 h1
    have hx : x ∉ d.toFinset := by simpa using hnd.1
    rw [List.toFinset_cons, Finset.sum_insert hx, Finset.erase_insert hx, h1]
    have e1 : ∀ r ∈ d.toFinset, ∑ s ∈ (insert x d.toFinset).erase r, g r s =
        g x r + ∑ s ∈ d.toFinset.erase r, g r s := by
      intro r hr
      have hrx : r ≠ x := fun hc => hx (hc ▸ hr)
      rw [Finset.erase_insert_of_ne (Ne.symm hrx), Finset.sum_insert (fun hc => hx (Finset.mem_of_mem_erase hc)), hg r x]
    rw [Finset.sum_congr rfl e1, Finset.sum_add_distrib, ih, List.sum_toFinset _ hnd.2]
    ring

theorem sc0Inner_sum (sys : System K) (x : Nat) : ∀ l : List Nat, sc0Inner sys x l = (l.map fun y =>
    sys.hijkl (mapOrb x sys.nbasis).1 (mapOrb y sys.nbasis).1 (mapOrb x sys.nbasis).1 (mapOrb y sys.nbasis).1 -
      if (mapOrb x sys.nbasis).2 = (mapOrb y sys.nbasis).2 then
        sys.hijkl (mapOrb x sys.nbasis).1 (mapOrb y sys.nbasis).1 (mapOrb y sys.nbasis).1 (mapOrb x sys.nbasis).1
      else 0).sum
  | [] => rfl
  | y :: l => by simp [sc0Inner, sc0Inner_sum sys x l]

theorem sc0Loop_one (sys : System K) : ∀ l : List Nat,
    (sc0Loop sys l).1 = (l.map fun x => sys.H1 (mapOrb x sys.nbasis).1 (mapOrb x sys.nbasis).1).sum
  | [] => rfl
  | y :: l => by simp [sc0Loop, sc0Loop_one sys l]

theorem sc1Loop_sum (sys : System K) (ii si aa : Nat) : ∀ l : List Nat, sc1Loop sys ii si aa l = (l.map fun o =>
    if 2 * (mapOrb o sys.nbasis).1 + (mapOrb o sys.nbasis).2 ≠ 2 * ii + si then
      sys.hijkl ii (mapOrb o sys.nbasis).1 aa (mapOrb o sys.nbasis).1 -
        if (mapOrb o sys.nbasis).2 = si then sys.hijkl ii (mapOrb o sys.nbasis).1 (mapOrb o sys.nbasis).1 aa else 0
    else 0).sum
  | [] => rfl
  | y :: l => by simp [sc1Loop, sc1Loop_sum sys ii si aa l]

theorem h1_same (n : Nat) (h : Nat → Nat → K) (p : Nat) (hp : p < 2 * n) :
    h1 n h p p = h (mapOrb p n).1 (mapOrb p n).1 := by
  unfold h1
  rw [if_pos rfl, (mapOrb_eq hp).1]

section Zero

variable [CharZero K]

/-- Equal determinants. -/
theorem sc0_spec (sys : System K) (hV : Exchange sys.hijkl) {d : List Nat} (hd : Det sys.nbasis d) :
    (sc0 sys d).2.1 = sys.ecore + oneBody sys.nbasis sys.H1 d.toFinset d.toFinset ∧
      (sc0 sys d).2.2 = twoBody sys.nbasis sys.hijkl d.toFinset d.toFinset := by
  constructor
  · show sys.ecore + (sc0Loop sys d).1 = _
    rw [one_same _ _ _ hd.sub, sc0Loop_one, List.sum_toFinset _ hd.nodup]
    congr 2
    apply List.map_congr_left
    intro x hx
    rw [h1_same _ _ _ (hd.bound x hx)]
  · show (sc0Loop sys d).2 = _
    rw [two_same _ _ _ hd.sub]
    set n := sys.nbasis with hn
    let g : Nat → Nat → K := fun r s => v2 n sys.hijkl r s r s - v2 n sys.hijkl s r r s
    have hg : ∀ x y, g x y = g y x := by
      intro x y
      show v2 n sys.hijkl x y x y - v2 n sys.hijkl y x x y = v2 n sys.hijkl y x y x - v2 n sys.hijkl x y y x
      rw [v2_exchange hV n x y x y, v2_exchange hV n y x x y]
    -- the code's double loop is the sum over pairs
    have hcode : ∀ l : List Nat, (∀ o ∈ l, o < 2 * n) → (sc0Loop sys l).2 =
        l.rec (motive := fun _ => K) 0 (fun x l r => (l.map (g x)).sum + r) := by
      intro l
      induction l with
      | nil => intro _; rfl
      | cons x l ih =>
        intro hb
        have h2 := ih fun o ho => hb o (List.mem_cons_of_mem _ ho)
        show sc0Inner sys x l + (sc0Loop sys l).2 = (l.map (g x)).sum + _
        rw [h2, sc0Inner_sum]
        congr 2
        apply List.map_congr_left
        intro y hy
        have hxb := hb x (by simp)
        have hyb := hb y (List.mem_cons_of_mem _ hy)
        show _ = v2 n sys.hijkl x y x y - v2 n sys.hijkl y x x y
        rw [v2_exchange hV n y x x y]
        unfold v2
        rw [if_pos (show up n x = up n x ∧ up n y = up n y from ⟨rfl, rfl⟩), ← hn, (mapOrb_eq hxb).1, (mapOrb_eq hyb).1]
        congr 1
        apply if_congr _ rfl rfl
        rw [spin_eq_iff hxb hyb]
        constructor
        · intro h; exact ⟨h, h.symm⟩
        · exact fun h => h.1
    have := sum_pairs g hg d hd.nodup (fun l => l.rec (motive := fun _ => K) 0 (fun x l r => (l.map (g x)).sum + r)) rfl
      (fun _ _ => rfl)
    rw [hcode d hd.bound]
    show _ = 1 / 2 * ∑ r ∈ d.toFinset, ∑ s ∈ d.toFinset.erase r, g r s
    rw [this]
    field_simp

/-! ### Excitations -/

theorem spins_diff {n : Nat} {S T : Finset Nat} (h : (S.filter (· < n)).card = (T.filter (· < n)).card) :
    ((S \ T).filter (· < n)).card = ((T \ S).filter (· < n)).card := by
  have e : ∀ A B : Finset Nat, (A \ B).filter (· < n) = A.filter (· < n) \ B.filter (· < n) := by
    intro A B; ext x; simp only [Finset.mem_filter, Finset.mem_sdiff]; tauto
  rw [e, e]
  exact Finset.card_sdiff_comm h

/-- A single excitation. -/
theorem sc1_spec (sys : System K) (hV : Exchange sys.hijkl) {di dj : List Nat} (hdi : Det sys.nbasis di)
    (hdj : Det sys.nbasis dj) (hnel : di.length = sys.nup + sys.ndown) {i a : Nat}
    (hs : Single dj.toFinset di.toFinset i a) (hspin : up sys.nbasis i = up sys.nbasis a) (perm : Bool)
    (hperm : ∀ x : K, (if perm = true then -x else x) = ((sgn i dj.toFinset * sgn a di.toFinset : ℤ) : K) * x) :
    let r := sc1 sys (mapOrb i sys.nbasis) (mapOrb a sys.nbasis) di perm
    r.1 = r.2.1 + r.2.2 ∧ r.2.1 = oneBody sys.nbasis sys.H1 dj.toFinset di.toFinset ∧
      r.2.2 = twoBody sys.nbasis sys.hijkl dj.toFinset di.toFinset := by
  set n := sys.nbasis with hn
  have hib : i < 2 * n := hdj.bound i (List.mem_toFinset.1 hs.iT)
  have hab : a < 2 * n := hdi.bound a (List.mem_toFinset.1 hs.aS)
  set e1 := sys.H1 (mapOrb i n).1 (mapOrb a n).1 with he1
  set e2 := sc1Loop sys (mapOrb i n).1 (mapOrb i n).2 (mapOrb a n).1 (di.take (sys.nup + sys.ndown)) with he2
  have hr : sc1 sys (mapOrb i n) (mapOrb a n) di perm =
      (if perm = true then -(e1 + e2) else e1 + e2, if perm = true then -e1 else e1, if perm = true then -e2 else e2) := by
    unfold sc1
    cases perm <;> rfl
  show (sc1 sys (mapOrb i n) (mapOrb a n) di perm).1 = _ ∧ _
  rw [hr]
  refine ⟨?_, ?_, ?_⟩
  · simp only; split_ifs <;> ring
  · simp only
    rw [hperm, one_single n sys.H1 hs hdj.sub hdi.sub, h1, if_pos hspin, he1, (mapOrb_eq hib).1, (mapOrb_eq hab).1]
    ring
  · simp only
    rw [hperm, two_single n sys.hijkl hs hdj.sub hdi.sub]
    have key : e2 = ∑ k ∈ di.toFinset.erase a, (v2 n sys.hijkl i k a k - v2 n sys.hijkl i k k a) := by
      rw [he2, ← hnel, List.take_length, sc1Loop_sum, ← List.sum_toFinset _ hdi.nodup,
        ← Finset.add_sum_erase _ _ hs.aS]
      have h0 : (if 2 * (mapOrb a n).1 + (mapOrb a n).2 ≠ 2 * (mapOrb i n).1 + (mapOrb i n).2 then
          sys.hijkl (mapOrb i n).1 (mapOrb a n).1 (mapOrb a n).1 (mapOrb a n).1 -
            if (mapOrb a n).2 = (mapOrb i n).2 then
              sys.hijkl (mapOrb i n).1 (mapOrb a n).1 (mapOrb a n).1 (mapOrb a n).1 else 0
          else (0 : K)) = 0 := by
        rw [if_pos ((spin_eq_iff hab hib).2 hspin.symm), sub_self, ite_self]
      rw [show sys.nbasis = n from rfl, h0, zero_add]
      apply Finset.sum_congr rfl
      intro k hk
      have hkS := Finset.mem_of_mem_erase hk
      have hkb : k < 2 * n := hdi.bound k (List.mem_toFinset.1 hkS)
      rw [if_pos]
      · unfold v2
        rw [if_pos (show up n i = up n a ∧ up n k = up n k from ⟨hspin, rfl⟩), (mapOrb_eq hib).1, (mapOrb_eq hab).1, (mapOrb_eq hkb).1]
        congr 1
        apply if_congr _ rfl rfl
        rw [spin_eq_iff hkb hib]
        constructor
        · intro h; exact ⟨h.symm, h.trans hspin⟩
        · exact fun h => h.1.symm
      · intro hc
        have := mapOrb_inj hkb hib hc
        rw [this] at hkS
        exact hs.iS hkS
    have key2 : ∑ k ∈ di.toFinset.erase a, ((v2 n sys.hijkl i k a k - v2 n sys.hijkl k i a k) +
        (v2 n sys.hijkl k i k a - v2 n sys.hijkl i k k a)) = 2 * e2 := by
      rw [key, Finset.mul_sum]
      apply Finset.sum_congr rfl
      intro k _
      rw [v2_exchange hV n k i a k, v2_exchange hV n k i k a]
      ring
    rw [key2]
    field_simp

/-- A double excitation. -/
theorem sc2_spec (sys : System K) (hV : Exchange sys.hijkl) {di dj : List Nat} (hdi : Det sys.nbasis di)
    (hdj : Det sys.nbasis dj) {i j a b : Nat} (hs : Double dj.toFinset di.toFinset i j a b)
    (hspin : (up sys.nbasis i = up sys.nbasis a ∧ up sys.nbasis j = up sys.nbasis b) ∨
      (up sys.nbasis i = up sys.nbasis b ∧ up sys.nbasis j = up sys.nbasis a)) (perm : Bool)
    (hperm : ∀ x : K, (if perm = true then -x else x) = ((sg2 dj.toFinset i j * sg2 di.toFinset a b : ℤ) : K) * x) :
    sc2 sys (mapOrb i sys.nbasis) (mapOrb j sys.nbasis) (mapOrb a sys.nbasis) (mapOrb b sys.nbasis) perm =
      twoBody sys.nbasis sys.hijkl dj.toFinset di.toFinset := by
  set n := sys.nbasis with hn
  have hib : i < 2 * n := hdj.bound i (List.mem_toFinset.1 hs.iT)
  have hjb : j < 2 * n := hdj.bound j (List.mem_toFinset.1 hs.jT)
  have hab : a < 2 * n := hdi.bound a (List.mem_toFinset.1 hs.aS)
  have hbb : b < 2 * n := hdi.bound b (List.mem_toFinset.1 hs.bS)
  rw [two_double n sys.hijkl hs hdj.sub hdi.sub]
  unfold sc2
  simp only
  rw [hperm, v2_exchange hV n j i a b, v2_exchange hV n j i b a]
  have e1 : (if (mapOrb i n).2 = (mapOrb a n).2 then sys.hijkl (mapOrb i n).1 (mapOrb j n).1 (mapOrb a n).1 (mapOrb b n).1
      else 0) = v2 n sys.hijkl i j a b := by
    unfold v2
    rw [(mapOrb_eq hib).1, (mapOrb_eq hab).1, (mapOrb_eq hjb).1, (mapOrb_eq hbb).1]
    apply if_congr _ rfl rfl
    rw [spin_eq_iff hib hab]
    constructor
    · intro h
      refine ⟨h, ?_⟩
      rcases hspin with h1 | h1
      · exact h1.2
      · rw [h1.2, ← h, h1.1]
    · exact fun h => h.1
  have e2 : ∀ x : K, (if (mapOrb i n).2 = (mapOrb b n).2 then
      x - sys.hijkl (mapOrb i n).1 (mapOrb j n).1 (mapOrb b n).1 (mapOrb a n).1 else x) =
      x - v2 n sys.hijkl i j b a := by
    intro x
    unfold v2
    rw [(mapOrb_eq hib).1, (mapOrb_eq hab).1, (mapOrb_eq hjb).1, (mapOrb_eq hbb).1]
    by_cases h : up n i = up n b
    · have h2 : up n j = up n a := by
        rcases hspin with h1 | h1
        · rw [h1.2, ← h, h1.1]
        · exact h1.2
      rw [if_pos ((spin_eq_iff hib hbb).2 h), if_pos ⟨h, h2⟩]
    · rw [if_neg (fun hc => h ((spin_eq_iff hib hbb).1 hc)), if_neg (fun hc => h hc.1), sub_zero]
  rw [e1, e2]
  field_simp
  ring

/-! ### The matrix element -/

theorem diff_sorted (d d' : List Nat) : (diff d d').Pairwise (· < ·) := (Finset.sortedLT_sort _).pairwise

theorem mem_diff {d d' : List Nat} {x : Nat} : x ∈ diff d d' ↔ x ∈ d.toFinset ∧ x ∉ d'.toFinset := by
  rw [diff, Finset.mem_sort, Finset.mem_sdiff]

theorem toFinset_diff (d d' : List Nat) : d.toFinset \ d'.toFinset = (diff d d').toFinset := by
  rw [diff, Finset.sort_toFinset]

theorem length_diff {n : Nat} {di dj : List Nat} (hdi : Det n di) (hdj : Det n dj) (h : di.length = dj.length) :
    (diff di dj).length = (diff dj di).length := by
  rw [diff, diff, Finset.length_sort, Finset.length_sort]
  apply Finset.card_sdiff_comm
  rw [List.toFinset_card_of_nodup hdi.nodup, List.toFinset_card_of_nodup hdj.nodup, h]

/-- The sign of a single excitation. -/
theorem perm_single {n : Nat} {di dj : List Nat} (hdi : Det n di) (hdj : Det n dj) {i a : Nat} (hi : i ∈ dj)
    (ha : a ∈ di) (x : K) : (if getPerm [i] [a] di dj = true then -x else x) =
      ((sgn i dj.toFinset * sgn a di.toFinset : ℤ) : K) * x := by
  unfold getPerm
  rw [ite_par]
  simp only [permLoop, Nat.cast_zero, sub_zero, zero_add]
  rw [par_add, par_idx hdj.sorted hi, par_idx hdi.sorted ha]

/-- The sign of a double excitation. -/
theorem perm_double {n : Nat} {di dj : List Nat} (hdi : Det n di) (hdj : Det n dj) {i j a b : Nat} (hi : i ∈ dj)
    (hj : j ∈ dj) (ha : a ∈ di) (hb : b ∈ di) (hij : i < j) (hab : a < b) (x : K) :
    (if getPerm [i, j] [a, b] di dj = true then -x else x) =
      ((sg2 dj.toFinset i j * sg2 di.toFinset a b : ℤ) : K) * x := by
  unfold getPerm
  rw [ite_par]
  simp only [permLoop, Nat.cast_zero, sub_zero, zero_add, Nat.cast_one]
  have e : ∀ u v w z : Int, u + (v - 1) + w + (z - 1) = u + v + w + z + (-2) := fun u v w z => by ring
  rw [e, par_add, par_add, par_add, par_add, par_idx hdj.sorted hi, par_idx hdj.sorted hj, par_idx hdi.sorted ha,
    par_idx hdi.sorted hb]
  unfold sg2
  rw [sgn_erase_lt (List.mem_toFinset.2 hi) hij, sgn_erase_lt (List.mem_toFinset.2 ha) hab]
  have : par (-2) = 1 := by decide
  rw [this]
  push_cast
  ring

/-- **C55**: the three numbers returned for two determinants with the same numbers of electrons of each spin: the
one-body part (with the core energy) and the two-body part are matrix elements in second quantisation, and the total is
their sum.  The row determinant of the call is the ket; see `hmatel` for real integrals. -/
theorem hmatel_parts (sys : System K) (hV : Exchange sys.hijkl) {di dj : List Nat} (hdi : Det sys.nbasis di)
    (hdj : Det sys.nbasis dj) (hsp : SameSpins sys.nbasis di dj) (hnel : di.length = sys.nup + sys.ndown) :
    (getHmatel sys di dj).1 = ham sys.nbasis sys.ecore sys.H1 sys.hijkl dj.toFinset di.toFinset ∧
      (getHmatel sys di dj).2.1 = sys.ecore * (inner dj.toFinset (ket di.toFinset) : K) +
        oneBody sys.nbasis sys.H1 dj.toFinset di.toFinset ∧
      (getHmatel sys di dj).2.2 = twoBody sys.nbasis sys.hijkl dj.toFinset di.toFinset := by
  suffices h : (getHmatel sys di dj).1 = (getHmatel sys di dj).2.1 + (getHmatel sys di dj).2.2 ∧
      (getHmatel sys di dj).2.1 = sys.ecore * (inner dj.toFinset (ket di.toFinset) : K) +
        oneBody sys.nbasis sys.H1 dj.toFinset di.toFinset ∧
      (getHmatel sys di dj).2.2 = twoBody sys.nbasis sys.hijkl dj.toFinset di.toFinset by
    refine ⟨?_, h.2⟩
    rw [h.1, h.2.1, h.2.2]
    rfl
  have hlen := length_diff hdi hdj hsp.1
  have hfrom := toFinset_diff dj di
  have hto := toFinset_diff di dj
  have sfrom := diff_sorted dj di
  have sto := diff_sorted di dj
  have hspd := spins_diff hsp.2
  have ne_inner : dj.toFinset \ di.toFinset ≠ ∅ → inner dj.toFinset (ket di.toFinset) = 0 := by
    intro h
    simp only [inner, ket]
    rw [if_neg]
    intro hc
    rw [hc] at h
    simp at h
  rcases hf : diff dj di with _ | ⟨i, _ | ⟨j, _ | ⟨k, rest⟩⟩⟩
  · -- equal determinants
    have ht : diff di dj = [] := by
      rw [hf] at hlen; simpa using hlen
    rw [hf] at hfrom
    rw [ht] at hto
    have hTS : dj.toFinset = di.toFinset := by
      apply Finset.Subset.antisymm
      · rw [← Finset.sdiff_eq_empty_iff_subset]; simpa using hfrom
      · rw [← Finset.sdiff_eq_empty_iff_subset]; simpa using hto
    have hg : getHmatel sys di dj = sc0 sys di := by
      unfold getHmatel
      rw [hf]
    obtain ⟨h1, h2⟩ := sc0_spec sys hV hdi
    rw [hg, hTS]
    refine ⟨rfl, ?_, h2⟩
    rw [h1]
    simp [inner, ket]
  · -- one excitation
    obtain ⟨a, ht⟩ : ∃ a, diff di dj = [a] := by
      rw [hf] at hlen; exact List.length_eq_one_iff.1 hlen
    rw [hf] at hfrom
    rw [ht] at hto
    have hs : Single dj.toFinset di.toFinset i a := Single.of_diff (by simpa using hfrom) (by simpa using hto)
    have hi : i ∈ dj := List.mem_toFinset.1 hs.iT
    have ha : a ∈ di := List.mem_toFinset.1 hs.aS
    have hspin : up sys.nbasis i = up sys.nbasis a := by
      rw [hfrom, hto] at hspd
      unfold up
      by_cases h1 : i < sys.nbasis <;> by_cases h2 : a < sys.nbasis <;>
        simp [h1, h2, Finset.filter_singleton] at hspd ⊢
    have hg : getHmatel sys di dj = sc1 sys (mapOrb i sys.nbasis) (mapOrb a sys.nbasis) di (getPerm [i] [a] di dj) := by
      unfold getHmatel
      rw [hf, ht]
    obtain ⟨h1, h2, h3⟩ := sc1_spec sys hV hdi hdj hnel hs hspin (getPerm [i] [a] di dj) (perm_single hdi hdj hi ha)
    rw [hg]
    refine ⟨h1, ?_, h3⟩
    rw [h2, ne_inner (by rw [hfrom]; simp)]
    simp
  · -- two excitations
    obtain ⟨a, b, ht⟩ : ∃ a b, diff di dj = [a, b] := by
      rw [hf] at hlen; exact List.length_eq_two.1 hlen
    rw [hf] at hfrom sfrom
    rw [ht] at hto sto
    have hij : i < j := by simpa using sfrom
    have hab : a < b := by simpa using sto
    have hs : Double dj.toFinset di.toFinset i j a b :=
      Double.of_diff (Nat.ne_of_lt hij) (Nat.ne_of_lt hab) (by simpa using hfrom) (by simpa using hto)
    have hspin : (up sys.nbasis i = up sys.nbasis a ∧ up sys.nbasis j = up sys.nbasis b) ∨
        (up sys.nbasis i = up sys.nbasis b ∧ up sys.nbasis j = up sys.nbasis a) := by
      rw [hfrom, hto] at hspd
      unfold up
      have nij : i ≠ j := Nat.ne_of_lt hij
      have nab : a ≠ b := Nat.ne_of_lt hab
      by_cases h1 : i < sys.nbasis <;> by_cases h2 : j < sys.nbasis <;> by_cases h3 : a < sys.nbasis <;>
        by_cases h4 : b < sys.nbasis <;>
        simp [h1, h2, h3, h4, Finset.filter_insert, Finset.filter_singleton, nij, nab] at hspd ⊢
    have hg : getHmatel sys di dj =
        (sc2 sys (mapOrb i sys.nbasis) (mapOrb j sys.nbasis) (mapOrb a sys.nbasis) (mapOrb b sys.nbasis)
          (getPerm [i, j] [a, b] di dj), 0,
         sc2 sys (mapOrb i sys.nbasis) (mapOrb j sys.nbasis) (mapOrb a sys.nbasis) (mapOrb b sys.nbasis)
          (getPerm [i, j] [a, b] di dj)) := by
      unfold getHmatel
      rw [hf, ht]
    have h2 := sc2_spec sys hV hdi hdj hs hspin (getPerm [i, j] [a, b] di dj) (perm_double hdi hdj
      (List.mem_toFinset.1 hs.iT) (List.mem_toFinset.1 hs.jT) (List.mem_toFinset.1 hs.aS) (List.mem_toFinset.1 hs.bS)
      hij hab)
    rw [hg]
    refine ⟨by simp, ?_, h2⟩
    have hcard : 2 ≤ (dj.toFinset \ di.toFinset).card := by
      rw [hfrom, List.toFinset_cons, List.toFinset_cons, List.toFinset_nil]
      simp [Nat.ne_of_lt hij]
    rw [ne_inner (by rw [hfrom]; simp), one_zero _ _ _ _ hcard]
    simp
  · -- more
    obtain ⟨a, b, c, rest', ht⟩ : ∃ a b c l, diff di dj = a :: b :: c :: l := by
      rw [hf] at hlen
      rcases hd : diff di dj with _ | ⟨a, _ | ⟨b, _ | ⟨c, l⟩⟩⟩ <;> rw [hd] at hlen <;> simp at hlen
      exact ⟨a, b, c, l, rfl⟩
    have hcard : 3 ≤ (dj.toFinset \ di.toFinset).card := by
      have h1 : (diff dj di).length = (dj.toFinset \ di.toFinset).card := by rw [diff, Finset.length_sort]
      rw [← h1, hf]
      simp
    have hg : getHmatel sys di dj = (0, 0, 0) := by
      unfold getHmatel
      rw [hf, ht]
    rw [hg, one_zero _ _ _ _ (by omega), two_zero _ _ _ _ hcard, ne_inner (by
      intro hc; rw [hc] at hcard; simp at hcard)]
    simp

/-! ### Exchanging bra and ket -/

theorem sum4_comm (R : Finset Nat) (f : Nat → Nat → Nat → Nat → K) :
    ∑ r ∈ R, ∑ s ∈ R, ∑ p ∈ R, ∑ q ∈ R, f r s p q = ∑ p ∈ R, ∑ q ∈ R, ∑ r ∈ R, ∑ s ∈ R, f r s p q := by
  calc _ = ∑ r ∈ R, ∑ p ∈ R, ∑ s ∈ R, ∑ q ∈ R, f r s p q := Finset.sum_congr rfl fun r _ => Finset.sum_comm
    _ = ∑ p ∈ R, ∑ r ∈ R, ∑ s ∈ R, ∑ q ∈ R, f r s p q := Finset.sum_comm
    _ = ∑ p ∈ R, ∑ r ∈ R, ∑ q ∈ R, ∑ s ∈ R, f r s p q :=
      Finset.sum_congr rfl fun p _ => Finset.sum_congr rfl fun r _ => Finset.sum_comm
    _ = _ := Finset.sum_congr rfl fun p _ => Finset.sum_comm

theorem one_transpose (n : Nat) (h : Nat → Nat → K) (T S : Finset Nat) :
    oneBody n h T S = oneBody n (fun p q => h q p) S T := by
  unfold oneBody
  rw [Finset.sum_comm]
  apply Finset.sum_congr rfl
  intro q _
  apply Finset.sum_congr rfl
  intro p _
  have e1 : inner T (cre p (ann q (ket S))) = inner S (cre q (ann p (ket T))) := by
    rw [one_elem, one_elem, mul_comm (sgn p T)]
    refine if_congr ?_ rfl rfl
    constructor
    · rintro ⟨h1, h2, h3⟩; exact ⟨h2, h1, h3.symm⟩
    · rintro ⟨h1, h2, h3⟩; exact ⟨h2, h1, h3.symm⟩
  have e2 : h1 n h p q = h1 n (fun p q => h q p) q p := by
    unfold h1
    exact if_congr eq_comm rfl rfl
  rw [e1, e2]

theorem two_transpose (n : Nat) (V : Nat → Nat → Nat → Nat → K) (T S : Finset Nat) :
    twoBody n V T S = twoBody n (fun p q r s => V r s p q) S T := by
  unfold twoBody
  congr 1
  rw [sum4_comm]
  apply Finset.sum_congr rfl
  intro p _
  apply Finset.sum_congr rfl
  intro q _
  apply Finset.sum_congr rfl
  intro r _
  apply Finset.sum_congr rfl
  intro s _
  have e1 : inner T (cre p (cre q (ann s (ann r (ket S))))) = inner S (cre r (cre s (ann q (ann p (ket T))))) := by
    rw [two_elem, two_elem, mul_comm (sg2 T p q)]
    refine if_congr ?_ rfl rfl
    constructor
    · rintro ⟨h1, h2, h3⟩; exact ⟨h2, h1, h3.symm⟩
    · rintro ⟨h1, h2, h3⟩; exact ⟨h2, h1, h3.symm⟩
  have e2 : v2 n V p q r s = v2 n (fun p q r s => V r s p q) r s p q := by
    unfold v2
    refine if_congr ?_ rfl rfl
    constructor
    · rintro ⟨h1, h2⟩; exact ⟨h1.symm, h2.symm⟩
    · rintro ⟨h1, h2⟩; exact ⟨h1.symm, h2.symm⟩
  rw [e1, e2]

theorem ham_transpose (n : Nat) (e : K) (h : Nat → Nat → K) (V : Nat → Nat → Nat → Nat → K) (T S : Finset Nat) :
    ham n e h V T S = ham n e (fun p q => h q p) (fun p q r s => V r s p q) S T := by
  unfold ham
  rw [← one_transpose n h T S, ← two_transpose n V T S]
  have : inner T (ket S) = inner S (ket T) := by
    simp only [inner, ket]
    exact if_congr eq_comm rfl rfl
  rw [this]

/-- **C55** for real integrals: the element is `⟨di|H|dj⟩`. -/
theorem hmatel (sys : System K) (hV : Exchange sys.hijkl) (hsym : ∀ p q r s, sys.hijkl p q r s = sys.hijkl r s p q)
    (hh : ∀ p q, sys.H1 p q = sys.H1 q p) {di dj : List Nat} (hdi : Det sys.nbasis di)
    (hdj : Det sys.nbasis dj) (hsp : SameSpins sys.nbasis di dj) (hnel : di.length = sys.nup + sys.ndown) :
    (getHmatel sys di dj).1 = ham sys.nbasis sys.ecore sys.H1 sys.hijkl di.toFinset dj.toFinset := by
  rw [(hmatel_parts sys hV hdi hdj hsp hnel).1, ham_transpose]
  congr 1
  · funext p q; exact hh q p
  · funext p q r s; exact hsym r s p q

/-- The matrix of a one-body operator, with the failed assertion only for a spin flip. -/
theorem one_body_matel (ints : Nat → Nat → K) (n : Nat) {di dj : List Nat} (hdi : Det n di) (hdj : Det n dj)
    (hsp : SameSpins n di dj) :
    oneBodyMatel ints n di dj = some (oneBody n ints dj.toFinset di.toFinset) := by
  have hlen := length_diff hdi hdj hsp.1
  have hfrom := toFinset_diff dj di
  have hto := toFinset_diff di dj
  have hspd := spins_diff hsp.2
  rcases hf : diff dj di with _ | ⟨i, _ | ⟨j, rest⟩⟩
  · have ht : diff di dj = [] := by
      rw [hf] at hlen; simpa using hlen
    rw [hf] at hfrom
    rw [ht] at hto
    have hTS : dj.toFinset = di.toFinset := by
      apply Finset.Subset.antisymm
      · rw [← Finset.sdiff_eq_empty_iff_subset]; simpa using hfrom
      · rw [← Finset.sdiff_eq_empty_iff_subset]; simpa using hto
    unfold oneBodyMatel
    simp only [hf, ht, Option.map_some]
    rw [hTS, one_same n ints _ hdi.sub, List.sum_toFinset _ hdi.nodup]
    have : getPerm [] [] di dj = false := by simp [getPerm, permLoop]
    rw [this]
    simp only [Bool.false_eq_true, if_false]
    congr 2
    apply List.map_congr_left
    intro x hx
    rw [h1_same _ _ _ (hdi.bound x hx)]
  · obtain ⟨a, ht⟩ : ∃ a, diff di dj = [a] := by
      rw [hf] at hlen; exact List.length_eq_one_iff.1 hlen
    rw [hf] at hfrom
    rw [ht] at hto
    have hs : Single dj.toFinset di.toFinset i a := Single.of_diff (by simpa using hfrom) (by simpa using hto)
    have hi : i ∈ dj := List.mem_toFinset.1 hs.iT
    have ha : a ∈ di := List.mem_toFinset.1 hs.aS
    have hspin : up n i = up n a := by
      rw [hfrom, hto] at hspd
      unfold up
      by_cases h1 : i < n <;> by_cases h2 : a < n <;> simp [h1, h2, Finset.filter_singleton] at hspd ⊢
    unfold oneBodyMatel
    simp only [hf, ht]
    rw [if_pos ((spin_eq_iff (hdj.bound i hi) (hdi.bound a ha)).2 hspin), Option.map_some, perm_single hdi hdj hi ha,
      one_single n ints hs hdj.sub hdi.sub, h1, if_pos hspin, (mapOrb_eq (hdj.bound i hi)).1,
      (mapOrb_eq (hdi.bound a ha)).1, mul_comm]
  · have hcard : 2 ≤ (dj.toFinset \ di.toFinset).card := by
      have h1 : (diff dj di).length = (dj.toFinset \ di.toFinset).card := by rw [diff, Finset.length_sort]
      rw [← h1, hf]
      simp
    unfold oneBodyMatel
    simp only [hf]
    rw [one_zero n ints _ _ hcard]
    simp

end Zero

/-! ### The determinants of the full configuration interaction -/

theorem sublist_range {n : Nat} {l : List Nat} (hs : l.Pairwise (· < ·)) (hb : ∀ x ∈ l, x < n) : l.Sublist (List.range n) := by
  apply List.sublist_of_subperm_of_sortedLE
  · exact List.Nodup.subperm (hs.imp fun h => Nat.ne_of_lt h) fun x hx => List.mem_range.2 (hb x hx)
  · exact (hs.imp fun h => Nat.le_of_lt h).sortedLE
  · exact (List.pairwise_lt_range.imp fun h => Nat.le_of_lt h).sortedLE

theorem mem_combinations {A : Type*} {xs l : List A} {k : Nat} : l ∈ combinations xs k ↔ l.Sublist xs ∧ l.length = k := by
  induction xs generalizing k l with
  | nil =>
    cases k with
    | zero => simp [combinations]
    | succ k =>
      simp only [combinations, List.not_mem_nil, List.sublist_nil, false_iff]
      rintro ⟨rfl, h⟩
      simp at h
  | cons x xs ih =>
    cases k with
    | zero =>
      simp only [combinations, List.mem_singleton, List.length_eq_zero_iff]
      exact ⟨fun h => ⟨h ▸ List.nil_sublist _, h⟩, fun h => h.2⟩
    | succ k =>
      simp only [combinations, List.mem_append, List.mem_map, ih]
      constructor
      · rintro (⟨a, ⟨ha, hl⟩, rfl⟩ | ⟨ha, hl⟩)
        · exact ⟨ha.cons_cons x, by rw [List.length_cons, hl]⟩
        · exact ⟨ha.cons x, hl⟩
      · rintro ⟨ha, hl⟩
        cases ha with
        | cons _ ha => exact Or.inr ⟨ha, hl⟩
        | cons_cons _ ha => exact Or.inl ⟨_, ⟨ha, by simpa using hl⟩, rfl⟩

/-- Combinations of a sorted list come in lexicographic order. -/
theorem combinations_lex {xs : List Nat} (h : xs.Pairwise (· < ·)) (k : Nat) : (combinations xs k).Pairwise (· < ·) := by
  induction xs generalizing k with
  | nil => cases k <;> simp [combinations]
  | cons x xs ih =>
    rw [List.pairwise_cons] at h
    cases k with
    | zero => simp [combinations]
    | succ k =>
      rw [combinations, List.pairwise_append]
      refine ⟨?_, ih h.2 _, ?_⟩
      · rw [List.pairwise_map]
        exact (ih h.2 k).imp fun hab => List.Lex.cons hab
      · intro a ha b hb
        obtain ⟨a, -, rfl⟩ := List.mem_map.1 ha
        obtain ⟨hb, hl⟩ := mem_combinations.1 hb
        cases b with
        | nil => simp at hl
        | cons y b => exact List.Lex.rel (h.1 y (hb.subset List.mem_cons_self))

theorem nodup_combinations {xs : List Nat} (h : xs.Pairwise (· < ·)) (k : Nat) : (combinations xs k).Nodup :=
  (combinations_lex h k).imp fun hab => ne_of_lt hab

theorem append_lt {a a' b b' : List Nat} (hl : a.length = a'.length) (h : a < a') : a ++ b < a' ++ b' := by
  induction a generalizing a' with
  | nil =>
    cases a' with
    | nil => exact absurd h (lt_irrefl _)
    | cons y a' => simp at hl
  | cons x a ih =>
    cases a' with
    | nil => simp at hl
    | cons y a' =>
      cases h with
      | rel hxy => exact List.Lex.rel hxy
      | cons hab => exact List.Lex.cons (ih (by simpa using hl) hab)

theorem append_lt_left {a b b' : List Nat} (h : b < b') : a ++ b < a ++ b' := by
  induction a with
  | nil => exact h
  | cons x a ih => exact List.Lex.cons ih

theorem map_add_lt {b b' : List Nat} (n : Nat) (h : b < b') : b.map (· + n) < b'.map (· + n) := by
  induction h with
  | nil => exact List.Lex.nil
  | cons _ ih => exact List.Lex.cons ih
  | rel h => exact List.Lex.rel (Nat.add_lt_add_right h n)

/-- The list of determinants is complete and free of others: exactly the determinants with the stated numbers of
electrons of each spin. -/
theorem mem_fciDets (sys : System K) (d : List Nat) : d ∈ fciDets sys ↔
    Det sys.nbasis d ∧ (d.filter (· < sys.nbasis)).length = sys.nup ∧ d.length = sys.nup + sys.ndown := by
  set n := sys.nbasis with hn
  unfold fciDets
  simp only [List.mem_flatMap, List.mem_map, mem_combinations]
  constructor
  · rintro ⟨a, ⟨ha, hla⟩, b, ⟨hb, hlb⟩, rfl⟩
    have sa : a.Pairwise (· < ·) := List.Pairwise.sublist ha List.pairwise_lt_range
    have sb : b.Pairwise (· < ·) := List.Pairwise.sublist hb List.pairwise_lt_range
    have ba : ∀ x ∈ a, x < n := fun x hx => List.mem_range.1 (ha.subset hx)
    have bb : ∀ x ∈ b, x < n := fun x hx => List.mem_range.1 (hb.subset hx)
    refine ⟨⟨?_, ?_⟩, ?_, by simp [hla, hlb]⟩
    · rw [List.pairwise_append]
      refine ⟨sa, ?_, ?_⟩
      · rw [List.pairwise_map]
        exact sb.imp fun h => by omega
      · intro x hx y hy
        obtain ⟨z, -, rfl⟩ := List.mem_map.1 hy
        have := ba x hx
        omega
    · intro o ho
      rw [List.mem_append] at ho
      rcases ho with ho | ho
      · have := ba o ho; omega
      · obtain ⟨z, hz, rfl⟩ := List.mem_map.1 ho
        have := bb z hz
        omega
    · rw [List.filter_append, List.filter_eq_self.2 (fun x hx => by simpa using ba x hx), List.filter_eq_nil_iff.2]
      · simp [hla]
      · intro x hx
        obtain ⟨z, -, rfl⟩ := List.mem_map.1 hx
        simp
        omega
  · rintro ⟨⟨hs, hb⟩, h1, h2⟩
    -- a sorted list is its small elements followed by its large ones
    have split : ∀ l : List Nat, l.Pairwise (· < ·) → l.filter (· < n) ++ l.filter (fun x => !decide (x < n)) = l := by
      intro l
      induction l with
      | nil => intro _; rfl
      | cons x l ih =>
        intro hl
        rw [List.pairwise_cons] at hl
        by_cases hx : x < n
        · rw [List.filter_cons_of_pos (by simpa using hx), List.filter_cons_of_neg (by simpa using hx), List.cons_append,
            ih hl.2]
        · rw [List.filter_cons_of_neg (by simpa using hx), List.filter_cons_of_pos (by simpa using hx)]
          have hall : ∀ y ∈ l, ¬ y < n := fun y hy => by have := hl.1 y hy; omega
          rw [List.filter_eq_nil_iff.2 (fun y hy => by simpa using hall y hy), List.nil_append,
            List.filter_eq_self.2 (fun y hy => by simpa using hall y hy)]
    refine ⟨d.filter (· < n), ⟨sublist_range (hs.filter _) (fun x hx => by simpa using (List.mem_filter.1 hx).2), h1⟩,
      (d.filter (fun x => !decide (x < n))).map (· - n), ⟨sublist_range ?_ ?_, ?_⟩, ?_⟩
    · rw [List.pairwise_map]
      have hge : ∀ x ∈ d.filter (fun x => !decide (x < n)), n ≤ x := fun x hx => by
        have := (List.mem_filter.1 hx).2
        simpa using this
      exact (hs.filter _).imp_of_mem fun hx hy h => by
        have := hge _ hx
        have := hge _ hy
        omega
    · intro x hx
      obtain ⟨y, hy, rfl⟩ := List.mem_map.1 hx
      have h3 := hb y (List.mem_filter.1 hy).1
      have h4 : n ≤ y := by
        have := (List.mem_filter.1 hy).2
        simpa using this
      omega
    · rw [List.length_map]
      have := congrArg List.length (split d hs)
      rw [List.length_append, h1] at this
      omega
    · rw [List.map_map]
      have : (d.filter (fun x => !decide (x < n))).map ((fun x => x + n) ∘ fun x => x - n) =
          d.filter (fun x => !decide (x < n)) := by
        conv_rhs => rw [← List.map_id (d.filter (fun x => !decide (x < n)))]
        apply List.map_congr_left
        intro y hy
        have h4 : n ≤ y := by
          have := (List.mem_filter.1 hy).2
          simpa using this
        simp only [Function.comp, id]
        omega
      rw [this, split d hs]

/-- The determinants are in lexicographic order, each once: the order of the components of the eigenvectors. -/
theorem fciDets_lex (sys : System K) : (fciDets sys).Pairwise (· < ·) := by
  unfold fciDets
  rw [List.pairwise_flatMap]
  constructor
  · intro a _
    rw [List.pairwise_map]
    exact (combinations_lex List.pairwise_lt_range _).imp fun h => append_lt_left (map_add_lt _ h)
  · refine List.Pairwise.imp_of_mem ?_ (combinations_lex List.pairwise_lt_range sys.nup)
    intro a a' ha ha' h d hd d' hd'
    obtain ⟨b, -, rfl⟩ := List.mem_map.1 hd
    obtain ⟨b', -, rfl⟩ := List.mem_map.1 hd'
    exact append_lt (by rw [(mem_combinations.1 ha).2, (mem_combinations.1 ha').2]) h

theorem nodup_fciDets (sys : System K) : (fciDets sys).Nodup := (fciDets_lex sys).imp fun h => ne_of_lt h

/-- Element of the matrix that `simple_fci` diagonalises (`pauxy/estimators/ci.py` 172-181): only the upper triangle is
filled, and `eigh(H, lower=False)` reads only that. -/
def fciMatrix (sys : System K) (dets : List (List Nat)) (i j : Nat) : K :=
  if i ≤ j then (getHmatel sys (dets.getD i []) (dets.getD j [])).1
  else (getHmatel sys (dets.getD j []) (dets.getD i [])).1

/-- The matrix of `simple_fci` is the matrix of the Hamiltonian in the complete space. -/
theorem fci_matrix [CharZero K] (sys : System K) (hV : Exchange sys.hijkl)
    (hsym : ∀ p q r s, sys.hijkl p q r s = sys.hijkl r s p q) (hh : ∀ p q, sys.H1 p q = sys.H1 q p) {i j : Nat}
    {di dj : List Nat} (hi : (fciDets sys)[i]? = some di) (hj : (fciDets sys)[j]? = some dj) :
    fciMatrix sys (fciDets sys) i j = ham sys.nbasis sys.ecore sys.H1 sys.hijkl di.toFinset dj.toFinset := by
  obtain ⟨a1, a2, a3⟩ := (mem_fciDets sys di).1 (List.mem_of_getElem? hi)
  obtain ⟨b1, b2, b3⟩ := (mem_fciDets sys dj).1 (List.mem_of_getElem? hj)
  have cnt : ∀ d : List Nat, Det sys.nbasis d →
      (d.toFinset.filter (· < sys.nbasis)).card = (d.filter (· < sys.nbasis)).length := by
    intro d hd
    rw [← List.toFinset_card_of_nodup (hd.nodup.filter _), List.toFinset_filter]
    simp
  have hsp : SameSpins sys.nbasis di dj := ⟨by rw [a3, b3], by rw [cnt di a1, cnt dj b1, a2, b2]⟩
  have hsp' : SameSpins sys.nbasis dj di := ⟨hsp.1.symm, hsp.2.symm⟩
  unfold fciMatrix
  rw [List.getD_eq_getElem?_getD, List.getD_eq_getElem?_getD, hi, hj]
  simp only [Option.getD_some]
  split_ifs
  · exact hmatel sys hV hsym hh a1 b1 hsp a3
  · rw [(hmatel_parts sys hV b1 a1 hsp' b3).1]

/-! ### Limits -/

/-- Spin is not checked: for determinants with different numbers of up electrons the element can be wrong. -/
theorem spin_flip_wrong : ∃ (sys : System ℚ) (di dj : List Nat), Exchange sys.hijkl ∧ Det sys.nbasis di ∧
    Det sys.nbasis dj ∧ di.length = dj.length ∧ (getHmatel sys di dj).1 = 1 ∧
    ham sys.nbasis sys.ecore sys.H1 sys.hijkl dj.toFinset di.toFinset = 0 := by
  refine ⟨⟨1, 1, 0, 0, fun _ _ => 1, fun _ _ _ _ => 0⟩, [0], [1], fun _ _ _ _ => rfl, ⟨by simp, by simp⟩,
    ⟨by simp, by simp⟩, rfl, by decide +kernel, by decide +kernel⟩

/-- With complex or otherwise unsymmetric integrals the element is the one with bra and ket exchanged. -/
theorem transposed : ∃ (sys : System ℚ) (di dj : List Nat), Exchange sys.hijkl ∧ Det sys.nbasis di ∧
    Det sys.nbasis dj ∧ SameSpins sys.nbasis di dj ∧ (getHmatel sys di dj).1 = 1 ∧
    ham sys.nbasis sys.ecore sys.H1 sys.hijkl di.toFinset dj.toFinset = -1 := by
  refine ⟨⟨2, 1, 0, 0, fun p q => (q : ℚ) - p, fun _ _ _ _ => 0⟩, [1], [0], fun _ _ _ _ => rfl, ⟨by simp, by simp⟩,
    ⟨by simp, by simp⟩, ⟨rfl, by decide⟩, by decide +kernel, by decide +kernel⟩

/-! ### Examples -/

/-- A double excitation with a negative sign. -/
example : Det 3 [0, 1, 4] ∧ Det 3 [1, 2, 5] ∧ SameSpins 3 [0, 1, 4] [1, 2, 5] ∧
    getPerm [2, 5] [0, 4] [0, 1, 4] [1, 2, 5] = true := by
  refine ⟨⟨by simp, by simp⟩, ⟨by simp, by simp⟩, ⟨rfl, by decide⟩, by decide +kernel⟩

example : Exchange (fun p q r s : Nat => ((p + r) * (q + s) : ℚ)) := fun p q r s => by ring

example : (fciDets (⟨3, 2, 1, 0, fun _ _ => 0, fun _ _ _ _ => 0⟩ : System ℚ)).length = 9 := by decide +kernel

end Verif.CI
