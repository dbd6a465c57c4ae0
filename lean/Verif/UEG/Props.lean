import Verif.UEG.Model
import Mathlib.Data.List.Sort
import Mathlib.Tactic.Linarith
import Mathlib.Tactic.Ring
import Mathlib.Tactic.LinearCombination

/-! # Uniform electron gas: properties C52 and following -/

namespace Verif.UEG

open Finset

/-! ## The basis -/

theorem mem_irange (n : ℤ) (x : ℤ) : x ∈ irange n ↔ -n ≤ x ∧ x ≤ n := by
  simp only [irange, List.mem_map, List.mem_range]
  constructor
  · rintro ⟨i, hi, rfl⟩; omega
  · intro h
    exact ⟨(x + n).toNat, by omega, by omega⟩

theorem nodup_irange (n : ℤ) : (irange n).Nodup := by
  refine List.Nodup.map ?_ List.nodup_range
  intro a b h
  simpa using h

theorem nsq_nonneg (k : Vec) : 0 ≤ nsq k := by unfold nsq; positivity

theorem nsq_eq_zero {k : Vec} (h : nsq k = 0) : k = 0 := by
  obtain ⟨a, b, c⟩ := k
  simp only [nsq] at h
  have ha : a = 0 := by nlinarith [sq_nonneg a, sq_nonneg b, sq_nonneg c]
  have hb : b = 0 := by nlinarith [sq_nonneg a, sq_nonneg b, sq_nonneg c]
  have hc : c = 0 := by nlinarith [sq_nonneg a, sq_nonneg b, sq_nonneg c]
  subst ha hb hc; rfl

theorem nsq_zero : nsq 0 = 0 := by simp [nsq]

theorem nsq_neg (k : Vec) : nsq (-k) = nsq k := by simp [nsq]

theorem nmax_nonneg (e : ℝ) : 0 ≤ nmax e := Int.ceil_nonneg (Real.sqrt_nonneg _)

theorem nsq_le_nmax (e : ℝ) (k : Vec) (h : (1 / 2 : ℝ) * (nsq k : ℝ) ≤ e) : nsq k ≤ nmax e ^ 2 := by
  have h0 : (0 : ℝ) ≤ nsq k := by exact_mod_cast nsq_nonneg k
  have h1 : (nsq k : ℝ) ≤ 2 * e := by linarith
  have h2 : Real.sqrt (2 * e) ≤ nmax e := Int.le_ceil _
  have h3 : (nsq k : ℝ) ≤ (nmax e : ℝ) ^ 2 := by
    calc (nsq k : ℝ) ≤ 2 * e := h1
      _ = Real.sqrt (2 * e) ^ 2 := (Real.sq_sqrt (by linarith)).symm
      _ ≤ _ := pow_le_pow_left₀ (Real.sqrt_nonneg _) h2 2
  exact_mod_cast h3

theorem comp_le {n : ℤ} (hn : 0 ≤ n) {k : Vec} (h : nsq k ≤ n ^ 2) :
    (-n ≤ k.1 ∧ k.1 ≤ n) ∧ (-n ≤ k.2.1 ∧ k.2.1 ≤ n) ∧ (-n ≤ k.2.2 ∧ k.2.2 ≤ n) := by
  unfold nsq at h
  have h1 := sq_nonneg k.1
  have h2 := sq_nonneg k.2.1
  have h3 := sq_nonneg k.2.2
  exact ⟨abs_le.mp (abs_le_of_sq_le_sq (by linarith) hn), abs_le.mp (abs_le_of_sq_le_sq (by linarith) hn),
    abs_le.mp (abs_le_of_sq_le_sq (by linarith) hn)⟩

/-- The loop finds exactly the integer vectors within the cutoff. -/
theorem mem_kvals (e : ℝ) (v : Vec) : v ∈ kvals e ↔ (1 / 2 : ℝ) * (nsq v : ℝ) ≤ e := by
  simp only [kvals, List.mem_flatMap, List.mem_filterMap]
  constructor
  · rintro ⟨a, _, b, _, c, _, h⟩
    split_ifs at h with hc
    cases h
    exact hc
  · intro h
    obtain ⟨h1, h2, h3⟩ := comp_le (nmax_nonneg e) (nsq_le_nmax e v h)
    exact ⟨v.1, (mem_irange _ _).mpr h1, v.2.1, (mem_irange _ _).mpr h2, v.2.2, (mem_irange _ _).mpr h3,
      if_pos h⟩

theorem nodup_kvals (e : ℝ) : (kvals e).Nodup := by
  unfold kvals
  rw [List.nodup_flatMap]
  refine ⟨fun a _ => ?_, ?_⟩
  · rw [List.nodup_flatMap]
    refine ⟨fun b _ => ?_, ?_⟩
    · refine (nodup_irange _).filterMap ?_
      intro c c' k h h'
      simp only [Option.mem_def] at h h'
      split_ifs at h h'
      rw [← h'] at h
      simpa using h
    · refine (nodup_irange _).pairwise_of_forall_ne ?_
      intro b _ b' _ hne
      rw [Function.onFun, List.disjoint_left]
      intro k hk hk'
      simp only [List.mem_filterMap] at hk hk'
      obtain ⟨c, _, h⟩ := hk
      obtain ⟨c', _, h'⟩ := hk'
      split_ifs at h h'
      rw [← h'] at h
      simp at h
      exact hne h.1
  · refine (nodup_irange _).pairwise_of_forall_ne ?_
    intro a _ a' _ hne
    rw [Function.onFun, List.disjoint_left]
    intro k hk hk'
    simp only [List.mem_flatMap, List.mem_filterMap] at hk hk'
    obtain ⟨b, _, c, _, h⟩ := hk
    obtain ⟨b', _, c', _, h'⟩ := hk'
    split_ifs at h h'
    rw [← h'] at h
    simp at h
    exact hne h.1

theorem mem_sorted (I : Inp) (e : ℝ) (v : Vec) : v ∈ sorted I e ↔ (1 / 2 : ℝ) * (nsq v : ℝ) ≤ e := by
  rw [sorted, List.mem_mergeSort, mem_kvals]

theorem nodup_sorted (I : Inp) (e : ℝ) : (sorted I e).Nodup :=
  ((List.mergeSort_perm _ _).nodup_iff).mpr (nodup_kvals e)

theorem sorted_pairwise (I : Inp) (e : ℝ) :
    (sorted I e).Pairwise (fun a b => energy I a ≤ energy I b) := by
  classical
  have := List.pairwise_mergeSort (le := fun a b => decide (energy I a ≤ energy I b))
    (fun a b c h1 h2 => by simp only [decide_eq_true_eq] at h1 h2 ⊢; exact h1.trans h2)
    (fun a b => by simp only [Bool.or_eq_true, decide_eq_true_eq]; exact le_total _ _) (kvals e)
  unfold sorted
  refine this.imp ?_
  intro a b h
  simpa using h

/-- The basis holds exactly the vectors within the cutoff, each once, by increasing energy. -/
theorem mem_basis (I : Inp) (v : Vec) : v ∈ basis I ↔ (1 / 2 : ℝ) * (nsq v : ℝ) ≤ I.ecut :=
  mem_sorted I _ v

theorem nodup_basis (I : Inp) : (basis I).Nodup := nodup_sorted I _

/-! ## The index of a vector -/

theorem mapIx_inj (I : Inp) {k k' : Vec} (h : nsq k ≤ nmax I.ecut ^ 2) (h' : nsq k' ≤ nmax I.ecut ^ 2)
    (he : mapIx I k = mapIx I k') : k = k' := by
  have hn := nmax_nonneg I.ecut
  obtain ⟨⟨a1, a2⟩, ⟨b1, b2⟩, ⟨c1, c2⟩⟩ := comp_le hn h
  obtain ⟨⟨a1', a2'⟩, ⟨b1', b2'⟩, ⟨c1', c2'⟩⟩ := comp_le hn h'
  obtain ⟨a, b, c⟩ := k
  obtain ⟨a', b', c'⟩ := k'
  simp only [mapIx] at he
  generalize nmax I.ecut = n at *
  simp only [nsq] at *
  rcases hn.eq_or_lt with h0 | hpos
  · subst h0
    have : a = a' := by omega
    have : b = b' := by omega
    have : c = c' := by omega
    subst_vars; rfl
  have key : ∀ x x' y : ℤ, -n ≤ x → x ≤ n → -n ≤ x' → x' ≤ n → x - x' = 2 * n * y →
      x = x' ∨ (x = n ∧ x' = -n) ∨ (x = -n ∧ x' = n) := by
    intro x x' y h1 h2 h3 h4 hy
    rcases lt_trichotomy y 0 with hy0 | hy0 | hy0
    · right; right
      have : 2 * n * y ≤ 2 * n * (-1) := mul_le_mul_of_nonneg_left (by omega) (by omega)
      constructor <;> omega
    · left; subst hy0; omega
    · right; left
      have : 2 * n * 1 ≤ 2 * n * y := mul_le_mul_of_nonneg_left (by omega) (by omega)
      constructor <;> omega
  have hab : a - a' = 2 * n * ((b' - b) + 2 * n * (c' - c)) := by linear_combination he
  have hext : ∀ x y z : ℤ, (x = n ∨ x = -n) → x ^ 2 + y ^ 2 + z ^ 2 ≤ n ^ 2 → y = 0 ∧ z = 0 := by
    intro x y z hx hs
    have hx2 : x ^ 2 = n ^ 2 := by rcases hx with rfl | rfl <;> ring
    have h1 : y ^ 2 + z ^ 2 ≤ 0 := by linarith
    constructor
    · have : y ^ 2 = 0 := le_antisymm (by nlinarith [sq_nonneg z]) (sq_nonneg y)
      exact pow_eq_zero_iff (two_ne_zero) |>.mp this
    · have : z ^ 2 = 0 := le_antisymm (by nlinarith [sq_nonneg y]) (sq_nonneg z)
      exact pow_eq_zero_iff (two_ne_zero) |>.mp this
  have ha : a = a' := by
    rcases key a a' _ a1 a2 a1' a2' hab with h1 | ⟨h1, h2⟩ | ⟨h1, h2⟩
    · exact h1
    · obtain ⟨rfl, rfl⟩ := hext a b c (Or.inl h1) h
      obtain ⟨rfl, rfl⟩ := hext a' b' c' (Or.inr h2) h'
      simp at hab
      omega
    · obtain ⟨rfl, rfl⟩ := hext a b c (Or.inr h1) h
      obtain ⟨rfl, rfl⟩ := hext a' b' c' (Or.inl h2) h'
      simp at hab
      omega
  subst ha
  have hbc : b - b' = 2 * n * (c' - c) := by
    have : 2 * n * ((b' - b) + 2 * n * (c' - c)) = 0 := by rw [← hab]; ring
    rcases mul_eq_zero.mp this with h1 | h1
    · omega
    · linarith
  have hb : b = b' := by
    rcases key b b' _ b1 b2 b1' b2' hbc with h1 | ⟨h1, h2⟩ | ⟨h1, h2⟩
    · exact h1
    · obtain ⟨_, rfl⟩ := hext b a c (Or.inl h1) (by linarith)
      obtain ⟨_, rfl⟩ := hext b' a c' (Or.inr h2) (by linarith)
      simp at hbc
      omega
    · obtain ⟨_, rfl⟩ := hext b a c (Or.inr h1) (by linarith)
      obtain ⟨_, rfl⟩ := hext b' a c' (Or.inl h2) (by linarith)
      simp at hbc
      omega
  subst hb
  have hc : c = c' := by
    have : 2 * n * (c' - c) = 0 := by rw [← hbc]; ring
    rcases mul_eq_zero.mp this with h1 | h1 <;> omega
  subst hc
  rfl

theorem mapIx_nonneg (I : Inp) {k : Vec} (h : nsq k ≤ nmax I.ecut ^ 2) : 0 ≤ mapIx I k := by
  have hn := nmax_nonneg I.ecut
  obtain ⟨⟨a1, _⟩, ⟨b1, _⟩, ⟨c1, _⟩⟩ := comp_le hn h
  have h1 : 0 ≤ k.1 + nmax I.ecut := by omega
  have h2 : 0 ≤ k.2.1 + nmax I.ecut := by omega
  have h3 : 0 ≤ k.2.2 + nmax I.ecut := by omega
  unfold mapIx
  dsimp only
  positivity

/-! ## The table -/

theorem foldl_set_length {α : Type} (l : List (α × Nat)) (f : α → Nat) (t : List Nat) :
    (l.foldl (fun t ki => t.set (f ki.1) ki.2) t).length = t.length := by
  induction l generalizing t with
  | nil => rfl
  | cons x l ih => rw [List.foldl_cons, ih, List.length_set]

theorem foldl_set_of_notMem {α : Type} (l : List (α × Nat)) (f : α → Nat) (t : List Nat) (p : Nat)
    (h : ∀ x ∈ l, f x.1 ≠ p) : (l.foldl (fun t ki => t.set (f ki.1) ki.2) t)[p]? = t[p]? := by
  induction l generalizing t with
  | nil => rfl
  | cons x l ih =>
    rw [List.foldl_cons, ih _ fun y hy => h y (List.mem_cons_of_mem _ hy),
      List.getElem?_set_ne (h x List.mem_cons_self)]

/-- With distinct positions the entry written for an element stays. -/
theorem foldl_set_of_mem {α : Type} (l : List (α × Nat)) (f : α → Nat) (t : List Nat)
    (hd : (l.map fun x => f x.1).Nodup) (x : α × Nat) (hx : x ∈ l) (hlt : f x.1 < t.length) :
    (l.foldl (fun t ki => t.set (f ki.1) ki.2) t)[f x.1]? = some x.2 := by
  induction l generalizing t with
  | nil => cases hx
  | cons y l ih =>
    rw [List.map_cons, List.nodup_cons] at hd
    rw [List.foldl_cons]
    rcases List.mem_cons.mp hx with rfl | hx
    · rw [foldl_set_of_notMem, List.getElem?_set_self hlt]
      intro z hz he
      exact hd.1 (List.mem_map.mpr ⟨z, hz, he⟩)
    · exact ih _ hd.2 hx (by rw [List.length_set]; exact hlt)

theorem basis_nmax (I : Inp) {v : Vec} (h : v ∈ basis I) : nsq v ≤ nmax I.ecut ^ 2 :=
  nsq_le_nmax _ _ ((mem_basis I v).mp h)

/-- A vector no longer than the last one of the list is found at its place. -/
theorem lookup_of_le (I : Inp) {v l : Vec} (hl : (basis I).getLast? = some l) (hv : nsq v ≤ nsq l)
    (i : Nat) : lookup I v = some i ↔ (basis I)[i]? = some v := by
  have hlm : l ∈ basis I := List.mem_of_getLast? hl
  have hvm : v ∈ basis I := by
    rw [mem_basis] at hlm ⊢
    have : (nsq v : ℝ) ≤ nsq l := by exact_mod_cast hv
    linarith
  obtain ⟨j, hj, hjv⟩ := List.getElem_of_mem hvm
  obtain ⟨mx, hmx⟩ : ∃ mx, maxIx I = some mx := by
    unfold maxIx
    rw [← Option.isSome_iff_exists, List.isSome_max?_iff]
    simp only [ne_eq, List.map_eq_nil_iff]
    intro h0; rw [h0] at hvm; cases hvm
  have hle : mapIx I v ≤ mx := by
    have h1 : mapIx I v ∈ (basis I).map (mapIx I) := List.mem_map_of_mem hvm
    exact (List.max?_eq_some_iff.mp hmx).2 _ h1
  have h0 : 0 ≤ mapIx I v := mapIx_nonneg I (basis_nmax I hvm)
  have hlen : (table I mx).length = (mx + 1).toNat := by
    unfold table
    rw [foldl_set_length (f := fun k => (mapIx I k).toNat), List.length_replicate]
  have hlk : lookup I v = some j := by
    unfold lookup
    rw [hl, hmx]
    dsimp only
    rw [if_pos hv, if_neg (by omega), if_neg (by rw [hlen]; omega)]
    unfold table
    refine foldl_set_of_mem ((basis I).zipIdx) (fun k => (mapIx I k).toNat) _ ?_ (v, j) ?_ ?_
    · have : ((basis I).zipIdx.map fun x => (mapIx I x.1).toNat) =
          (basis I).map (fun k => (mapIx I k).toNat) := by
        conv_rhs => rw [← List.zipIdx_map_fst 0 (basis I), List.map_map]
        rfl
      rw [this]
      refine (List.nodup_map_iff_inj_on (nodup_basis I)).mpr ?_
      intro x hx y hy hxy
      have hx0 := mapIx_nonneg I (basis_nmax I hx)
      have hy0 := mapIx_nonneg I (basis_nmax I hy)
      exact mapIx_inj I (basis_nmax I hx) (basis_nmax I hy) (by omega)
    · rw [List.mk_mem_zipIdx_iff_getElem?, List.getElem?_eq_getElem hj, hjv]
    · rw [List.length_replicate]; dsimp only; omega
  rw [hlk]
  constructor
  · intro h; cases h; rw [List.getElem?_eq_getElem hj, hjv]
  · intro h
    obtain ⟨hi, hiv⟩ := List.getElem?_eq_some_iff.mp h
    rw [(nodup_basis I).getElem_inj_iff.mp (hjv.trans hiv.symm)]

/-- **C52**: if the system could be set up, looking up an integer vector gives index `i` exactly if it
is basis vector number `i`, and nothing if it is not in the basis. -/
theorem lookup_exact (I : Inp) (hs : SetupOk I) (v : Vec) :
    (∀ i, lookup I v = some i ↔ (basis I)[i]? = some v) ∧ (lookup I v = none ↔ v ∉ basis I) := by
  have h1 : ∀ i, lookup I v = some i ↔ (basis I)[i]? = some v := by
    intro i
    refine ⟨fun h => ?_, fun h => hs i v h⟩
    cases hl : (basis I).getLast? with
    | none => unfold lookup at h; rw [hl] at h; cases h
    | some l =>
      by_cases hv : nsq v ≤ nsq l
      · exact (lookup_of_le I hl hv i).mp h
      · unfold lookup at h
        rw [hl] at h
        cases hm : maxIx I with
        | none => rw [hm] at h; cases h
        | some mx => rw [hm] at h; dsimp only at h; rw [if_neg hv] at h; cases h
  refine ⟨h1, ?_⟩
  constructor
  · intro h hv
    obtain ⟨j, hj, hjv⟩ := List.getElem_of_mem hv
    rw [(h1 j).mpr (by rw [List.getElem?_eq_getElem hj, hjv])] at h
    cases h
  · intro h
    cases hc : lookup I v with
    | none => rfl
    | some i => exact absurd (List.mem_of_getElem? ((h1 i).mp hc)) h

theorem energy_untwisted (I : Inp) (ht : I.twist = 0) (k : Vec) :
    energy I k = I.kfac ^ 2 * (1 / 2 * (nsq k : ℝ)) := by
  unfold energy nsq
  rw [ht]
  push_cast
  simp

/-- Without twist the system can always be set up. -/
theorem setupOk_untwisted (I : Inp) (hk : 0 < I.kfac) (ht : I.twist = 0) : SetupOk I := by
  intro i k h
  have hm : k ∈ basis I := List.mem_of_getElem? h
  have hne : basis I ≠ [] := by intro h0; rw [h0] at hm; cases hm
  refine (lookup_of_le I (List.getLast?_eq_some_getLast hne) ?_ i).mpr h
  have hp := sorted_pairwise I I.ecut
  have : energy I k ≤ energy I ((basis I).getLast hne) := by
    rw [← List.dropLast_append_getLast hne] at hm
    have hp' : (basis I).Pairwise (fun a b => energy I a ≤ energy I b) := hp
    rw [← List.dropLast_append_getLast hne, List.pairwise_append] at hp'
    rcases List.mem_append.mp hm with h1 | h1
    · exact hp'.2.2 k h1 _ (List.mem_singleton.mpr rfl)
    · rw [List.mem_singleton.mp h1]
  rw [energy_untwisted I ht, energy_untwisted I ht] at this
  have hk2 : 0 < I.kfac ^ 2 * (1 / 2) := by positivity
  have : (nsq k : ℝ) ≤ nsq ((basis I).getLast hne) := by
    have h1 : I.kfac ^ 2 * (1 / 2) * (nsq k : ℝ) ≤
        I.kfac ^ 2 * (1 / 2) * (nsq ((basis I).getLast hne) : ℝ) := by linarith
    exact le_of_mul_le_mul_left h1 hk2
  exact_mod_cast this

/-- **C52 (no twist)**. -/
theorem lookup_untwisted (I : Inp) (hk : 0 < I.kfac) (ht : I.twist = 0) (v : Vec) :
    (∀ i, lookup I v = some i ↔ (basis I)[i]? = some v) ∧
      (lookup I v = none ↔ I.ecut < (1 / 2 : ℝ) * (nsq v : ℝ)) := by
  obtain ⟨h1, h2⟩ := lookup_exact I (setupOk_untwisted I hk ht) v
  refine ⟨h1, ?_⟩
  rw [h2, mem_basis, not_le]

end Verif.UEG
