import Verif.BoseCI.Model
import Verif.BoseCI.Fock
import Mathlib.Data.List.OfFn

/-!
# The phonon states are enumerated once each, in groups by their total number
-/

namespace Verif.BoseCI

/-- The generator yields exactly the distributions of the balls that fit into the boxes. -/
theorem mem_balls (n : Nat) (bs : List Nat) (hbs : n = 0 ∨ bs ≠ []) (p : List Nat) : p ∈ balls n bs ↔
    p.length = bs.length ∧ p.sum = n ∧ ∀ i, p.getD i 0 ≤ bs.getD i 0 := by
  induction bs generalizing n p with
  | nil =>
    obtain rfl : n = 0 := by simpa using hbs
    simp only [balls, List.length_nil, List.replicate_zero, List.mem_singleton, List.length_eq_zero_iff]
    constructor
    · rintro rfl; simp
    · exact fun h => h.1
  | cons b bs ih =>
    rcases n with _ | n
    · simp only [balls, List.mem_singleton]
      constructor
      · rintro rfl
        refine ⟨by simp, by simp, fun i => ?_⟩
        rw [List.getD_eq_getElem?_getD, List.getElem?_replicate]
        split_ifs <;> simp
      · rintro ⟨h1, h2, -⟩
        rw [List.eq_replicate_iff]
        refine ⟨h1, fun x hx => ?_⟩
        have := List.single_le_sum (fun _ _ => Nat.zero_le _) x hx
        omega
    · rcases bs with _ | ⟨b', bs⟩
      · simp only [balls]
        rcases p with _ | ⟨x, p⟩
        · split_ifs <;> simp
        · constructor
          · intro h
            split_ifs at h with hb
            · simp only [List.mem_singleton, List.cons.injEq] at h
              obtain ⟨rfl, rfl⟩ := h
              refine ⟨rfl, by simp, fun i => ?_⟩
              rcases i with _ | i <;> simp [hb]
            · simp at h
          · rintro ⟨h1, h2, h3⟩
            obtain rfl : p = [] := by simpa using h1
            have h0 := h3 0
            simp at h0 h2
            subst h2
            rw [if_pos h0]
            simp
      · simp only [balls, List.mem_flatMap, List.mem_reverse, List.mem_range, List.mem_map]
        constructor
        · rintro ⟨k, hk, q, hq, rfl⟩
          obtain ⟨h1, h2, h3⟩ := (ih _ (Or.inr (by simp)) q).1 hq
          refine ⟨by simp [h1], by rw [List.sum_cons, h2]; omega, fun i => ?_⟩
          rcases i with _ | i
          · simp only [List.getD_cons_zero]; omega
          · simpa using h3 i
        · rintro ⟨h1, h2, h3⟩
          rcases p with _ | ⟨x, p⟩
          · simp at h1
          · rw [List.sum_cons] at h2
            have h0 := h3 0
            simp only [List.getD_cons_zero] at h0
            refine ⟨x, by omega, p, (ih _ (Or.inr (by simp)) p).2 ⟨by simpa using h1, by omega, fun i => ?_⟩, rfl⟩
            simpa using h3 (i + 1)

/-- No distribution is yielded twice. -/
theorem nodup_balls (n : Nat) (bs : List Nat) : (balls n bs).Nodup := by
  induction bs generalizing n with
  | nil => rcases n with _ | n <;> simp [balls]
  | cons b bs ih =>
    rcases n with _ | n
    · simp [balls]
    · rcases bs with _ | ⟨b', bs⟩
      · simp only [balls]; split_ifs <;> simp
      · simp only [balls]
        rw [List.nodup_flatMap]
        refine ⟨fun k _ => (ih _).map fun a b h => by simpa using h, ?_⟩
        refine List.Pairwise.imp ?_ (List.nodup_reverse.2 List.nodup_range)
        intro a b hab
        simp only [Function.onFun]
        intro x hx hy
        simp only [List.mem_map] at hx hy
        obtain ⟨u, -, rfl⟩ := hx
        obtain ⟨v, -, hv⟩ := hy
        exact hab (List.cons.inj hv).1.symm

theorem getD_le_sum (p : List Nat) (i : Nat) : p.getD i 0 ≤ p.sum := by
  induction p generalizing i with
  | nil => simp
  | cons x p ih =>
    rcases i with _ | i
    · simp
    · simpa using (ih i).trans (Nat.le_add_left _ _)

theorem distribute_some (nb k : Nat) (hk : 0 < k) (hnb : 0 < nb) :
    distribute k (List.replicate nb k) = some (balls k (List.replicate nb k)) := by
  unfold distribute
  rw [if_neg, if_neg]
  · rw [List.sum_replicate, smul_eq_mul]
    exact Nat.not_lt.2 (Nat.le_mul_of_pos_left _ hnb)
  · simp only [List.any_eq_true, List.mem_replicate, decide_eq_true_eq, not_exists, not_and]
    rintro x ⟨-, rfl⟩
    omega

theorem mem_balls_replicate (nb k : Nat) (hnb : 0 < nb) (p : List Nat) : p ∈ balls k (List.replicate nb k) ↔
    p.length = nb ∧ p.sum = k := by
  rw [mem_balls _ _ (Or.inr (by simp; omega)), List.length_replicate]
  constructor
  · exact fun h => ⟨h.1, h.2.1⟩
  · rintro ⟨h1, h2⟩
    refine ⟨h1, h2, fun i => ?_⟩
    by_cases hi : i < nb
    · rw [List.getD_eq_getElem?_getD (l := List.replicate nb k), List.getElem?_replicate, if_pos hi, Option.getD_some, ← h2]
      exact getD_le_sum p i
    · rw [List.getD_eq_getElem?_getD, List.getElem?_eq_none (by omega)]
      exact Nat.zero_le _

/-- The group with `k` phonons. -/
def group (nb k : Nat) : List (List Nat) := balls k (List.replicate nb k)

theorem sectors_eq (nb nmax : Nat) (hnb : 0 < nb) :
    sectors nb nmax = some ((List.range (nmax + 1)).map (group nb)) := by
  unfold sectors
  have : ((List.range nmax).mapM fun k => distribute (k + 1) (List.replicate nb (k + 1))) =
      some ((List.range nmax).map fun k => group nb (k + 1)) := by
    generalize List.range nmax = l
    induction l with
    | nil => rfl
    | cons x l ih =>
      rw [List.mapM_cons, ih, distribute_some nb (x + 1) (by omega) hnb]
      rfl
  rw [this, List.range_succ_eq_map]
  simp only [Option.map_some, List.map_cons, List.map_map]
  congr 2
  simp [group, balls]

/-- Without sites the function fails as soon as phonons are asked for. -/
theorem sectors_none (nmax : Nat) : sectors 0 (nmax + 1) = none := by
  unfold sectors
  rw [List.range_succ_eq_map, List.mapM_cons]
  rfl

section

variable {nb nmax : Nat} (hnb : 0 < nb)

/-- The groups of a run. -/
abbrev groups (nb nmax : Nat) : List (List (List Nat)) := (List.range (nmax + 1)).map (group nb)

include hnb in
/-- **C106**: the phonon states are the occupations of all sites with at most the stated number of phonons. -/
theorem mem_perms (p : List Nat) : p ∈ perms (groups nb nmax) ↔ p.length = nb ∧ p.sum ≤ nmax := by
  simp only [perms, groups, List.mem_flatten, List.mem_map, List.mem_range]
  constructor
  · rintro ⟨_, ⟨k, hk, rfl⟩, hp⟩
    obtain ⟨h1, h2⟩ := (mem_balls_replicate nb k hnb p).1 hp
    exact ⟨h1, by omega⟩
  · rintro ⟨h1, h2⟩
    exact ⟨_, ⟨p.sum, by omega, rfl⟩, (mem_balls_replicate nb _ hnb p).2 ⟨h1, rfl⟩⟩

include hnb in
/-- **C106**: none occurs twice. -/
theorem nodup_perms : (perms (groups nb nmax)).Nodup := by
  simp only [perms, groups]
  rw [List.nodup_flatten]
  refine ⟨?_, ?_⟩
  · simp only [List.mem_map]
    rintro _ ⟨k, -, rfl⟩
    exact nodup_balls _ _
  · rw [List.pairwise_map]
    refine List.Pairwise.imp ?_ List.nodup_range
    intro a b hab x hx hy
    have h1 := ((mem_balls_replicate nb a hnb x).1 hx).2
    have h2 := ((mem_balls_replicate nb b hnb x).1 hy).2
    omega

theorem flatten_slice {A : Type*} (l : List (List A)) (k : Nat) (hk : k < l.length) :
    (l.flatten.drop ((l.map List.length).take k).sum).take ((l.map List.length).getD k 0) = l[k] := by
  induction l generalizing k with
  | nil => simp at hk
  | cons x l ih =>
    rcases k with _ | k
    · simp
    · have := ih k (by simpa using hk)
      simp only [List.map_cons, List.take_succ_cons, List.sum_cons, List.flatten_cons, List.getD_cons_succ,
        List.getElem_cons_succ]
      rw [List.drop_append, List.drop_eq_nil_of_le (by omega), Nat.add_sub_cancel_left, List.nil_append]
      exact this

/-- The columns visited for a state are those of the group with one phonon more. -/
theorem slice (k : Nat) (hk : k ≤ nmax) :
    ((perms (groups nb nmax)).drop ((blkboson (groups nb nmax)).take k).sum).take
      ((blkboson (groups nb nmax)).getD k 0) = group nb k := by
  unfold perms blkboson
  rw [flatten_slice _ k (by simp; omega)]
  simp

end

end Verif.BoseCI
