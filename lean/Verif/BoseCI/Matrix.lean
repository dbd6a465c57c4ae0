import Verif.BoseCI.Enum

/-!
# The matrices are those of the operators
-/

namespace Verif.BoseCI

open Matrix

/-- Occupation numbers as a function of the site. -/
def occ (n : Nat) (p : List Nat) : Fin n → ℕ := fun s => p.getD s 0

theorem occ_inj {n : Nat} {p q : List Nat} (hp : p.length = n) (hq : q.length = n) (h : occ n p = occ n q) : p = q := by
  apply List.ext_getElem (by rw [hp, hq])
  intro i h1 h2
  have := congrFun h ⟨i, by omega⟩
  simpa [occ, List.getD_eq_getElem?_getD, List.getElem?_eq_getElem h1, List.getElem?_eq_getElem h2] using this

theorem sum_occ {n : Nat} {p : List Nat} (hp : p.length = n) : ∑ s, occ n p s = p.sum := by
  subst hp
  induction p with
  | nil => simp
  | cons x p ih =>
    rw [List.sum_cons, ← ih]
    simp only [List.length_cons]
    rw [Fin.sum_univ_succ]
    simp [occ]

theorem ofFn_occ {n : Nat} (f : Fin n → ℕ) : occ n (List.ofFn f) = f := by
  funext s
  simp [occ, List.getD_eq_getElem?_getD]

/-! ### One phonon more -/

theorem diff_zero {p q : List Nat} (h : p.length = q.length) : ((occDiff p q).map Int.natAbs).sum = 0 ↔ p = q := by
  induction p generalizing q with
  | nil => rcases q with _ | ⟨y, q⟩ <;> simp_all [occDiff]
  | cons x p ih =>
    rcases q with _ | ⟨y, q⟩
    · simp at h
    · have := ih (q := q) (by simpa using h)
      unfold occDiff at this ⊢
      simp only [List.zipWith_cons_cons, List.map_cons, List.sum_cons, List.cons.injEq, Nat.add_eq_zero_iff]
      rw [this]
      refine and_congr ?_ Iff.rfl
      omega

theorem natAbs_le_sum (d : List Int) (s : Nat) : (d.getD s 0).natAbs ≤ (d.map Int.natAbs).sum := by
  induction d generalizing s with
  | nil => simp
  | cons x d ih =>
    rcases s with _ | s
    · simp
    · simpa using (ih s).trans (Nat.le_add_left _ _)

theorem diff_one {p q : List Nat} (h : p.length = q.length) {s : Nat} (hs : s < p.length) :
    (((occDiff p q).map Int.natAbs).sum = 1 ∧ (occDiff p q).getD s 0 = -1) ↔
      ∀ i, q.getD i 0 = if i = s then p.getD s 0 + 1 else p.getD i 0 := by
  induction p generalizing q s with
  | nil => simp at hs
  | cons x p ih =>
    rcases q with _ | ⟨y, q⟩
    · simp at h
    · have hl : p.length = q.length := by simpa using h
      rcases s with _ | s
      · have h0 := diff_zero hl
        unfold occDiff at h0 ⊢
        simp only [List.zipWith_cons_cons, List.map_cons, List.sum_cons, List.getD_cons_zero]
        constructor
        · rintro ⟨h1, h2⟩ i
          have : p = q := h0.1 (by omega)
          rcases i with _ | i
          · simp only [List.getD_cons_zero, if_true]; omega
          · simp [this]
        · intro hi
          have e0 := hi 0
          simp only [List.getD_cons_zero, if_true] at e0
          have : p = q := by
            apply List.ext_getElem hl
            intro i h1 h2
            have := hi (i + 1)
            simp only [List.getD_cons_succ, Nat.add_one_ne_zero, if_false] at this
            rw [List.getD_eq_getElem?_getD, List.getD_eq_getElem?_getD, List.getElem?_eq_getElem h1,
              List.getElem?_eq_getElem h2] at this
            simpa using this.symm
          have := h0.2 this
          refine ⟨by omega, by omega⟩
      · have hs' : s < p.length := by simpa using hs
        have h0 := ih hl hs'
        have hle := natAbs_le_sum (occDiff p q) s
        unfold occDiff at h0 hle ⊢
        simp only [List.zipWith_cons_cons, List.map_cons, List.sum_cons, List.getD_cons_succ]
        constructor
        · rintro ⟨h1, h2⟩ i
          rw [h2] at hle
          have h3 : (List.map Int.natAbs (List.zipWith (fun a b : ℕ => (a : ℤ) - (b : ℤ)) p q)).sum = 1 := by
            have : Int.natAbs (-1) = 1 := rfl
            omega
          have h4 := h0.1 ⟨h3, h2⟩
          rcases i with _ | i
          · simp only [List.getD_cons_zero, (Nat.succ_ne_zero s).symm, if_false]; omega
          · simpa using h4 i
        · intro hi
          have e0 := hi 0
          simp only [List.getD_cons_zero, (Nat.succ_ne_zero s).symm, if_false] at e0
          obtain ⟨h1, h2⟩ := h0.2 fun i => by simpa using hi (i + 1)
          refine ⟨by omega, h2⟩

theorem diff_update {n : Nat} {p q : List Nat} (hp : p.length = n) (hq : q.length = n) (s : Fin n) :
    (((occDiff p q).map Int.natAbs).sum = 1 ∧ (occDiff p q).getD s 0 = -1) ↔
      occ n q = Function.update (occ n p) s (occ n p s + 1) := by
  rw [diff_one (by rw [hp, hq]) (by rw [hp]; exact s.2)]
  constructor
  · intro h
    funext i
    have := h i
    by_cases hi : i = s
    · subst hi; simpa [occ] using this
    · rw [Function.update_of_ne hi]
      rw [if_neg (fun e => hi (Fin.ext e))] at this
      exact this
  · intro h i
    by_cases hi : i < n
    · have := congrFun h ⟨i, hi⟩
      by_cases his : i = s
      · rw [if_pos his]
        have e : (⟨i, hi⟩ : Fin n) = s := Fin.ext his
        rw [e, Function.update_self] at this
        rw [his]; exact this
      · rw [if_neg his]
        rw [Function.update_of_ne (fun e => his (congrArg Fin.val e))] at this
        exact this
    · rw [if_neg (by have := s.2; omega), List.getD_eq_getElem?_getD, List.getD_eq_getElem?_getD,
        List.getElem?_eq_none (by omega), List.getElem?_eq_none (by omega)]

section

variable {nb nmax : Nat} (hnb : 0 < nb)

/-- The state that is visited at a column. -/
theorem visited (hnb : 0 < nb) {i jj : Nat} {p q : List Nat} (hp : (perms (groups nb nmax))[i]? = some p)
    (hq : (perms (groups nb nmax))[jj]? = some q) (hlt : p.sum ≠ nmax) :
    (if ((blkboson (groups nb nmax)).take (p.sum + 1)).sum ≤ jj then
      (((perms (groups nb nmax)).drop ((blkboson (groups nb nmax)).take (p.sum + 1)).sum).take
        ((blkboson (groups nb nmax)).getD (p.sum + 1) 0))[jj - ((blkboson (groups nb nmax)).take (p.sum + 1)).sum]?
      else none) = if q.sum = p.sum + 1 then some q else none := by
  have hle := ((mem_perms (nmax := nmax) hnb p).1 (List.mem_of_getElem? hp)).2
  have hql := ((mem_perms (nmax := nmax) hnb q).1 (List.mem_of_getElem? hq)).1
  have hs := slice (nb := nb) (nmax := nmax) (p.sum + 1) (by omega)
  set off := ((blkboson (groups nb nmax)).take (p.sum + 1)).sum with hoff
  set len := (blkboson (groups nb nmax)).getD (p.sum + 1) 0 with hlen
  have key : ∀ t r, (group nb (p.sum + 1))[t]? = some r → (perms (groups nb nmax))[off + t]? = some r := by
    intro t r h
    rw [← hs] at h
    have h' := h
    rw [List.getElem?_take] at h
    split_ifs at h with ht
    rw [List.getElem?_drop] at h
    exact h
  rw [hs]
  by_cases hsum : q.sum = p.sum + 1
  · rw [if_pos hsum]
    have hmem : q ∈ group nb (p.sum + 1) := (mem_balls_replicate nb _ hnb q).2 ⟨hql, hsum⟩
    obtain ⟨t, ht⟩ := List.getElem?_of_mem hmem
    have h1 := key t q ht
    have h2 : jj = off + t := by
      have hn := nodup_perms (nmax := nmax) hnb
      have hj : jj < (perms (groups nb nmax)).length := (List.getElem?_eq_some_iff.1 hq).1
      exact (List.getElem?_inj hj hn).1 (by rw [hq, h1])
    rw [if_pos (by omega), h2, Nat.add_sub_cancel_left, ht]
  · rw [if_neg hsum]
    split_ifs with hj
    · by_contra hne
      obtain ⟨r, hr⟩ := Option.ne_none_iff_exists'.1 hne
      have := key _ r hr
      rw [Nat.add_sub_cancel' hj, hq] at this
      obtain rfl := Option.some.inj this
      have hm := (mem_balls_replicate nb _ hnb q).1 (List.mem_of_getElem? hr)
      exact hsum hm.2
    · rfl

/-- **C106**: the matrix is the one of the annihilation operator of the site, `⟨p|b|q⟩ = √q_s` where `q` is `p` with one
phonon more on the site and zero otherwise. -/
theorem lower_eq (hnb : 0 < nb) (s : Fin nb) {i jj : Nat} {p q : List Nat} (hp : (perms (groups nb nmax))[i]? = some p)
    (hq : (perms (groups nb nmax))[jj]? = some q) : lower nmax (groups nb nmax) s i jj =
      if occ nb q = Function.update (occ nb p) s (occ nb p s + 1) then Real.sqrt (occ nb q s) else 0 := by
  have hpl := (mem_perms (nmax := nmax) hnb p).1 (List.mem_of_getElem? hp)
  have hql := (mem_perms (nmax := nmax) hnb q).1 (List.mem_of_getElem? hq)
  have hsum : occ nb q = Function.update (occ nb p) s (occ nb p s + 1) → q.sum = p.sum + 1 := by
    intro h
    have e := Finset.sum_sdiff (Finset.subset_univ {s}) (f := occ nb p)
    rw [Finset.sum_singleton] at e
    rw [← sum_occ hpl.1, ← sum_occ hql.1, h, Finset.sum_update_of_mem (Finset.mem_univ _)]
    omega
  have hval : occ nb q = Function.update (occ nb p) s (occ nb p s + 1) →
      Real.sqrt (occ nb q s) = Real.sqrt ((p.getD s 0 : ℝ) + 1) := by
    intro h
    rw [h, Function.update_self]
    simp [occ]
  unfold lower
  have e1 : (perms (groups nb nmax)).getD i [] = p := by rw [List.getD_eq_getElem?_getD, hp]; rfl
  simp only [e1]
  by_cases hlt : p.sum = nmax
  · rw [if_pos hlt, if_neg]
    intro h
    have := hsum h
    omega
  · rw [if_neg hlt]
    have hv := visited hnb hp hq hlt
    by_cases hs1 : q.sum = p.sum + 1
    · rw [if_pos hs1] at hv
      split_ifs at hv with hoff
      rw [if_pos hoff, hv]
      simp only
      by_cases hu : occ nb q = Function.update (occ nb p) s (occ nb p s + 1)
      · rw [if_pos hu, if_pos ((diff_update hpl.1 hql.1 s).2 hu), hval hu]
      · rw [if_neg hu, if_neg fun h => hu ((diff_update hpl.1 hql.1 s).1 h)]
    · rw [if_neg hs1] at hv
      rw [if_neg fun h => hs1 (hsum h)]
      split_ifs at hv ⊢ with hoff
      · rw [hv]
      · rfl

end

end Verif.BoseCI
