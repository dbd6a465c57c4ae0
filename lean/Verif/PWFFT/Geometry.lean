import Verif.PWFFT.Model
import Verif.UEG.Props
import Mathlib.Data.List.GetD

/-!
# Positions, vectors and convolutions of scattered arrays
-/

namespace Verif.PWFFT

open Finset
open Verif.UEG (Vec nsq irange)

/-! ## Lists -/

theorem flatMap_range {α : Type} (f : Nat → Nat → α) (b : Nat) (hb : 0 < b) (a : Nat) :
    ((List.range a).flatMap fun i => (List.range b).map (f i)) = (List.range (a * b)).map fun p => f (p / b) (p % b) := by
  induction a with
  | zero => simp
  | succ a ih =>
    rw [List.range_succ, List.flatMap_append, ih, Nat.succ_mul, List.range_add, List.map_append]
    congr 1
    rw [List.flatMap_singleton, List.map_map]
    refine List.map_congr_left fun j hj => ?_
    rw [List.mem_range] at hj
    simp only [Function.comp]
    rw [Nat.mul_comm a b, Nat.mul_add_div hb, Nat.div_eq_of_lt hj, Nat.add_zero, Nat.mul_add_mod, Nat.mod_eq_of_lt hj]

/-- The vector of a position of the mesh. -/
def toVec (M : Nat) (x : P3) : Vec := ((x.1 : ℤ) - M, (x.2.1 : ℤ) - M, (x.2.2 : ℤ) - M)

/-- The vector of a flat index. -/
def vecAt (M p : Nat) : Vec := toVec M (unflat (2 * M + 1) p)

/-- The number of positions. -/
def len (M : Nat) : Nat := (2 * M + 1) * (2 * M + 1) * (2 * M + 1)

theorem kall_eq (M : Nat) : kall M = (List.range (len M)).map (vecAt M) := by
  have hi : irange (M : ℤ) = (List.range (2 * M + 1)).map fun (i : Nat) => (i : ℤ) - M := by
    unfold irange
    rw [show (2 * (M : ℤ) + 1).toNat = 2 * M + 1 by omega]
  unfold kall
  rw [hi]
  simp only [List.flatMap_map, List.map_map]
  have h1 : ∀ i : ℤ, ((List.range (2 * M + 1)).flatMap fun (j : Nat) => (List.range (2 * M + 1)).map
      ((fun k : ℤ => ((i, (j : ℤ) - M, k) : Vec)) ∘ fun (k : Nat) => (k : ℤ) - M)) =
      (List.range ((2 * M + 1) * (2 * M + 1))).map fun p =>
        ((i, ((p / (2 * M + 1) : Nat) : ℤ) - M, ((p % (2 * M + 1) : Nat) : ℤ) - M) : Vec) := by
    intro i
    exact flatMap_range (fun j k => ((i, (j : ℤ) - M, (k : ℤ) - M) : Vec)) _ (by omega) _
  simp only [h1]
  rw [flatMap_range (fun i p => (((i : ℤ) - M, ((p / (2 * M + 1) : Nat) : ℤ) - M, ((p % (2 * M + 1) : Nat) : ℤ) - M) : Vec)) _
    (by positivity) _, ← mul_assoc]
  refine List.map_congr_left fun p _ => ?_
  simp only [vecAt, toVec, unflat]
  rw [Nat.mod_mul_right_div_self, Nat.mod_mul_right_mod]

theorem kall_length (M : Nat) : (kall M).length = len M := by rw [kall_eq]; simp

theorem kall_getD {M p : Nat} (h : p < len M) : (kall M).getD p 0 = vecAt M p := by
  rw [List.getD_eq_getElem _ _ (by rw [kall_length]; exact h)]
  simp [kall_eq]

/-! ## Positions -/

/-- The flat index of a position. -/
def flat (n : Nat) (x : P3) : Nat := (x.1 * n + x.2.1) * n + x.2.2

theorem unflat_flat {n : Nat} {x : P3} (h : x ∈ box n) : unflat n (flat n x) = x := by
  rw [mem_box] at h
  obtain ⟨a, b, c⟩ := x
  obtain ⟨ha, hb, hc⟩ := h
  simp only at ha hb hc
  have hn : 0 < n := by omega
  have e1 : ((a * n + b) * n + c) / n = a * n + b := by
    rw [Nat.mul_comm (a * n + b) n, Nat.mul_add_div hn, Nat.div_eq_of_lt hc, Nat.add_zero]
  have e2 : ((a * n + b) * n + c) % n = c := by
    rw [Nat.mul_comm (a * n + b) n, Nat.mul_add_mod, Nat.mod_eq_of_lt hc]
  have e3 : (a * n + b) / n = a := by
    rw [Nat.mul_comm a n, Nat.mul_add_div hn, Nat.div_eq_of_lt hb, Nat.add_zero]
  have e4 : (a * n + b) % n = b := by
    rw [Nat.mul_comm a n, Nat.mul_add_mod, Nat.mod_eq_of_lt hb]
  simp only [unflat, flat]
  rw [← Nat.div_div_eq_div_mul, e1, e2, e3, e4]

theorem flat_unflat (n p : Nat) : flat n (unflat n p) = p := by
  simp only [unflat, flat]
  rw [← Nat.div_div_eq_div_mul]
  have h1 := Nat.div_add_mod' (p / n) n
  have h2 := Nat.div_add_mod' p n
  rw [h1, h2]

theorem flat_lt {n : Nat} {x : P3} (h : x ∈ box n) : flat n x < n * n * n := by
  rw [mem_box] at h
  obtain ⟨a, b, c⟩ := x
  obtain ⟨ha, hb, hc⟩ := h
  simp only at ha hb hc
  simp only [flat]
  have h1 : a * n + b + 1 ≤ n * n := by nlinarith
  nlinarith

/-- Sums over a mesh are sums over flat indices. -/
theorem sum_box (n : Nat) (f : P3 → ℂ) : ∑ x ∈ box n, f x = ∑ p ∈ range (n * n * n), f (unflat n p) := by
  refine sum_bij' (fun x _ => flat n x) (fun p _ => unflat n p) ?_ ?_ ?_ ?_ ?_
  · intro x hx; rw [mem_range]; exact flat_lt hx
  · intro p hp; exact unflat_mem (mem_range.1 hp)
  · intro x hx; exact unflat_flat hx
  · intro p _; exact flat_unflat n p
  · intro x hx; rw [unflat_flat hx]

theorem toVec_inj {M : Nat} {x y : P3} : toVec M x = toVec M y ↔ x = y := by
  obtain ⟨a, b, c⟩ := x
  obtain ⟨a', b', c'⟩ := y
  simp only [toVec, Prod.mk.injEq]
  omega

theorem vecAt_inj {M p p' : Nat} : vecAt M p = vecAt M p' ↔ p = p' := by
  rw [vecAt, vecAt, toVec_inj]
  constructor
  · intro h
    have := congrArg (flat (2 * M + 1)) h
    rwa [flat_unflat, flat_unflat] at this
  · rintro rfl; rfl

theorem vecAt_mem {M p : Nat} (h : p < len M) :
    -(M : ℤ) ≤ (vecAt M p).1 ∧ (vecAt M p).1 ≤ M ∧ -(M : ℤ) ≤ (vecAt M p).2.1 ∧ (vecAt M p).2.1 ≤ M ∧
      -(M : ℤ) ≤ (vecAt M p).2.2 ∧ (vecAt M p).2.2 ≤ M := by
  have := mem_box.1 (unflat_mem (n := 2 * M + 1) h)
  simp only [vecAt, toVec]
  omega

/-- Every vector with components from `-M` to `M` has a position. -/
theorem exists_vecAt {M : Nat} {v : Vec} (h1 : -(M : ℤ) ≤ v.1 ∧ v.1 ≤ M) (h2 : -(M : ℤ) ≤ v.2.1 ∧ v.2.1 ≤ M)
    (h3 : -(M : ℤ) ≤ v.2.2 ∧ v.2.2 ≤ M) : ∃ p, p < len M ∧ vecAt M p = v := by
  have hb : ((v.1 + M).toNat, (v.2.1 + M).toNat, (v.2.2 + M).toNat) ∈ box (2 * M + 1) := by
    rw [mem_box]; simp only; omega
  refine ⟨flat (2 * M + 1) _, flat_lt hb, ?_⟩
  rw [vecAt, unflat_flat hb]
  obtain ⟨a, b, c⟩ := v
  simp only [toVec, Prod.mk.injEq]
  simp only at h1 h2 h3
  omega

/-- Reversing the array changes the sign of the vectors. -/
theorem vecAt_flip {M p : Nat} (h : p < len M) : vecAt M (len M - 1 - p) = -vecAt M p := by
  have hm := mem_box.1 (unflat_mem (n := 2 * M + 1) h)
  set x := unflat (2 * M + 1) p with hx
  set y : P3 := (2 * M - x.1, 2 * M - x.2.1, 2 * M - x.2.2) with hy
  have hyb : y ∈ box (2 * M + 1) := by rw [mem_box, hy]; simp only; omega
  have e : len M - 1 - p = flat (2 * M + 1) y := by
    have hp : p = flat (2 * M + 1) x := by rw [hx, flat_unflat]
    have : flat (2 * M + 1) x + flat (2 * M + 1) y = len M - 1 := by
      simp only [flat, hy, len]
      obtain ⟨a, ha⟩ := Nat.le.dest (Nat.lt_succ_iff.1 hm.1)
      obtain ⟨b, hb⟩ := Nat.le.dest (Nat.lt_succ_iff.1 hm.2.1)
      obtain ⟨c, hc⟩ := Nat.le.dest (Nat.lt_succ_iff.1 hm.2.2)
      have ea : 2 * M - x.1 = a := by omega
      have eb : 2 * M - x.2.1 = b := by omega
      have ec : 2 * M - x.2.2 = c := by omega
      rw [ea, eb, ec]
      have : ((x.1 * (2 * M + 1) + x.2.1) * (2 * M + 1) + x.2.2) + ((a * (2 * M + 1) + b) * (2 * M + 1) + c) =
          ((x.1 + a) * (2 * M + 1) + (x.2.1 + b)) * (2 * M + 1) + (x.2.2 + c) := by ring
      rw [this, ha, hb, hc]
      have e2 : (2 * M * (2 * M + 1) + 2 * M) * (2 * M + 1) + 2 * M + 1 = (2 * M + 1) * (2 * M + 1) * (2 * M + 1) := by ring
      omega
    omega
  rw [e, vecAt, unflat_flat hyb, vecAt, ← hx]
  simp only [toVec, hy, Prod.neg_mk, Prod.mk.injEq]
  omega

/-! ## The sphere -/

theorem nodup_gmapOf (M : Nat) (e : ℝ) : (gmapOf M e).Nodup := (List.nodup_range).filter _

theorem mem_gmapOf {M : Nat} {e : ℝ} {p : Nat} :
    p ∈ gmapOf M e ↔ p < len M ∧ (1 / 2 : ℝ) * (nsq (vecAt M p) : ℝ) ≤ e := by
  unfold gmapOf
  rw [List.mem_filter, List.mem_range, kall_length, decide_eq_true_iff]
  constructor
  · rintro ⟨h1, h2⟩; rw [kall_getD h1] at h2; exact ⟨h1, h2⟩
  · rintro ⟨h1, h2⟩; rw [kall_getD h1]; exact ⟨h1, h2⟩

theorem gmapOf_lt {M : Nat} {e : ℝ} (a : Fin (gmapOf M e).length) : (gmapOf M e)[a] < len M :=
  (mem_gmapOf.1 (List.getElem_mem _)).1

/-- The list of positions read backwards is the list of the opposite vectors. -/
theorem gmapOf_reverse (M : Nat) (e : ℝ) : (gmapOf M e).reverse = (gmapOf M e).map fun p => len M - 1 - p := by
  have hr : (List.range (len M)).reverse = (List.range (len M)).map fun p => len M - 1 - p := by
    apply List.ext_getElem
    · simp
    · intro i h1 h2
      simp
  unfold gmapOf
  rw [kall_length, ← List.filter_reverse, hr, List.filter_map]
  congr 1
  refine List.filter_congr fun p hp => ?_
  rw [List.mem_range] at hp
  simp only [Function.comp]
  rw [kall_getD hp, kall_getD (by omega), vecAt_flip hp, UEG.nsq_neg]

theorem gmapOf_rev {M : Nat} {e : ℝ} (a : Fin (gmapOf M e).length) :
    (gmapOf M e)[a.rev] = len M - 1 - (gmapOf M e)[a] := by
  have h := gmapOf_reverse M e
  have h1 : (gmapOf M e).reverse[a.val]'(by simp) = (gmapOf M e)[a.rev] := by
    rw [List.getElem_reverse]
    congr 1
    rw [Fin.val_rev]; omega
  have h2 : ((gmapOf M e).map fun p => len M - 1 - p)[a.val]'(by simp) = len M - 1 - (gmapOf M e)[a] := by
    rw [List.getElem_map]; rfl
  rw [← h1, ← h2]
  exact List.getElem_of_eq h _

/-! ## Scattered arrays -/

theorem scatter_apply {g : List Nat} (hg : g.Nodup) (v : Fin g.length → ℂ) (p : Nat) :
    scatter g v p = ∑ a, if g[a] = p then v a else 0 := by
  have key : ∀ l : List (Fin g.length), l.Nodup → ∀ c : Nat → ℂ, (∀ a ∈ l, c g[a] = 0) →
      (l.foldl (fun c a => Function.update c g[a] (v a)) c) p = c p + (l.map fun a => if g[a] = p then v a else 0).sum := by
    intro l
    induction l with
    | nil => intro _ c _; simp
    | cons a l ih =>
      intro hl c hc
      rw [List.nodup_cons] at hl
      have hne : ∀ b ∈ l, g[b] ≠ g[a] := by
        intro b hb e
        have : b.val = a.val := (List.Nodup.getElem_inj_iff hg).1 e
        exact hl.1 (Fin.ext this ▸ hb)
      rw [List.foldl_cons, ih hl.2 _ (fun b hb => by rw [Function.update_of_ne (hne b hb)]; exact hc b (List.mem_cons_of_mem _ hb)),
        List.map_cons, List.sum_cons]
      by_cases h : g[a] = p
      · rw [if_pos h, ← h, Function.update_self, hc a List.mem_cons_self, zero_add]
      · rw [if_neg h, Function.update_of_ne (Ne.symm h), zero_add]
  rw [scatter, key _ (List.nodup_finRange _) _ (fun _ _ => rfl), zero_add, Fin.sum_univ_def]

theorem scatter_get {g : List Nat} (hg : g.Nodup) (v : Fin g.length → ℂ) (a : Fin g.length) : scatter g v g[a] = v a := by
  rw [scatter_apply hg, sum_eq_single a]
  · rw [if_pos rfl]
  · intro b _ hb
    exact if_neg fun e => hb (Fin.ext ((List.Nodup.getElem_inj_iff hg).1 e))
  · intro h; exact absurd (mem_univ _) h

theorem scatter_notMem {g : List Nat} (hg : g.Nodup) (v : Fin g.length → ℂ) {p : Nat} (h : p ∉ g) : scatter g v p = 0 := by
  rw [scatter_apply hg]
  refine sum_eq_zero fun a _ => if_neg fun e => h ?_
  rw [← e]; exact List.getElem_mem _

theorem gather_scatter {g : List Nat} (hg : g.Nodup) (v : Fin g.length → ℂ) : gather g (scatter g v) = v :=
  funext fun a => scatter_get hg v a

theorem scatter_gather {g : List Nat} (hg : g.Nodup) (f : Nat → ℂ) (hf : ∀ p, p ∉ g → f p = 0) : scatter g (gather g f) = f := by
  funext p
  by_cases h : p ∈ g
  · obtain ⟨i, hi, rfl⟩ := List.getElem_of_mem h
    exact scatter_get hg _ ⟨i, hi⟩
  · rw [scatter_notMem hg _ h, hf p h]

/-- A sum over the mesh of a scattered array is a sum over its entries. -/
theorem sum_scatter {n : Nat} {g : List Nat} (hg : g.Nodup) (hlt : ∀ a : Fin g.length, g[a] < n * n * n)
    (v : Fin g.length → ℂ) (K : P3 → ℂ) :
    ∑ x ∈ box n, reshape n (scatter g v) x * K x = ∑ a, v a * K (unflat n g[a]) := by
  rw [sum_box]
  have hr : ∀ p, reshape n (scatter g v) (unflat n p) = scatter g v p := fun p => congrArg (scatter g v) (flat_unflat n p)
  simp only [hr, scatter_apply hg, sum_mul]
  rw [sum_comm]
  refine sum_congr rfl fun a _ => ?_
  rw [sum_eq_single g[a]]
  · rw [if_pos rfl]
  · intro p _ hp; rw [if_neg (Ne.symm hp), zero_mul]
  · intro h; exact absurd (mem_range.2 (hlt a)) h

theorem conv_scatter {n1 n2 : Nat} {g1 g2 : List Nat} (h1 : g1.Nodup) (h2 : g2.Nodup) (hl1 : ∀ a : Fin g1.length, g1[a] < n1 * n1 * n1)
    (hl2 : ∀ a : Fin g2.length, g2[a] < n2 * n2 * n2) (v : Fin g1.length → ℂ) (w : Fin g2.length → ℂ) (u : P3) :
    conv n1 n2 (reshape n1 (scatter g1 v)) (reshape n2 (scatter g2 w)) u =
      ∑ a, ∑ b, if unflat n1 g1[a] + unflat n2 g2[b] = u then v a * w b else 0 := by
  unfold conv
  have e : ∀ x : P3, (∑ y ∈ box n2, if x + y = u then reshape n1 (scatter g1 v) x * reshape n2 (scatter g2 w) y else 0) =
      reshape n1 (scatter g1 v) x * ∑ b, w b * (if x + unflat n2 g2[b] = u then 1 else 0) := by
    intro x
    rw [← sum_scatter h2 hl2 w (fun y => if x + y = u then 1 else 0), mul_sum]
    refine sum_congr rfl fun y _ => ?_
    split_ifs <;> simp
  simp only [e]
  rw [sum_scatter h1 hl1 v (fun x => ∑ b, w b * (if x + unflat n2 g2[b] = u then 1 else 0))]
  refine sum_congr rfl fun a _ => ?_
  rw [mul_sum]
  refine sum_congr rfl fun b _ => ?_
  split_ifs <;> simp

theorem rev_sum {n : Nat} (f : Fin n → ℂ) : ∑ a : Fin n, f a.rev = ∑ a, f a := by
  exact Fintype.sum_equiv Fin.revPerm _ _ fun a => rfl

theorem flip_scatter {M : Nat} {e : ℝ} (v : Fin (gmapOf M e).length → ℂ) {p : Nat} (h : p < len M) :
    flip (len M) (scatter (gmapOf M e) v) p = scatter (gmapOf M e) (rev v) p := by
  rw [flip, scatter_apply (nodup_gmapOf _ _), scatter_apply (nodup_gmapOf _ _), ← rev_sum]
  refine sum_congr rfl fun a _ => ?_
  have := gmapOf_lt a
  rw [gmapOf_rev]
  refine if_congr ?_ rfl rfl
  omega

end Verif.PWFFT
