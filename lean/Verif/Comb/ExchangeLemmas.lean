import Verif.Comb.Model
import Mathlib.Data.List.Nodup
import Mathlib.Data.List.Perm.Basic
import Mathlib.Data.List.Count
import Mathlib.Algebra.BigOperators.Group.List.Basic

/-! Helper lemmas for the comb exchange. -/

namespace Verif.Comb

open Verif.Mpi

theorem map_fst_zip_take {α β : Type} (l1 : List α) (l2 : List β) :
    (l1.zip l2).map (·.1) = l1.take l2.length := by
  induction l1 generalizing l2 with
  | nil => simp
  | cons a l1 ih => cases l2 with
    | nil => simp
    | cons b l2 => simp [ih]

theorem map_snd_zip_take {α β : Type} (l1 : List α) (l2 : List β) :
    (l1.zip l2).map (·.2) = l2.take l1.length := by
  induction l1 generalizing l2 with
  | nil => simp
  | cons a l1 ih => cases l2 with
    | nil => simp
    | cons b l2 => simp [ih]

/-- Pairs using the given channel. -/
def chanPairs (nw : Nat) (parent : List Nat) (src dst tag : Nat) : List ((Nat × Nat) × Nat) :=
  (pairs parent).filter (fun x => x.1.1 / nw = src ∧ x.1.2 / nw = dst ∧ x.2 = tag)

theorem onChan_sends (nw : Nat) (parent : List Nat) (src dst tag : Nat) :
    onChan (combSends nw parent src) dst tag =
      (chanPairs nw parent src dst tag).map (fun x => (x.1.1 % nw, x.1.2 / nw, x.2)) := by
  unfold onChan combSends chanPairs
  rw [List.filter_map, List.filter_filter]
  congr 1
  apply List.filter_congr
  intro x _
  simp only [Function.comp, Bool.decide_and]
  cases decide (x.1.1 / nw = src) <;> cases decide (x.1.2 / nw = dst) <;>
    cases decide (x.2 = tag) <;> rfl

theorem onChan_recvs (nw : Nat) (parent : List Nat) (src dst tag : Nat) :
    onChan (combRecvs nw parent dst) src tag =
      (chanPairs nw parent src dst tag).map (fun x => (x.1.2 % nw, x.1.1 / nw, x.2)) := by
  unfold onChan combRecvs chanPairs
  rw [List.filter_map, List.filter_filter]
  congr 1
  apply List.filter_congr
  intro x _
  simp only [Function.comp, Bool.decide_and]
  cases decide (x.1.1 / nw = src) <;> cases decide (x.1.2 / nw = dst) <;>
    cases decide (x.2 = tag) <;> rfl

theorem kill_nodup (parent : List Nat) : (kill parent).Nodup :=
  List.Nodup.filter _ List.nodup_range

theorem clone_nodup (parent : List Nat) : (clone parent).Nodup :=
  List.Nodup.filter _ List.nodup_range

theorem mem_kill {parent : List Nat} {k : Nat} :
    k ∈ kill parent ↔ k < parent.length ∧ parent.getD k 0 = 0 := by
  simp [kill]

theorem mem_clone {parent : List Nat} {k : Nat} :
    k ∈ clone parent ↔ k < parent.length ∧ 1 < parent.getD k 0 := by
  simp [clone]

theorem pairs_map_fst (parent : List Nat) :
    (pairs parent).map (·.1) = (clone parent).zip (kill parent) := by
  unfold pairs; exact List.zipIdx_map_fst 0 _

theorem pairs_kill_sublist (parent : List Nat) :
    ((pairs parent).map (·.1.2)).Sublist (kill parent) := by
  have : (pairs parent).map (·.1.2) = ((clone parent).zip (kill parent)).map (·.2) := by
    rw [← pairs_map_fst, List.map_map]; rfl
  rw [this, map_snd_zip_take]
  exact List.take_sublist _ _

theorem pairs_clone_sublist (parent : List Nat) :
    ((pairs parent).map (·.1.1)).Sublist (clone parent) := by
  have : (pairs parent).map (·.1.1) = ((clone parent).zip (kill parent)).map (·.1) := by
    rw [← pairs_map_fst, List.map_map]; rfl
  rw [this, map_fst_zip_take]
  exact List.take_sublist _ _

theorem mem_pairs_kill {parent : List Nat} {x} (h : x ∈ pairs parent) : x.1.2 ∈ kill parent :=
  (pairs_kill_sublist parent).subset (List.mem_map_of_mem h)

theorem mem_pairs_clone {parent : List Nat} {x} (h : x ∈ pairs parent) : x.1.1 ∈ clone parent :=
  (pairs_clone_sublist parent).subset (List.mem_map_of_mem h)

theorem recvs_slots_nodup (nw : Nat) (parent : List Nat) (r : Nat) :
    ((combRecvs nw parent r).map (·.1)).Nodup := by
  unfold combRecvs
  rw [List.map_map]
  have h1 : (((pairs parent).filter (fun x => x.1.2 / nw = r)).map (·.1.2)).Nodup :=
    ((List.filter_sublist.map _).trans (pairs_kill_sublist parent)).nodup (kill_nodup parent)
  have h2 : ((pairs parent).filter (fun x => x.1.2 / nw = r)).map
      ((·.1) ∘ fun x : (Nat × Nat) × Nat => (x.1.2 % nw, x.1.1 / nw, x.2)) =
      (((pairs parent).filter (fun x => x.1.2 / nw = r)).map (·.1.2)).map (· % nw) := by
    rw [List.map_map]; rfl
  rw [h2]
  refine List.Nodup.map_on ?_ h1
  intro a ha b hb hab
  simp only [List.mem_map, List.mem_filter, decide_eq_true_eq] at ha hb
  obtain ⟨x, ⟨_, hx⟩, rfl⟩ := ha
  obtain ⟨y, ⟨_, hy⟩, rfl⟩ := hb
  rw [← Nat.div_add_mod x.1.2 nw, ← Nat.div_add_mod y.1.2 nw, hx, hy, hab]

theorem comb_out (nw size : Nat) (parent : List Nat) (hlen : parent.length = nw * size) (r : Nat)
    (hr : size ≤ r) : combSends nw parent r = [] ∧ combRecvs nw parent r = [] := by
  have key : ∀ j, j < parent.length → j / nw ≠ r := by
    intro j hj h
    have : j / nw < size := Nat.div_lt_of_lt_mul (by rw [← hlen]; exact hj)
    omega
  constructor
  · unfold combSends
    rw [List.map_eq_nil_iff, List.filter_eq_nil_iff]
    intro x hx
    simpa using key _ (mem_clone.1 (mem_pairs_clone hx)).1
  · unfold combRecvs
    rw [List.map_eq_nil_iff, List.filter_eq_nil_iff]
    intro x hx
    simpa using key _ (mem_kill.1 (mem_pairs_kill hx)).1

/-- Where the walker at global position `j` comes from after the exchange. -/
def origin (parent : List Nat) (j : Nat) : Nat :=
  (((kill parent).zip (clone parent)).lookup j).getD j

theorem lookup_zip_of_mem {l1 l2 : List Nat} (hnd : l1.Nodup) {a b : Nat}
    (h : (a, b) ∈ l1.zip l2) : (l1.zip l2).lookup a = some b := by
  induction l1 generalizing l2 with
  | nil => simp at h
  | cons x l1 ih =>
    cases l2 with
    | nil => simp at h
    | cons y l2 =>
      simp only [List.zip_cons_cons, List.mem_cons, Prod.mk.injEq] at h
      simp only [List.zip_cons_cons, List.lookup_cons]
      rcases h with ⟨rfl, rfl⟩ | h
      · simp
      · have hx : a ≠ x := by
          rintro rfl
          exact (List.nodup_cons.1 hnd).1 (List.of_mem_zip h).1
        have : (a == x) = false := by simpa using hx
        rw [this]
        exact ih (List.nodup_cons.1 hnd).2 h

theorem lookup_zip_of_not_mem {l1 l2 : List Nat} {a : Nat}
    (h : ∀ b, (a, b) ∉ l1.zip l2) : (l1.zip l2).lookup a = none := by
  rw [List.lookup_eq_none_iff]
  rintro ⟨p, q⟩ hp
  simp only [bne_iff_ne, ne_eq]
  rintro rfl
  exact h q hp

theorem mem_zip_swap {l1 l2 : List Nat} {a b : Nat} (h : (a, b) ∈ l1.zip l2) :
    (b, a) ∈ l2.zip l1 := by
  induction l1 generalizing l2 with
  | nil => simp at h
  | cons x l1 ih =>
    cases l2 with
    | nil => simp at h
    | cons y l2 =>
      simp only [List.zip_cons_cons, List.mem_cons, Prod.mk.injEq] at h ⊢
      rcases h with ⟨rfl, rfl⟩ | h
      · exact Or.inl ⟨rfl, rfl⟩
      · exact Or.inr (ih h)

/-- The complete exchange of the comb. -/
theorem comb_exchange_final {V : Type} (nw size : Nat) (parent : List Nat)
    (hlen : parent.length = nw * size) (mem : Nat → Nat → V) :
    ∃ (f : Cfg V) (total : Nat), Done f ∧ (∀ ch, f.net ch = []) ∧
      (∀ j, j < nw * size → f.mem (j / nw) (j % nw) =
        mem (origin parent j / nw) (origin parent j % nw)) ∧
      (∀ sched s', exec (start (combProg nw parent) mem) sched = some s' →
        ∃ rest, exec s' rest = some f ∧ sched.length + rest.length = total) := by
  obtain ⟨f, total, h1, h2, h3, h4, h5⟩ := exchange_completes size (combSends nw parent)
    (combRecvs nw parent) mem (comb_out nw size parent hlen) (recvs_slots_nodup nw parent)
    (fun src dst tag => by rw [onChan_sends, onChan_recvs]; simp)
  refine ⟨f, total, h1, h2, ?_, h5⟩
  intro j hj
  by_cases hmem : ∃ x ∈ pairs parent, x.1.2 = j
  · obtain ⟨x, hx, rfl⟩ := hmem
    have horig : origin parent x.1.2 = x.1.1 := by
      unfold origin
      rw [lookup_zip_of_mem (b := x.1.1) (kill_nodup parent)]
      · rfl
      · apply mem_zip_swap
        rw [← pairs_map_fst]
        exact List.mem_map_of_mem (f := (·.1)) hx
    have := h4 (x.1.1 / nw) (x.1.2 / nw) x.2
    rw [onChan_sends, onChan_recvs, List.map_map, List.map_map] at this
    have h6 := List.map_inj_left.1 this x (by
      unfold chanPairs
      rw [List.mem_filter]
      exact ⟨hx, by simp⟩)
    rw [horig]
    exact h6
  · have horig : origin parent j = j := by
      unfold origin
      rw [lookup_zip_of_not_mem]
      · rfl
      · intro b hb
        have := mem_zip_swap hb
        rw [← pairs_map_fst, List.mem_map] at this
        obtain ⟨x, hx, hx2⟩ := this
        exact hmem ⟨x, hx, by rw [hx2]⟩
    rw [horig]
    apply h3
    intro hs
    simp only [combRecvs, List.map_map, List.mem_map, List.mem_filter, decide_eq_true_eq,
      Function.comp] at hs
    obtain ⟨x, ⟨hx, hx1⟩, hx2⟩ := hs
    apply hmem
    refine ⟨x, hx, ?_⟩
    rw [← Nat.div_add_mod x.1.2 nw, ← Nat.div_add_mod j nw, hx1, hx2]

/-! ### Number of copies -/

theorem lookup_none_of_not_mem_take {l1 l2 : List Nat} {a : Nat}
    (h : a ∉ l1.take l2.length) : (l1.zip l2).lookup a = none := by
  apply lookup_zip_of_not_mem
  intro b hb
  apply h
  have := List.mem_map_of_mem (f := Prod.fst) hb
  rwa [map_fst_zip_take] at this

theorem map_lookup_zip {l1 l2 : List Nat} (hnd : l1.Nodup) :
    (l1.take l2.length).map (fun j => ((l1.zip l2).lookup j).getD j) = l2.take l1.length := by
  have h1 : (l1.take l2.length).map (fun j => ((l1.zip l2).lookup j).getD j) =
      (l1.zip l2).map (fun x => ((l1.zip l2).lookup x.1).getD x.1) := by
    rw [← map_fst_zip_take, List.map_map]; rfl
  rw [h1, ← map_snd_zip_take]
  apply List.map_congr_left
  intro x hx
  rw [lookup_zip_of_mem hnd (b := x.2) hx]
  rfl

theorem origins_perm (parent : List Nat) :
    ((List.range parent.length).map (origin parent)).Perm
      ((clone parent).take (kill parent).length ++
        (List.range parent.length).filter
          (fun j => j ∉ (kill parent).take (clone parent).length)) := by
  have hsplit : (List.range parent.length).Perm
      ((kill parent).take (clone parent).length ++
        (List.range parent.length).filter
          (fun j => j ∉ (kill parent).take (clone parent).length)) := by
    have h1 := (List.filter_append_perm
      (fun j => decide (j ∈ (kill parent).take (clone parent).length))
      (List.range parent.length)).symm
    refine h1.trans ?_
    have h2 : ((List.range parent.length).filter
        (fun j => decide (j ∈ (kill parent).take (clone parent).length))).Perm
        ((kill parent).take (clone parent).length) := by
      rw [List.perm_ext_iff_of_nodup (List.Nodup.filter _ List.nodup_range)
        ((List.take_sublist _ _).nodup (kill_nodup parent))]
      intro a
      rw [List.mem_filter]
      constructor
      · rintro ⟨_, h⟩; simpa using h
      · intro h
        exact ⟨by simpa using (mem_kill.1 ((List.take_subset _ _) h)).1, by simpa using h⟩
    refine (h2.append_right _).trans ?_
    refine List.Perm.append_left _ ?_
    rw [List.filter_congr]
    intro x _
    simp
  refine (hsplit.map (origin parent)).trans ?_
  rw [List.map_append]
  refine List.Perm.append ?_ ?_
  · unfold origin
    rw [map_lookup_zip (kill_nodup parent)]
  · have : ((List.range parent.length).filter
        (fun j => j ∉ (kill parent).take (clone parent).length)).map (origin parent) =
        ((List.range parent.length).filter
        (fun j => j ∉ (kill parent).take (clone parent).length)).map id := by
      apply List.map_congr_left
      intro a ha
      rw [List.mem_filter] at ha
      unfold origin
      rw [lookup_none_of_not_mem_take (by simpa using ha.2)]
      rfl
    rw [this, List.map_id]

theorem count_of_nodup {l : List Nat} (h : l.Nodup) (a : Nat) :
    l.count a = if a ∈ l then 1 else 0 := List.Nodup.count h

/-- With counts at most two, as many walkers are cloned as are killed. -/
theorem clone_length_eq_kill_length (parent : List Nat) (hsum : parent.sum = parent.length)
    (h2 : ∀ c ∈ parent, c ≤ 2) : (clone parent).length = (kill parent).length := by
  have key : ∀ p : List Nat, (∀ c ∈ p, c ≤ 2) →
      p.countP (fun c => 1 < c) + p.length = p.countP (fun c => c = 0) + p.sum := by
    intro p
    induction p with
    | nil => simp
    | cons a p ih =>
      intro h
      have := ih (fun c hc => h c (by simp [hc]))
      have ha := h a (by simp)
      simp only [List.countP_cons, List.length_cons, List.sum_cons, decide_eq_true_eq]
      split_ifs <;> omega
  have hc : ∀ (q : Nat → Bool), ((List.range parent.length).filter
      (fun i => q (parent.getD i 0))).length = parent.countP q := by
    intro q
    rw [← List.countP_eq_length_filter]
    have : parent.countP q = ((List.range parent.length).map (fun i => parent.getD i 0)).countP q := by
      congr 1
      apply List.ext_getElem
      · simp
      · intro i h1 h2; simp [h1]
    rw [this, List.countP_map]; rfl
  have e1 := hc (fun c => decide (1 < c))
  have e2 := hc (fun c => decide (c = 0))
  have := key parent h2
  unfold clone kill
  simp only [gt_iff_lt]
  rw [e1, e2]
  omega

theorem count_origins (parent : List Nat) (hsum : parent.sum = parent.length)
    (h2 : ∀ c ∈ parent, c ≤ 2) (i : Nat) (hi : i < parent.length) :
    ((List.range parent.length).map (origin parent)).count i = parent[i] := by
  have hl := clone_length_eq_kill_length parent hsum h2
  rw [(origins_perm parent).count_eq, List.count_append, ← hl, List.take_length, hl,
    List.take_length, count_of_nodup (clone_nodup parent),
    count_of_nodup (List.Nodup.filter _ List.nodup_range)]
  have hle : parent[i] ≤ 2 := h2 _ (List.getElem_mem hi)
  have hgd : parent.getD i 0 = parent[i] := by simp [hi]
  simp only [mem_clone, List.mem_filter, List.mem_range, mem_kill, hi, true_and, hgd,
    decide_eq_true_eq]
  split_ifs <;> omega

theorem count_origins_le (parent : List Nat) (i : Nat) :
    ((List.range parent.length).map (origin parent)).count i ≤ 2 := by
  rw [(origins_perm parent).count_eq, List.count_append]
  have h1 : ((clone parent).take (kill parent).length).Nodup :=
    (List.take_sublist _ _).nodup (clone_nodup parent)
  rw [count_of_nodup h1, count_of_nodup (List.Nodup.filter _ List.nodup_range)]
  split_ifs <;> omega

end Verif.Comb
