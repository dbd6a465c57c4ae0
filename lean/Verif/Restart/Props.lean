import Verif.Restart.Model
import Mathlib.Data.List.Perm.Basic

/-!
# Property C12: restart files restore the population
-/

namespace Verif.Restart

open Verif.Util

variable {V : Type}

theorem name_inj {a b : Nat} (h : name a = name b) : a = b :=
  decimal_inj (List.append_cancel_left h)

theorem index_inj {nw r i r' i' : Nat} (hi : i < nw) (hi' : i' < nw)
    (h : i + nw * r = i' + nw * r') : r = r' ∧ i = i' := by
  have h1 : (i + nw * r) / nw = r := by
    rw [Nat.add_mul_div_left _ _ (by omega), Nat.div_eq_of_lt hi, Nat.zero_add]
  have h2 : (i' + nw * r') / nw = r' := by
    rw [Nat.add_mul_div_left _ _ (by omega), Nat.div_eq_of_lt hi', Nat.zero_add]
  rw [h, h2] at h1
  subst h1
  exact ⟨rfl, by omega⟩

theorem index_lt {nr nw r i : Nat} (hr : r < nr) (hi : i < nw) : i + nw * r < nr * nw := by
  calc i + nw * r < nw + nw * r := by omega
    _ = (r + 1) * nw := by ring_nf
    _ ≤ nr * nw := Nat.mul_le_mul_right _ hr

theorem mem_writeOps {nr nw : Nat} {p : Nat × Nat} :
    p ∈ writeOps nr nw ↔ p.1 < nr ∧ p.2 < nw := by
  unfold writeOps
  simp only [List.mem_flatMap, List.mem_range, List.mem_map]
  constructor
  · rintro ⟨r, hr, i, hi, rfl⟩; exact ⟨hr, hi⟩
  · rintro ⟨h1, h2⟩; exact ⟨p.1, h1, p.2, h2, rfl⟩

theorem create_name (z : V) (ntot size ix : Nat) :
    create z ntot size (name ix) = if ix < ntot then some (List.replicate size z) else none := by
  unfold create
  by_cases h : ix < ntot
  · rw [if_pos h, if_pos (List.mem_map.2 ⟨ix, List.mem_range.2 h, rfl⟩)]
  · rw [if_neg h, if_neg]
    rintro hm
    obtain ⟨j, hj, e⟩ := List.mem_map.1 hm
    rw [name_inj e] at hj
    exact h (List.mem_range.1 hj)

/-- Effect of a list of writes of in-range operations on a complete file. -/
theorem writeAll_spec {nr nw size : Nat} (ws : Nat → Nat → Walker V)
    (hsize : ∀ r i, r < nr → i < nw → (toBuffer (ws r i)).length = size)
    (ops : List (Nat × Nat)) (hops : ∀ p ∈ ops, p.1 < nr ∧ p.2 < nw) (f : File V)
    (hf : ∀ ix, ix < nr * nw → ∃ b, f (name ix) = some b ∧ b.length = size) :
    ∃ g, writeAll nw ws ops f = some g ∧
      (∀ r i, (r, i) ∈ ops → g (name (i + nw * r)) = some (toBuffer (ws r i))) ∧
      (∀ n, (∀ p ∈ ops, n ≠ name (p.2 + nw * p.1)) → g n = f n) := by
  induction ops generalizing f with
  | nil => exact ⟨f, rfl, by simp, by simp⟩
  | cons p ops ih =>
    obtain ⟨r, i⟩ := p
    obtain ⟨hr, hi⟩ := hops (r, i) (by simp)
    simp only at hr hi
    obtain ⟨b, hb, hbl⟩ := hf _ (index_lt hr hi)
    have hw : writeOne f (name (i + nw * r)) (toBuffer (ws r i)) =
        some (fun m => if m = name (i + nw * r) then some (toBuffer (ws r i)) else f m) := by
      unfold writeOne
      rw [hb]
      simp only
      rw [if_pos (by rw [hbl, hsize r i hr hi])]
    obtain ⟨g, h1, h2, h3⟩ := ih (fun p hp => hops p (by simp [hp]))
      (fun m => if m = name (i + nw * r) then some (toBuffer (ws r i)) else f m) (by
        intro ix hix
        by_cases h : ix = i + nw * r
        · exact ⟨_, by simp [h], hsize r i hr hi⟩
        · obtain ⟨b', hb', hl'⟩ := hf ix hix
          exact ⟨b', by rw [if_neg (fun hh => h (name_inj hh)), hb'], hl'⟩)
    refine ⟨g, by simp only [writeAll, hw, h1], ?_, ?_⟩
    · intro r' i' hmem
      rcases List.mem_cons.1 hmem with heq | hmem
      · cases heq
        by_cases hin : (r, i) ∈ ops
        · exact h2 r i hin
        · rw [h3]
          · simp
          · intro q hq heq
            obtain ⟨_, hq2⟩ := hops q (by simp [hq])
            obtain ⟨e1, e2⟩ := index_inj hi hq2 (name_inj heq)
            apply hin
            have : q = (r, i) := Prod.ext e1.symm e2.symm
            rwa [← this]
      · exact h2 r' i' hmem
    · intro n hn
      rw [h3 n (fun p hp => hn p (by simp [hp]))]
      rw [if_neg (hn (r, i) (by simp))]

/-- C12, writing: no two walkers share a dataset, and every dataset of the file belongs to exactly
one walker of one rank. -/
theorem restart_datasets_owned_once (nr nw : Nat) :
    ((writeOps nr nw).map (fun p => name (p.2 + nw * p.1))).Perm
      ((List.range (nr * nw)).map name) := by
  have hnd : (writeOps nr nw).Nodup := by
    unfold writeOps
    rw [List.nodup_flatMap]
    refine ⟨?_, ?_⟩
    · intro r _
      exact List.nodup_range.map (fun a b h => by simpa using h)
    · refine List.nodup_range.imp ?_
      intro a b hab
      simp only [Function.onFun, List.disjoint_left, List.mem_map]
      rintro p ⟨i, _, rfl⟩ ⟨j, _, h⟩
      exact hab (by simpa using (congrArg Prod.fst h).symm)
  rw [List.perm_ext_iff_of_nodup]
  · intro n
    simp only [List.mem_map, List.mem_range, mem_writeOps]
    constructor
    · rintro ⟨p, ⟨h1, h2⟩, rfl⟩
      exact ⟨_, index_lt h1 h2, rfl⟩
    · rintro ⟨ix, hix, rfl⟩
      have hnw : 0 < nw := Nat.pos_of_ne_zero (by rintro rfl; simp at hix)
      refine ⟨(ix / nw, ix % nw), ⟨?_, Nat.mod_lt _ hnw⟩, ?_⟩
      · exact (Nat.div_lt_iff_lt_mul hnw).2 hix
      · simp only [Nat.mod_add_div]
  · refine hnd.map_on ?_
    rintro ⟨r, i⟩ hp ⟨r', i'⟩ hq h
    obtain ⟨h1, h2⟩ := index_inj (mem_writeOps.1 hp).2 (mem_writeOps.1 hq).2 (name_inj h)
    exact Prod.ext h1 h2
  · exact List.nodup_range.map (fun a b h => name_inj h)

/-- C12: the population `ws` of `nr` ranks with `nw` walkers each is written to a freshly created
file, the writes of the ranks interleaved in any order.  All writes succeed, and reading with any
layout of `nr'` ranks and `nw'` walkers with the same total gives back the population, walker by
walker in global order, whatever state `w0` (of the right size) the walkers had before. -/
theorem restart_round_trip (z : V) (nr nw size : Nat) (ws : Nat → Nat → Walker V)
    (hsize : ∀ r i, r < nr → i < nw → (ws r i).phi.length = size)
    (ops : List (Nat × Nat)) (hops : ops.Perm (writeOps nr nw)) :
    ∃ f, writeAll nw ws ops (create z (nr * nw) (3 + size)) = some f ∧
      ∀ nr' nw', nr' * nw' = nr * nw → ∀ r' i', r' < nr' → i' < nw' →
        ∀ w0 : Walker V, w0.phi.length = size →
          readOne nw' f r' i' w0 = some (ws ((i' + nw' * r') / nw) ((i' + nw' * r') % nw)) := by
  obtain ⟨f, h1, h2, -⟩ := writeAll_spec (size := 3 + size) ws
    (by intro r i hr hi; simp [toBuffer, hsize r i hr hi]; omega) ops
    (fun p hp => mem_writeOps.1 (hops.mem_iff.1 hp)) (create z (nr * nw) (3 + size))
    (by
      intro ix hix
      refine ⟨List.replicate (3 + size) z, ?_, by simp⟩
      rw [create_name, if_pos hix])
  refine ⟨f, h1, ?_⟩
  intro nr' nw' htot r' i' hr' hi' w0 hw0
  have hix : i' + nw' * r' < nr * nw := by rw [← htot]; exact index_lt hr' hi'
  have hnw : 0 < nw := Nat.pos_of_ne_zero (by rintro rfl; simp at hix)
  have ha : (i' + nw' * r') / nw < nr := (Nat.div_lt_iff_lt_mul hnw).2 hix
  have hb : (i' + nw' * r') % nw < nw := Nat.mod_lt _ hnw
  have hg := h2 ((i' + nw' * r') / nw) ((i' + nw' * r') % nw)
    (hops.mem_iff.2 (mem_writeOps.2 ⟨ha, hb⟩))
  rw [Nat.mod_add_div] at hg
  unfold readOne
  rw [hg]
  simp [toBuffer, fromBuffer, hw0, hsize _ _ ha hb]

/-- C12, reading with a larger population: the walkers beyond the end of the file keep the state
they were initialised with (the code only prints a message). -/
theorem restart_missing_kept (z : V) (nr nw size : Nat) (ws : Nat → Nat → Walker V)
    (hsize : ∀ r i, r < nr → i < nw → (ws r i).phi.length = size)
    (ops : List (Nat × Nat)) (hops : ops.Perm (writeOps nr nw)) (f : File V)
    (hf : writeAll nw ws ops (create z (nr * nw) (3 + size)) = some f)
    (nw' r' i' : Nat) (hix : nr * nw ≤ i' + nw' * r') (w0 : Walker V) :
    readOne nw' f r' i' w0 = some w0 := by
  obtain ⟨g, h1, h2, h3⟩ := writeAll_spec (size := 3 + size) ws
    (by intro r i hr hi; simp [toBuffer, hsize r i hr hi]; omega) ops
    (fun p hp => mem_writeOps.1 (hops.mem_iff.1 hp)) (create z (nr * nw) (3 + size))
    (by
      intro ix hix
      refine ⟨List.replicate (3 + size) z, ?_, by simp⟩
      rw [create_name, if_pos hix])
  rw [hf] at h1
  cases h1
  unfold readOne
  rw [h3, create_name, if_neg (by omega)]
  intro p hp h
  obtain ⟨a, b⟩ := mem_writeOps.1 (hops.mem_iff.1 hp)
  have := name_inj h
  have := index_lt a b
  omega

/-- C62: a run that restarts from the file it also writes to (`write_freq > 0` and the same name)
loses the population: the file is emptied before it is read, so every walker comes back with
weight, phase, overlap and wavefunction zero, whatever the file held. -/
theorem restart_same_file_loses (z : V) (writeFreq nr nw size r i : Nat) (hw : 0 < writeFreq)
    (hr : r < nr) (hi : i < nw) (input : File V) (w0 : Walker V) (h0 : w0.phi.length = size) :
    setup z writeFreq (nr * nw) (3 + size) nw r i true input w0 =
      some ⟨z, z, z, List.replicate size z⟩ := by
  unfold setup readOne
  simp only [hw, and_self, if_true]
  rw [create_name, if_pos (index_lt hr hi)]
  rw [Nat.add_comm 3 size, List.replicate_succ, List.replicate_succ, List.replicate_succ]
  simp [fromBuffer, h0]

/-- C62, the safe case: with different files, or without writing, set-up reads the given file. -/
theorem restart_other_file_partial (z : V) (writeFreq ntot size nw r i : Nat) (same : Bool)
    (h : writeFreq = 0 ∨ same = false) (input : File V) (w0 : Walker V) :
    setup z writeFreq ntot size nw r i same input w0 = readOne nw input r i w0 := by
  unfold setup
  rw [if_neg]
  rintro ⟨h1, h2⟩
  rcases h with h | h
  · omega
  · simp [h] at h2

/-- Non-vacuity: two ranks with three walkers, two orbitals' worth of data, written in reverse
order. -/
example : (∀ r i, r < 2 → i < 3 →
      ((fun r i => ⟨(r : Int), i, 1, [(r : Int), 7]⟩ : Nat → Nat → Walker Int) r i).phi.length = 2) ∧
    (writeOps 2 3).reverse.Perm (writeOps 2 3) ∧ 3 * 2 = 2 * 3 :=
  ⟨fun _ _ _ _ => rfl, List.reverse_perm _, rfl⟩

end Verif.Restart
