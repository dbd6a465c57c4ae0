import Verif.Mpi.Lemmas
import Mathlib.Data.List.Basic

/-!
# Exchanges in which every rank posts all its sends before its receives

This is the shape of both exchange loops of `pauxy/walkers/handler.py`
(`comb` 290-329, `pair_branch` 390-412).
-/

namespace Verif.Mpi

variable {V : Type}

/-- Calls of a rank: first all sends `(slot, dst, tag)`, then all receives `(slot, src, tag)`. -/
def sendsFirst (sends recvs : Nat → List (Nat × Nat × Nat)) (r : Nat) : List Instr :=
  (sends r).map (fun x => Instr.send x.1 x.2.1 x.2.2) ++
    (recvs r).map (fun x => Instr.recv x.1 x.2.1 x.2.2)

/-- Start of the exchange: no message under way. -/
def start (prog : Nat → List Instr) (mem : Nat → Nat → V) : Cfg V :=
  { prog := prog, mem := mem, net := fun _ => [] }

/-- The entries of a rank's send or receive list that use peer `p` and tag `t`. -/
def onChan (l : List (Nat × Nat × Nat)) (p t : Nat) : List (Nat × Nat × Nat) :=
  l.filter (fun x => x.2.1 = p ∧ x.2.2 = t)

theorem onChan_cons (a p t) (l : List (Nat × Nat × Nat)) :
    onChan (a :: l) p t = if a.2.1 = p ∧ a.2.2 = t then a :: onChan l p t else onChan l p t := by
  unfold onChan
  by_cases h : a.2.1 = p ∧ a.2.2 = t
  · rw [if_pos h, List.filter_cons_of_pos (by simpa using h)]
  · rw [if_neg h, List.filter_cons_of_neg (by simpa using h)]

/-- A rank makes all its sends. -/
theorem exec_sends_one (s : Cfg V) (r : Nat) (l : List (Nat × Nat × Nat)) (rest : List Instr)
    (h : s.prog r = l.map (fun x => Instr.send x.1 x.2.1 x.2.2) ++ rest) :
    exec s (List.replicate l.length r) = some (Cfg.mk (Function.update s.prog r rest) s.mem
      (fun ch => if ch.1 = r then
        s.net ch ++ (onChan l ch.2.1 ch.2.2).map (fun x => s.mem r x.1) else s.net ch)) := by
  induction l generalizing s with
  | nil =>
    simp only [List.map_nil, List.nil_append] at h
    simp only [List.length_nil, List.replicate_zero, exec, Option.some.injEq]
    apply Cfg.ext'
    · simp [← h]
    · rfl
    · funext ch; simp [onChan]
  | cons a l ih =>
    simp only [List.map_cons, List.cons_append] at h
    simp only [List.length_cons, List.replicate_succ, exec]
    rw [stepAt_send h, Option.bind_some, ih _ (by simp)]
    congr 1
    apply Cfg.ext'
    · simp
    · rfl
    · funext ch
      obtain ⟨c1, c2, c3⟩ := ch
      simp only [onChan_cons]
      by_cases h1 : c1 = r
      · subst h1
        simp only [if_true]
        by_cases h2 : a.2.1 = c2 ∧ a.2.2 = c3
        · obtain ⟨h2, h3⟩ := h2
          subst h2 h3
          simp
        · rw [if_neg h2, Function.update_of_ne]
          intro hh; apply h2; simp at hh; exact ⟨hh.1.symm, hh.2.symm⟩
      · simp only [h1, if_false]
        rw [Function.update_of_ne]
        intro hh; simp at hh; exact h1 hh.1

/-- The schedule in which the ranks `0 … n-1` one after the other make `len r` calls. -/
def roundRobin (len : Nat → Nat) : Nat → List Nat
  | 0 => []
  | n + 1 => roundRobin len n ++ List.replicate (len n) n

theorem exec_sends_all (s : Cfg V) (n : Nat) (sends : Nat → List (Nat × Nat × Nat))
    (rest : Nat → List Instr)
    (h : ∀ r, r < n → s.prog r = (sends r).map (fun x => Instr.send x.1 x.2.1 x.2.2) ++ rest r) :
    exec s (roundRobin (fun r => (sends r).length) n) =
      some (Cfg.mk (fun r => if r < n then rest r else s.prog r) s.mem
        (fun ch => if ch.1 < n then
          s.net ch ++ (onChan (sends ch.1) ch.2.1 ch.2.2).map (fun x => s.mem ch.1 x.1)
          else s.net ch)) := by
  induction n with
  | zero => simp [roundRobin, exec]
  | succ n ih =>
    rw [roundRobin, exec_append, ih (fun r hr => h r (by omega)), Option.bind_some]
    rw [exec_sends_one (l := sends n) (rest := rest n) _ _ (by simp [h n (by omega)])]
    congr 1
    apply Cfg.ext'
    · funext r
      simp only [Function.update_apply]
      split_ifs <;> first | rfl | omega | (subst_vars; rfl)
    · rfl
    · funext ch
      obtain ⟨c1, c2, c3⟩ := ch
      simp only
      split_ifs <;> first | rfl | omega | (subst_vars; rfl)

/-- A rank makes all its receives, given that on each channel exactly as many messages wait as the
rank receives and that no walker slot is received into twice. -/
theorem exec_recvs_one (s : Cfg V) (r : Nat) (l : List (Nat × Nat × Nat))
    (h : s.prog r = l.map (fun x => Instr.recv x.1 x.2.1 x.2.2))
    (hnd : (l.map (·.1)).Nodup)
    (hlen : ∀ p t, (onChan l p t).length = (s.net (p, r, t)).length) :
    ∃ f : Cfg V, exec s (List.replicate l.length r) = some f ∧
      f.prog = Function.update s.prog r [] ∧
      (∀ r', r' ≠ r → f.mem r' = s.mem r') ∧
      (∀ slot, slot ∉ l.map (·.1) → f.mem r slot = s.mem r slot) ∧
      (∀ p t, (onChan l p t).map (fun x => f.mem r x.1) = s.net (p, r, t)) ∧
      (∀ ch, f.net ch = if ch.2.1 = r then [] else s.net ch) := by
  induction l generalizing s with
  | nil =>
    refine ⟨s, by simp [exec], ?_, fun _ _ => rfl, fun _ _ => rfl, ?_, ?_⟩
    · simp only [List.map_nil] at h; simp [← h]
    · intro p t
      have := hlen p t
      simp only [onChan, List.filter_nil, List.length_nil] at this
      simp [onChan, (List.length_eq_zero_iff.1 this.symm)]
    · rintro ⟨c1, c2, c3⟩
      simp only
      split_ifs with hc
      · subst hc
        have := hlen c1 c3
        simp only [onChan, List.filter_nil, List.length_nil] at this
        exact List.length_eq_zero_iff.1 this.symm
      · rfl
  | cons a l ih =>
    simp only [List.map_cons] at h hnd
    have hl := hlen a.2.1 a.2.2
    rw [onChan_cons, if_pos ⟨rfl, rfl⟩, List.length_cons] at hl
    cases hq : s.net (a.2.1, r, a.2.2) with
    | nil => rw [hq] at hl; simp at hl
    | cons v q =>
      rw [hq] at hl; simp only [List.length_cons, Nat.add_right_cancel_iff] at hl
      have hstep := stepAt_recv h hq
      obtain ⟨f, h1, h2, h3, h4, h5, h6⟩ := ih
        (Cfg.mk (Function.update s.prog r (l.map (fun x => Instr.recv x.1 x.2.1 x.2.2)))
          (Function.update s.mem r (Function.update (s.mem r) a.1 v))
          (Function.update s.net (a.2.1, r, a.2.2) q)) (by simp) (List.nodup_cons.1 hnd).2 (by
            intro p t
            by_cases hpt : a.2.1 = p ∧ a.2.2 = t
            · obtain ⟨rfl, rfl⟩ := hpt
              simp [hl]
            · have := hlen p t
              rw [onChan_cons, if_neg hpt] at this
              rw [this]
              show _ = (Function.update s.net (a.2.1, r, a.2.2) q (p, r, t)).length
              rw [Function.update_of_ne]
              intro hh; simp at hh; exact hpt ⟨hh.1.symm, hh.2.symm⟩)
      refine ⟨f, ?_, ?_, ?_, ?_, ?_, ?_⟩
      · simp only [List.length_cons, List.replicate_succ, exec]
        rw [hstep, Option.bind_some, h1]
      · rw [h2]; simp
      · intro r' hr'
        rw [h3 r' hr']
        exact Function.update_of_ne hr' _ _
      · intro slot hs
        simp only [List.map_cons, List.mem_cons, not_or] at hs
        rw [h4 slot hs.2]
        simp [Function.update_of_ne hs.1]
      · intro p t
        have h5' := h5 p t
        rw [onChan_cons]
        by_cases hpt : a.2.1 = p ∧ a.2.2 = t
        · rw [if_pos hpt]
          obtain ⟨rfl, rfl⟩ := hpt
          rw [List.map_cons, h5', hq]
          simp only [Function.update_self]
          rw [h4 a.1 (List.nodup_cons.1 hnd).1]
          simp
        · rw [if_neg hpt, h5']
          show Function.update s.net (a.2.1, r, a.2.2) q (p, r, t) = _
          rw [Function.update_of_ne]
          intro hh; simp at hh; exact hpt ⟨hh.1.symm, hh.2.symm⟩
      · rintro ⟨c1, c2, c3⟩
        rw [h6]
        simp only
        split_ifs with hc
        · rfl
        · rw [Function.update_of_ne]
          intro hh; simp at hh; exact hc hh.2.1

theorem exec_recvs_all (s : Cfg V) (n : Nat) (recvs : Nat → List (Nat × Nat × Nat))
    (h : ∀ r, r < n → s.prog r = (recvs r).map (fun x => Instr.recv x.1 x.2.1 x.2.2))
    (hnd : ∀ r, r < n → ((recvs r).map (·.1)).Nodup)
    (hlen : ∀ r, r < n → ∀ p t, (onChan (recvs r) p t).length = (s.net (p, r, t)).length) :
    ∃ f : Cfg V, exec s (roundRobin (fun r => (recvs r).length) n) = some f ∧
      (∀ r, f.prog r = if r < n then [] else s.prog r) ∧
      (∀ r, n ≤ r → f.mem r = s.mem r) ∧
      (∀ r, r < n → ∀ slot, slot ∉ (recvs r).map (·.1) → f.mem r slot = s.mem r slot) ∧
      (∀ r, r < n → ∀ p t,
        (onChan (recvs r) p t).map (fun x => f.mem r x.1) = s.net (p, r, t)) ∧
      (∀ ch, f.net ch = if ch.2.1 < n then [] else s.net ch) := by
  induction n with
  | zero => exact ⟨s, by simp [roundRobin, exec], by simp, by simp, by simp, by simp, by simp⟩
  | succ n ih =>
    obtain ⟨f, h1, h2, h3, h4, h5, h6⟩ := ih (fun r hr => h r (by omega))
      (fun r hr => hnd r (by omega)) (fun r hr => hlen r (by omega))
    obtain ⟨g, g1, g2, g3, g4, g5, g6⟩ := exec_recvs_one f n (recvs n)
      (by rw [h2 n, if_neg (by omega), h n (by omega)]) (hnd n (by omega)) (by
        intro p t
        rw [h6, if_neg (by simp)]
        exact hlen n (by omega) p t)
    refine ⟨g, ?_, ?_, ?_, ?_, ?_, ?_⟩
    · rw [roundRobin, exec_append, h1, Option.bind_some, g1]
    · intro r
      rw [g2, Function.update_apply, h2]
      split_ifs <;> first | rfl | omega
    · intro r hr
      rw [g3 r (by omega), h3 r (by omega)]
    · intro r hr slot hs
      by_cases hrn : r = n
      · subst hrn
        rw [g4 slot hs, h3 r (Nat.le_refl _)]
      · rw [g3 r hrn, h4 r (by omega) slot hs]
    · intro r hr p t
      by_cases hrn : r = n
      · subst hrn
        rw [g5, h6, if_neg (by simp)]
      · rw [g3 r hrn]; exact h5 r (by omega) p t
    · intro ch
      rw [g6, h6]
      split_ifs <;> first | rfl | omega

/-- Main result on exchanges.  If on every channel (source, destination, tag) as many messages are
sent as are received, and no slot is received into twice, then there is a final configuration `f`
with: all calls made, no message left over, slots that are not received into unchanged, and on each
channel the received walkers are the sent walkers in order.  Every execution, under any schedule,
can be continued until it ends in `f`. -/
theorem exchange_completes (n : Nat) (sends recvs : Nat → List (Nat × Nat × Nat))
    (mem : Nat → Nat → V)
    (hout : ∀ r, n ≤ r → sends r = [] ∧ recvs r = [])
    (hnd : ∀ r, ((recvs r).map (·.1)).Nodup)
    (hcount : ∀ src dst tag,
      (onChan (sends src) dst tag).length = (onChan (recvs dst) src tag).length) :
    ∃ (f : Cfg V) (total : Nat), Done f ∧ (∀ ch, f.net ch = []) ∧
      (∀ r slot, slot ∉ (recvs r).map (·.1) → f.mem r slot = mem r slot) ∧
      (∀ src dst tag, (onChan (recvs dst) src tag).map (fun x => f.mem dst x.1) =
        (onChan (sends src) dst tag).map (fun x => mem src x.1)) ∧
      (∀ sched s', exec (start (sendsFirst sends recvs) mem) sched = some s' →
        ∃ rest, exec s' rest = some f ∧ sched.length + rest.length = total) := by
  have hS := exec_sends_all (start (sendsFirst sends recvs) mem) n sends
    (fun r => (recvs r).map (fun x => Instr.recv x.1 x.2.1 x.2.2)) (fun r _ => rfl)
  have hnet : ∀ ch : Nat × Nat × Nat, (if ch.1 < n then
      (start (sendsFirst sends recvs) mem).net ch ++
        (onChan (sends ch.1) ch.2.1 ch.2.2).map
          (fun x => (start (sendsFirst sends recvs) mem).mem ch.1 x.1)
      else (start (sendsFirst sends recvs) mem).net ch) =
      (onChan (sends ch.1) ch.2.1 ch.2.2).map (fun x => mem ch.1 x.1) := by
    intro ch
    split_ifs with hc
    · simp [start]
    · rw [(hout ch.1 (by omega)).1]; simp [start, onChan]
  obtain ⟨f, h1, h2, h3, h4, h5, h6⟩ := exec_recvs_all (n := n) (recvs := recvs)
    (s := Cfg.mk (fun r => if r < n then (recvs r).map (fun x => Instr.recv x.1 x.2.1 x.2.2)
        else (start (sendsFirst sends recvs) mem).prog r)
      (start (sendsFirst sends recvs) mem).mem
      (fun ch => if ch.1 < n then (start (sendsFirst sends recvs) mem).net ch ++
        (onChan (sends ch.1) ch.2.1 ch.2.2).map
          (fun x => (start (sendsFirst sends recvs) mem).mem ch.1 x.1)
        else (start (sendsFirst sends recvs) mem).net ch))
    (fun r hr => by simp [hr]) (fun r _ => hnd r)
    (fun r hr p t => by
      show _ = (if p < n then _ else _ : List V).length
      rw [hnet (p, r, t)]
      simp [hcount p r t])
  have hdone : Done f := by
    intro r
    rw [h2]
    split_ifs with hr
    · rfl
    · obtain ⟨e1, e2⟩ := hout r (by omega)
      simp [start, sendsFirst, e1, e2]
  refine ⟨f, (roundRobin (fun r => (sends r).length) n ++
    roundRobin (fun r => (recvs r).length) n).length, hdone, ?_, ?_, ?_, ?_⟩
  · intro ch
    rw [h6]
    split_ifs with hc
    · rfl
    · refine (hnet ch).trans ?_
      have := hcount ch.1 ch.2.1 ch.2.2
      rw [(hout ch.2.1 (by omega)).2] at this
      have h0 := List.length_eq_zero_iff.1 (this.trans (by simp [onChan]))
      simp [h0]
  · intro r slot hs
    by_cases hr : r < n
    · exact h4 r hr slot hs
    · rw [h3 r (by omega)]; rfl
  · intro src dst tag
    by_cases hr : dst < n
    · exact (h5 dst hr src tag).trans (hnet (src, dst, tag))
    · have := hcount src dst tag
      rw [(hout dst (by omega)).2] at this ⊢
      have h0 := List.length_eq_zero_iff.1 (this.trans (by simp [onChan]))
      rw [h0]; simp [onChan]
  · intro sched s' hs
    have hfull : exec (start (sendsFirst sends recvs) mem)
        (roundRobin (fun r => (sends r).length) n ++
          roundRobin (fun r => (recvs r).length) n) = some f := by
      rw [exec_append, hS, Option.bind_some, h1]
    exact exec_confluent hfull hdone hs

end Verif.Mpi
