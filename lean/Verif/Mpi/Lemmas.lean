import Verif.Mpi.Model
import Mathlib.Data.List.Basic
import Mathlib.Tactic.SplitIfs

/-! Helper lemmas: executions of communication programs are confluent. -/

namespace Verif.Mpi

variable {V : Type}

theorem Cfg.ext' {a b : Cfg V} (h1 : a.prog = b.prog) (h2 : a.mem = b.mem) (h3 : a.net = b.net) :
    a = b := by
  cases a; cases b; simp_all

theorem stepAt_prog_other {s s1 : Cfg V} {r r' : Nat} (h : stepAt s r = some s1) (hne : r' ≠ r) :
    s1.prog r' = s.prog r' := by
  unfold stepAt at h
  split at h
  · simp at h
  · simp only [Option.some.injEq] at h; subst h; simp [Function.update_of_ne hne]
  · split at h
    · simp at h
    · simp only [Option.some.injEq] at h; subst h; simp [Function.update_of_ne hne]

theorem stepAt_send {s : Cfg V} {r slot dst tag : Nat} {rest : List Instr}
    (h : s.prog r = .send slot dst tag :: rest) :
    stepAt s r = some (Cfg.mk (Function.update s.prog r rest) s.mem
      (Function.update s.net (r, dst, tag) (s.net (r, dst, tag) ++ [s.mem r slot]))) := by
  unfold stepAt; rw [h]

theorem stepAt_recv {s : Cfg V} {r slot src tag : Nat} {rest : List Instr} {v : V} {q : List V}
    (h : s.prog r = .recv slot src tag :: rest) (hq : s.net (src, r, tag) = v :: q) :
    stepAt s r = some (Cfg.mk (Function.update s.prog r rest)
      (Function.update s.mem r (Function.update (s.mem r) slot v))
      (Function.update s.net (src, r, tag) q)) := by
  unfold stepAt; rw [h]; simp only; rw [hq]

theorem stepAt_cases {s s1 : Cfg V} {r : Nat} (h : stepAt s r = some s1) :
    (∃ slot dst tag rest, s.prog r = .send slot dst tag :: rest ∧
      s1 = { prog := Function.update s.prog r rest, mem := s.mem,
             net := Function.update s.net (r, dst, tag) (s.net (r, dst, tag) ++ [s.mem r slot]) }) ∨
    (∃ slot src tag rest v q, s.prog r = .recv slot src tag :: rest ∧
      s.net (src, r, tag) = v :: q ∧
      s1 = { prog := Function.update s.prog r rest,
             mem := Function.update s.mem r (Function.update (s.mem r) slot v),
             net := Function.update s.net (src, r, tag) q }) := by
  unfold stepAt at h
  split at h
  · simp at h
  · rename_i slot dst tag rest hp
    simp only [Option.some.injEq] at h
    exact Or.inl ⟨slot, dst, tag, rest, hp, h.symm⟩
  · rename_i slot src tag rest hp
    split at h
    · simp at h
    · rename_i v q hq
      simp only [Option.some.injEq] at h
      exact Or.inr ⟨slot, src, tag, rest, v, q, hp, hq, h.symm⟩

/-- Steps of different ranks commute. -/
theorem diamond {s s1 s2 : Cfg V} {r r' : Nat} (hne : r ≠ r')
    (h1 : stepAt s r = some s1) (h2 : stepAt s r' = some s2) :
    ∃ s3, stepAt s1 r' = some s3 ∧ stepAt s2 r = some s3 := by
  have hne' : r' ≠ r := fun h => hne h.symm
  rcases stepAt_cases h1 with ⟨slot, dst, tag, rest, hp, rfl⟩ | ⟨slot, src, tag, rest, v, q, hp, hq, rfl⟩
  · rcases stepAt_cases h2 with ⟨slot', dst', tag', rest', hp', rfl⟩ |
      ⟨slot', src', tag', rest', v', q', hp', hq', rfl⟩
    · -- send / send
      have hk : (r, dst, tag) ≠ (r', dst', tag') := by simp [hne]
      refine ⟨_, stepAt_send (slot := slot') (dst := dst') (tag := tag') (rest := rest') ?_, ?_⟩
      · simp [Function.update_of_ne hne', hp']
      · rw [stepAt_send (slot := slot) (dst := dst) (tag := tag) (rest := rest)
          (by simp [Function.update_of_ne hne, hp])]
        congr 1
        apply Cfg.ext'
        · exact Function.update_comm hne' _ _ _
        · rfl
        · simp only [ne_eq, hk, hk.symm, not_false_eq_true, Function.update_of_ne]
          exact Function.update_comm (Ne.symm hk) _ _ _
    · -- send / recv
      by_cases hk : (src', r', tag') = (r, dst, tag)
      · obtain ⟨rfl, rfl, rfl⟩ : src' = r ∧ r' = dst ∧ tag' = tag := by simpa using hk
        refine ⟨_, stepAt_recv (slot := slot') (src := src') (tag := tag') (rest := rest') (v := v')
          (q := q' ++ [s.mem src' slot]) ?_ ?_, ?_⟩
        · simp [Function.update_of_ne hne', hp']
        · simp [hq']
        · rw [stepAt_send (slot := slot) (dst := r') (tag := tag') (rest := rest)
            (by simp [Function.update_of_ne hne, hp])]
          congr 1
          apply Cfg.ext'
          · exact Function.update_comm hne' _ _ _
          · rfl
          · simp [Function.update_of_ne hne]
      · have hk' : (r, dst, tag) ≠ (src', r', tag') := fun h => hk h.symm
        refine ⟨_, stepAt_recv (slot := slot') (src := src') (tag := tag') (rest := rest') (v := v')
          (q := q') ?_ ?_, ?_⟩
        · simp [Function.update_of_ne hne', hp']
        · simp only [Function.update_of_ne hk, hq']
        · rw [stepAt_send (slot := slot) (dst := dst) (tag := tag) (rest := rest)
            (by simp [Function.update_of_ne hne, hp])]
          congr 1
          apply Cfg.ext'
          · exact Function.update_comm hne' _ _ _
          · rfl
          · simp only [ne_eq, hk', hne, not_false_eq_true, Function.update_of_ne]
            exact Function.update_comm (Ne.symm hk') _ _ _
  · rcases stepAt_cases h2 with ⟨slot', dst', tag', rest', hp', rfl⟩ |
      ⟨slot', src', tag', rest', v', q', hp', hq', rfl⟩
    · -- recv / send
      by_cases hk : (src, r, tag) = (r', dst', tag')
      · obtain ⟨rfl, rfl, rfl⟩ : src = r' ∧ r = dst' ∧ tag = tag' := by simpa using hk
        refine ⟨_, stepAt_send (slot := slot') (dst := r) (tag := tag) (rest := rest') ?_, ?_⟩
        · simp [Function.update_of_ne hne', hp']
        · rw [stepAt_recv (slot := slot) (src := src) (tag := tag) (rest := rest) (v := v)
            (q := q ++ [s.mem src slot']) (by simp [Function.update_of_ne hne, hp])
            (by simp [hq])]
          congr 1
          apply Cfg.ext'
          · exact Function.update_comm hne' _ _ _
          · rfl
          · simp [Function.update_of_ne hne']
      · have hk' : (r', dst', tag') ≠ (src, r, tag) := fun h => hk h.symm
        refine ⟨_, stepAt_send (slot := slot') (dst := dst') (tag := tag') (rest := rest') ?_, ?_⟩
        · simp [Function.update_of_ne hne', hp']
        · rw [stepAt_recv (slot := slot) (src := src) (tag := tag) (rest := rest) (v := v)
            (q := q) (by simp [Function.update_of_ne hne, hp])
            (by simp only [Function.update_of_ne hk, hq])]
          congr 1
          apply Cfg.ext'
          · exact Function.update_comm hne' _ _ _
          · rfl
          · simp only [ne_eq, hk', hne', not_false_eq_true, Function.update_of_ne]
            exact Function.update_comm (Ne.symm hk) _ _ _
    · -- recv / recv
      have hk : (src, r, tag) ≠ (src', r', tag') := by
        intro h; simp at h; exact hne h.2.1
      refine ⟨_, stepAt_recv (slot := slot') (src := src') (tag := tag') (rest := rest') (v := v')
        (q := q') ?_ ?_, ?_⟩
      · simp [Function.update_of_ne hne', hp']
      · simp only [Function.update_of_ne hk.symm, hq']
      · rw [stepAt_recv (slot := slot) (src := src) (tag := tag) (rest := rest) (v := v)
          (q := q) (by simp [Function.update_of_ne hne, hp])
          (by simp only [Function.update_of_ne hk, hq])]
        congr 1
        apply Cfg.ext'
        · exact Function.update_comm hne' _ _ _
        · simp only [ne_eq, hne, hne', not_false_eq_true, Function.update_of_ne]
          exact Function.update_comm hne' _ _ _
        · exact Function.update_comm (Ne.symm hk) _ _ _

theorem exec_prog_unused {s f : Cfg V} {sched : List Nat} {r : Nat} (h : exec s sched = some f)
    (hr : r ∉ sched) : f.prog r = s.prog r := by
  induction sched generalizing s with
  | nil => simp only [exec, Option.some.injEq] at h; rw [h]
  | cons a as ih =>
    simp only [exec] at h
    cases hs : stepAt s a with
    | none => rw [hs] at h; simp at h
    | some s1 =>
      rw [hs] at h
      simp only [Option.bind_some] at h
      rw [ih h (fun hh => hr (List.mem_cons_of_mem _ hh))]
      exact stepAt_prog_other hs (fun hh => hr (by simp [hh]))

/-- A complete run still completes, in the same configuration, if some rank makes its step
first. -/
theorem exec_advance {s s1 f : Cfg V} {sched : List Nat} {r : Nat} (h : exec s sched = some f)
    (hf : Done f) (hs : stepAt s r = some s1) :
    ∃ sched', exec s1 sched' = some f ∧ sched'.length + 1 = sched.length := by
  induction sched generalizing s s1 with
  | nil =>
    simp only [exec, Option.some.injEq] at h; subst h
    have := hf r
    unfold stepAt at hs; rw [this] at hs; simp at hs
  | cons a as ih =>
    simp only [exec] at h
    by_cases ha : a = r
    · subst ha
      rw [hs] at h
      exact ⟨as, h, rfl⟩
    · cases hs2 : stepAt s a with
      | none => rw [hs2] at h; simp at h
      | some s2 =>
        rw [hs2] at h
        simp only [Option.bind_some] at h
        obtain ⟨s3, h3, h4⟩ := diamond (fun hh => ha hh.symm) hs hs2
        obtain ⟨sched', h5, h6⟩ := ih h h4
        refine ⟨a :: sched', ?_, by simp [h6]⟩
        simp only [exec, h3, Option.bind_some, h5]

/-- If one schedule completes, then every partial execution can be completed, all complete
executions end in the same configuration and all have the same length. -/
theorem exec_confluent {s f : Cfg V} {sched : List Nat} (h : exec s sched = some f) (hf : Done f)
    {sched' : List Nat} {s' : Cfg V} (h' : exec s sched' = some s') :
    ∃ rest, exec s' rest = some f ∧ sched'.length + rest.length = sched.length := by
  induction sched' generalizing s sched with
  | nil =>
    simp only [exec, Option.some.injEq] at h'; subst h'
    exact ⟨sched, h, by simp⟩
  | cons a as ih =>
    simp only [exec] at h'
    cases hs : stepAt s a with
    | none => rw [hs] at h'; simp at h'
    | some s1 =>
      rw [hs] at h'
      simp only [Option.bind_some] at h'
      obtain ⟨sched1, h1, hl⟩ := exec_advance h hf hs
      obtain ⟨rest, h2, hl2⟩ := ih h1 h'
      exact ⟨rest, h2, by simp; omega⟩

theorem exec_append {s : Cfg V} (l1 l2 : List Nat) :
    exec s (l1 ++ l2) = (exec s l1).bind (exec · l2) := by
  induction l1 generalizing s with
  | nil => simp [exec]
  | cons a as ih =>
    simp only [List.cons_append, exec]
    cases stepAt s a with
    | none => simp
    | some s1 => simp [ih]

end Verif.Mpi
