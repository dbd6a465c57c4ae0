import Verif.Driver.Model
import Mathlib.Tactic.Linarith
import Mathlib.Tactic.Positivity
import Mathlib.Tactic.NormNum

/-!
# The drivers: properties (C50, C76, C77)
-/

namespace Verif.Driver

variable {D E : Type}

/-! ## Schedule -/

/-- What an observer of the calls sees, single walker moves left out. -/
inductive Act where
  | ortho | propagate | pop | estimate | row | restart
  deriving DecidableEq

def act : Ev D → Option (Nat × Act)
  | .ortho s => some (s, .ortho)
  | .prop _ _ _ => none
  | .walked s _ => some (s, .propagate)
  | .pop s => some (s, .pop)
  | .update s _ => some (s, .estimate)
  | .row s => some (s, .row)
  | .write s => some (s, .restart)

/-- The calls that the documentation promises for step `s`, in order. -/
def expected (c : Cfg) (s : Nat) : List (Nat × Act) :=
  (if c.nstblz ∣ s then [(s, Act.ortho)] else []) ++ [(s, .propagate)] ++ (if c.npop ∣ s then [(s, Act.pop)] else []) ++
    [(s, .estimate)] ++ (if c.nsteps ∣ s then [(s, Act.row)] else []) ++
    (if 0 < c.writeFreq ∧ c.writeFreq ∣ s then [(s, Act.restart)] else [])

theorem walkAll_events (o : Ops D E) (s : Nat) (e : ℝ) (i : Nat) (ws : List (Walker D)) :
    ∀ ev ∈ (walkAll o s e i ws).2, ∃ j, ev = .prop s j e := by
  induction ws generalizing i with
  | nil => simp [walkAll]
  | cons w ws ih =>
    intro ev hev
    simp only [walkAll, List.mem_append] at hev
    rcases hev with h | h
    · unfold walk1 at h
      split_ifs at h
      · exact ⟨i, by simpa using h⟩
      · simp at h
    · exact ih _ ev h

theorem walkAll_act (o : Ops D E) (s : Nat) (e : ℝ) (i : Nat) (ws : List (Walker D)) :
    (walkAll o s e i ws).2.filterMap act = [] := by
  rw [List.filterMap_eq_nil_iff]
  intro ev hev
  obtain ⟨j, rfl⟩ := walkAll_events o s e i ws ev hev
  rfl

theorem filterMap_ite {α β : Type} (f : α → Option β) (p : Prop) [Decidable p] (l : List α) :
    (if p then l else []).filterMap f = if p then l.filterMap f else [] := by split_ifs <;> simp

theorem step_act (c : Cfg) (o : Ops D E) (s : Nat) (st st' : St D E) (h : step c o s st = some st') :
    st'.trace.filterMap act = st.trace.filterMap act ++ expected c s := by
  unfold step at h
  simp only [Nat.dvd_iff_mod_eq_zero, expected] at h ⊢
  split_ifs at h with h1 h2 h2
  all_goals first
    | (split at h
       · exact absurd h (by simp)
       · simp only [Option.some.injEq] at h
         rw [← h]
         simp only [finish, List.filterMap_append, walkAll_act, filterMap_ite, h1, h2, if_true, if_false]
         simp [act])
    | (simp only [Option.some.injEq] at h
       rw [← h]
       simp only [finish, List.filterMap_append, walkAll_act, filterMap_ite, h1, h2, if_true, if_false]
       simp [act])

theorem steps_act (c : Cfg) (o : Ops D E) (st0 st : St D E) (n : Nat) (h : steps c o st0 n = some st) :
    st.trace.filterMap act = st0.trace.filterMap act ++ (List.range' 1 n).flatMap (expected c) := by
  induction n generalizing st with
  | zero =>
    simp only [steps, Option.some.injEq] at h
    simp [h]
  | succ n ih =>
    rw [steps, Option.bind_eq_some_iff] at h
    obtain ⟨st', h1, h2⟩ := h
    rw [step_act c o _ _ _ h2, ih _ h1, List.range'_concat, List.flatMap_append]
    simp [Nat.add_comm]

theorem run_steps {c : Cfg} {o : Ops D E} {ws : List (Walker D)} {est : E} {n : Nat} {st : St D E}
    (h : run c o ws est n = some st) : steps c o { ws := ws, est := est, eshift := 0, trace := [] } n = some st := by
  unfold run at h
  split_ifs at h
  exact h

/-- C50: the calls of a completed run are, in order, those promised for each of the steps `1, …, n`. -/
theorem schedule (c : Cfg) (o : Ops D E) (ws : List (Walker D)) (est : E) (n : Nat) (st : St D E)
    (h : run c o ws est n = some st) : st.trace.filterMap act = (List.range' 1 n).flatMap (expected c) := by
  rw [steps_act c o _ _ n (run_steps h)]
  simp

theorem flatMap_filter {α : Type} (l : List Nat) (f : Nat → List (Nat × α)) (P : Nat × α → Bool) (q : Nat → Bool)
    (a : α) (hf : ∀ s ∈ l, (f s).filter P = if q s then [(s, a)] else []) :
    ((l.flatMap f).filter P).map Prod.fst = l.filter q := by
  induction l with
  | nil => simp
  | cons s l ih =>
    rw [List.flatMap_cons, List.filter_append, List.map_append, ih fun t ht => hf t (List.mem_cons_of_mem _ ht),
      hf s List.mem_cons_self, List.filter_cons]
    split_ifs <;> simp

/-- C50: each kind of action happens exactly at the multiples of its period, once each. -/
theorem schedule_periods (c : Cfg) (o : Ops D E) (ws : List (Walker D)) (est : E) (n : Nat) (st : St D E)
    (h : run c o ws est n = some st) :
    let at' := fun a : Act => ((st.trace.filterMap act).filter fun p => decide (p.2 = a)).map Prod.fst
    at' .ortho = (List.range' 1 n).filter (fun s => decide (c.nstblz ∣ s)) ∧
    at' .propagate = List.range' 1 n ∧
    at' .pop = (List.range' 1 n).filter (fun s => decide (c.npop ∣ s)) ∧
    at' .estimate = List.range' 1 n ∧
    at' .row = (List.range' 1 n).filter (fun s => decide (c.nsteps ∣ s)) ∧
    at' .restart = (List.range' 1 n).filter (fun s => decide (0 < c.writeFreq ∧ c.writeFreq ∣ s)) := by
  simp only [schedule c o ws est n st h]
  refine ⟨?_, ?_, ?_, ?_, ?_, ?_⟩
  · refine flatMap_filter _ _ _ _ .ortho fun s _ => ?_
    unfold expected; split_ifs <;> simp_all
  · rw [flatMap_filter _ _ _ (fun _ => true) .propagate fun s _ => by unfold expected; split_ifs <;> simp_all]
    simp
  · refine flatMap_filter _ _ _ _ .pop fun s _ => ?_
    unfold expected; split_ifs <;> simp_all
  · rw [flatMap_filter _ _ _ (fun _ => true) .estimate fun s _ => by unfold expected; split_ifs <;> simp_all]
    simp
  · refine flatMap_filter _ _ _ _ .row fun s _ => ?_
    unfold expected; split_ifs <;> simp_all
  · refine flatMap_filter _ _ _ _ .restart fun s _ => ?_
    unfold expected; split_ifs <;> simp_all

/-! ## The walker loop -/

theorem walkAll_length (o : Ops D E) (s : Nat) (e : ℝ) (i : Nat) (ws : List (Walker D)) :
    (walkAll o s e i ws).1.length = ws.length := by
  induction ws generalizing i with
  | nil => rfl
  | cons w ws ih => simp [walkAll, ih]

theorem walkAll_get (o : Ops D E) (s : Nat) (e : ℝ) (i j : Nat) (ws : List (Walker D)) :
    (walkAll o s e i ws).1[j]? = ws[j]?.map fun w => (walk1 o s e (i + j) w).1 := by
  induction ws generalizing i j with
  | nil => simp [walkAll]
  | cons w ws ih =>
    cases j with
    | zero => simp [walkAll]
    | succ j => simp [walkAll, ih, Nat.add_assoc, Nat.add_comm 1]

theorem walkAll_prop (o : Ops D E) (s : Nat) (e : ℝ) (i : Nat) (ws : List (Walker D)) (s' j : Nat) (e' : ℝ) :
    Ev.prop s' j e' ∈ (walkAll o s e i ws).2 ↔
      s' = s ∧ e' = e ∧ i ≤ j ∧ ∃ w, ws[j - i]? = some w ∧ 1 / 10 ^ 8 < ‖w.weight‖ := by
  induction ws generalizing i with
  | nil => simp [walkAll]
  | cons w ws ih =>
    simp only [walkAll, List.mem_append, ih]
    have h1 : Ev.prop s' j e' ∈ (walk1 o s e i w).2 ↔ s' = s ∧ e' = e ∧ j = i ∧ 1 / 10 ^ 8 < ‖w.weight‖ := by
      unfold walk1
      split_ifs with h
      · simp only [List.mem_singleton, Ev.prop.injEq]
        constructor
        · rintro ⟨a, b, d⟩; exact ⟨a, d, b, h⟩
        · rintro ⟨a, b, d, _⟩; exact ⟨a, d, b⟩
      · simp only [List.not_mem_nil, false_iff]
        rintro ⟨_, _, _, h'⟩; exact h h'
    rw [h1]
    constructor
    · rintro (⟨a, b, rfl, h⟩ | ⟨a, b, hj, w', hw, h⟩)
      · exact ⟨a, b, le_refl _, w, by simp, h⟩
      · refine ⟨a, b, by omega, w', ?_, h⟩
        rw [show j - i = (j - (i + 1)) + 1 by omega]
        simpa using hw
    · rintro ⟨a, b, hj, w', hw, h⟩
      rcases Nat.eq_or_lt_of_le hj with hj' | hj'
      · subst hj'
        simp only [Nat.sub_self, List.getElem?_cons_zero, Option.some.injEq] at hw
        exact .inl ⟨a, b, rfl, hw ▸ h⟩
      · refine .inr ⟨a, b, hj', w', ?_, h⟩
        rw [show j - i = (j - (i + 1)) + 1 by omega] at hw
        simpa using hw

/-- The step number an event carries. -/
def evStep : Ev D → Nat
  | .ortho s => s
  | .prop s _ _ => s
  | .walked s _ => s
  | .pop s => s
  | .update s _ => s
  | .row s => s
  | .write s => s

/-- The walkers at the start of the propagation loop of step `s`. -/
def start (c : Cfg) (o : Ops D E) (s : Nat) (ws : List (Walker D)) : List (Walker D) :=
  if c.nstblz ∣ s then o.ortho s ws else ws

theorem step_trace (c : Cfg) (o : Ops D E) (s : Nat) (st st' : St D E) (h : step c o s st = some st') :
    ∃ evs, st'.trace = st.trace ++ evs ∧ (∀ ev ∈ evs, evStep ev = s) ∧
      (∀ ws, Ev.walked s ws ∈ evs ↔ ws = (walkAll o s st.eshift 0 (start c o s st.ws)).1) ∧
      (∀ i e, Ev.prop s i e ∈ evs ↔ Ev.prop s i e ∈ (walkAll o s st.eshift 0 (start c o s st.ws)).2) ∧
      (∀ ws, Ev.update s ws ∈ evs ↔ ws = st'.ws) ∧
      st'.est = o.print s (o.update s st'.ws st.est) ∧
      st'.eshift = if s < c.neqlb then o.shift c.hybrid st'.est else o.shift true st'.est := by
  have he : ∀ ev ∈ (walkAll o s st.eshift 0 (start c o s st.ws)).2, ∃ j, ev = .prop s j st.eshift :=
    walkAll_events _ _ _ _ _
  have hs : (if s % c.nstblz = 0 then o.ortho s st.ws else st.ws) = start c o s st.ws := by
    unfold start; rw [if_congr Nat.dvd_iff_mod_eq_zero rfl rfl]
  unfold step at h
  simp only [hs] at h
  set W := walkAll o s st.eshift 0 (start c o s st.ws) with hW
  have key : ∀ (ws2 : List (Walker D)) (e2 : List (Ev D)) (st' : St D E), (e2 = [] ∨ e2 = [Ev.pop s]) →
      finish c o s ws2 st ((if s % c.nstblz = 0 then [Ev.ortho s] else []) ++ W.2 ++ [Ev.walked s W.1] ++ e2) = st' →
      ∃ evs, st'.trace = st.trace ++ evs ∧ (∀ ev ∈ evs, evStep ev = s) ∧
      (∀ ws, Ev.walked s ws ∈ evs ↔ ws = W.1) ∧ (∀ i e, Ev.prop s i e ∈ evs ↔ Ev.prop s i e ∈ W.2) ∧
      (∀ ws, Ev.update s ws ∈ evs ↔ ws = st'.ws) ∧
      st'.est = o.print s (o.update s st'.ws st.est) ∧
      st'.eshift = if s < c.neqlb then o.shift c.hybrid st'.est else o.shift true st'.est := by
    intro ws2 e2 st' h2 h
    subst h
    have hW1 : ∀ ws, Ev.walked s ws ∉ W.2 := fun ws hc => by obtain ⟨j, hj⟩ := he _ hc; cases hj
    have hW2 : ∀ ws, Ev.update s ws ∉ W.2 := fun ws hc => by obtain ⟨j, hj⟩ := he _ hc; cases hj
    have hW3 : ∀ ev ∈ W.2, evStep ev = s := fun ev hev => by obtain ⟨j, rfl⟩ := he _ hev; rfl
    refine ⟨(if s % c.nstblz = 0 then [Ev.ortho s] else []) ++ W.2 ++ [Ev.walked s W.1] ++ e2 ++ [Ev.update s ws2] ++
      (if s % c.nsteps = 0 then [Ev.row s] else []) ++
      (if 0 < c.writeFreq ∧ s % c.writeFreq = 0 then [Ev.write s] else []), ?_, ?_, ?_, ?_, ?_, rfl, ?_⟩
    · simp [finish]
    · intro ev hev
      simp only [List.mem_append] at hev
      rcases hev with (((((hev | hev) | hev) | hev) | hev) | hev) | hev
      · split_ifs at hev
        · rw [List.mem_singleton.1 hev]; rfl
        · exact absurd hev List.not_mem_nil
      · exact hW3 _ hev
      · rw [List.mem_singleton.1 hev]; rfl
      · rcases h2 with rfl | rfl
        · exact absurd hev List.not_mem_nil
        · rw [List.mem_singleton.1 hev]; rfl
      · rw [List.mem_singleton.1 hev]; rfl
      · split_ifs at hev
        · rw [List.mem_singleton.1 hev]; rfl
        · exact absurd hev List.not_mem_nil
      · split_ifs at hev
        · rw [List.mem_singleton.1 hev]; rfl
        · exact absurd hev List.not_mem_nil
    · intro ws
      rcases h2 with rfl | rfl <;> simp only [List.mem_append, hW1] <;> split_ifs <;> simp
    · intro i e
      rcases h2 with rfl | rfl <;> simp only [List.mem_append] <;> split_ifs <;> simp
    · intro ws
      rcases h2 with rfl | rfl <;> simp only [List.mem_append, hW2, finish] <;> split_ifs <;> simp
    · simp only [finish]
      split_ifs
      · rfl
      · ring
  by_cases h2 : s % c.npop = 0
  · rw [if_pos h2] at h
    split at h
    · exact absurd h (by simp)
    · exact key _ [Ev.pop s] st' (.inr rfl) (Option.some.inj h)
  · rw [if_neg h2] at h
    exact key _ [] st' (.inl rfl) (by simpa using h)

theorem steps_prefix (c : Cfg) (o : Ops D E) (st0 st : St D E) (n : Nat) (h : steps c o st0 n = some st) (s : Nat)
    (hs : s < n) : ∃ a b, steps c o st0 s = some a ∧ step c o (s + 1) a = some b ∧ steps c o st0 (s + 1) = some b := by
  induction n generalizing st with
  | zero => omega
  | succ n ih =>
    rw [steps, Option.bind_eq_some_iff] at h
    obtain ⟨st', h1, h2⟩ := h
    rcases Nat.lt_or_ge s n with hlt | hge
    · exact ih _ h1 hlt
    · obtain rfl : s = n := by omega
      exact ⟨st', st, h1, h2, by rw [steps, h1]; exact h2⟩

theorem steps_old (c : Cfg) (o : Ops D E) (st0 st : St D E) (h0 : st0.trace = []) (n : Nat)
    (h : steps c o st0 n = some st) : ∀ ev ∈ st.trace, 1 ≤ evStep ev ∧ evStep ev ≤ n := by
  induction n generalizing st with
  | zero =>
    simp only [steps, Option.some.injEq] at h
    rw [← h, h0]; simp
  | succ n ih =>
    rw [steps, Option.bind_eq_some_iff] at h
    obtain ⟨st', h1, h2⟩ := h
    obtain ⟨evs, ht, hev, -⟩ := step_trace c o _ _ _ h2
    rw [ht]
    intro ev hm
    rcases List.mem_append.1 hm with hm | hm
    · have := ih _ h1 ev hm; omega
    · rw [hev ev hm]; omega

/-- The events of step `s + 1` in the trace of the whole run are those of that step. -/
theorem mem_trace (c : Cfg) (o : Ops D E) (st0 st : St D E) (h0 : st0.trace = []) (n : Nat)
    (h : steps c o st0 n = some st) (s : Nat) (hs : s < n) (a b : St D E) (ha : steps c o st0 s = some a)
    (hb : step c o (s + 1) a = some b) (evs : List (Ev D)) (ht : b.trace = a.trace ++ evs) (ev : Ev D)
    (hev : evStep ev = s + 1) : ev ∈ st.trace ↔ ev ∈ evs := by
  induction n generalizing st with
  | zero => omega
  | succ n ih =>
    rw [steps, Option.bind_eq_some_iff] at h
    obtain ⟨st', h1, h2⟩ := h
    rcases Nat.lt_or_ge s n with hlt | hge
    · obtain ⟨evs', ht', hev', -⟩ := step_trace c o _ _ _ h2
      rw [ht', List.mem_append, ih _ h1 hlt]
      refine ⟨?_, .inl⟩
      rintro (hm | hm)
      · exact hm
      · have := hev' ev hm; omega
    · obtain rfl : s = n := by omega
      rw [h1] at ha
      obtain rfl : st' = a := Option.some.inj ha
      rw [h2] at hb
      obtain rfl : st = b := Option.some.inj hb
      rw [ht, List.mem_append]
      refine ⟨?_, .inr⟩
      rintro (hm | hm)
      · have := steps_old c o st0 _ h0 _ h1 ev hm; omega
      · exact hm

/-- C50: in step `s + 1` exactly the walkers of non-negligible weight are propagated, with the shift left by the
previous step; the others keep their contents. -/
theorem moves (c : Cfg) (o : Ops D E) (ws : List (Walker D)) (est : E) (n : Nat) (st : St D E)
    (h : run c o ws est n = some st) (s : Nat) (hs : s < n) :
    ∃ st', run c o ws est s = some st' ∧ ∃ ws1, Ev.walked (s + 1) ws1 ∈ st.trace ∧
      ws1.length = (start c o (s + 1) st'.ws).length ∧
      (∀ i e, Ev.prop (s + 1) i e ∈ st.trace ↔
        e = st'.eshift ∧ ∃ w : Walker D, (start c o (s + 1) st'.ws)[i]? = some w ∧ 1 / 10 ^ 8 < ‖w.weight‖) ∧
      (∀ (i : Nat) (w : Walker D), (start c o (s + 1) st'.ws)[i]? = some w → ¬ 1 / 10 ^ 8 < ‖w.weight‖ →
        ∃ w' : Walker D, ws1[i]? = some w' ∧ w'.data = w.data ∧ w'.total = w.total ∧
          (‖w.weight‖ ≤ w.total / 10 → w'.weight = w.weight)) ∧
      (∀ (i : Nat) (w : Walker D), (start c o (s + 1) st'.ws)[i]? = some w → 1 / 10 ^ 8 < ‖w.weight‖ →
        ∃ w' : Walker D, ws1[i]? = some w' ∧ w'.data = (o.prop (s + 1) i st'.eshift w).data ∧
          ((s = 0 ∨ ‖(o.prop (s + 1) i st'.eshift w).weight‖ ≤ (o.prop (s + 1) i st'.eshift w).total / 10) →
            w'.weight = (o.prop (s + 1) i st'.eshift w).weight)) := by
  have h' := run_steps h
  obtain ⟨a, b, ha, hb, -⟩ := steps_prefix c o _ _ n h' s hs
  obtain ⟨evs, ht, hev, hw, hp, -⟩ := step_trace c o _ _ _ hb
  have hm : ∀ ev : Ev D, evStep ev = s + 1 → (ev ∈ st.trace ↔ ev ∈ evs) :=
    fun ev he => mem_trace c o _ _ rfl n h' s hs a b ha hb evs ht ev he
  have hr : run c o ws est s = some a := by
    unfold run at h ⊢
    split_ifs at h with hc
    rw [if_neg (by rintro ⟨_, hz⟩; exact hc ⟨by omega, hz⟩)]
    exact ha
  have cap_data : ∀ (l : Bool) (w : Walker D), (cap l w).data = w.data ∧ (cap l w).total = w.total := by
    intro l w; unfold cap; split_ifs <;> simp
  have cap_weight : ∀ (l : Bool) (w : Walker D), (l = false ∨ ‖w.weight‖ ≤ w.total / 10) → cap l w = w := by
    intro l w hl
    unfold cap
    rw [if_neg]
    rintro ⟨h1, h2⟩
    rcases hl with hl | hl
    · rw [hl] at h2; cases h2
    · linarith
  refine ⟨a, hr, _, (hm _ rfl).2 ((hw _).2 rfl), walkAll_length _ _ _ _ _, ?_, ?_, ?_⟩
  · intro i e
    rw [hm _ rfl, hp, walkAll_prop]
    simp
  · intro i w hi hn
    refine ⟨cap (decide (1 < s + 1)) w, ?_, (cap_data _ _).1, (cap_data _ _).2, fun hle => ?_⟩
    · rw [walkAll_get, hi, Option.map_some, walk1, if_neg (fun hc => hn hc)]
    · rw [cap_weight _ _ (.inr hle)]
  · intro i w hi hn
    refine ⟨cap (decide (1 < s + 1)) (o.prop (s + 1) i a.eshift w), ?_, (cap_data _ _).1, fun hle => ?_⟩
    · rw [walkAll_get, hi, Option.map_some, walk1, if_pos hn, Nat.zero_add]
    · rw [cap_weight _ _ (hle.imp (fun h0 => by simp [h0]) id)]

theorem cap_le (w : Walker D) (h : 0 ≤ (cap true w).total) : ‖(cap true w).weight‖ ≤ (cap true w).total / 10 := by
  unfold cap at h ⊢
  split_ifs at h ⊢ with hc
  · simp only at h ⊢
    rw [Complex.norm_real, Real.norm_of_nonneg (by positivity)]
    linarith
  · by_contra hlt
    exact hc ⟨by linarith, rfl⟩

/-- C50: after the propagation loop of every step but the first no weight exceeds a tenth of the total. -/
theorem capped (c : Cfg) (o : Ops D E) (ws : List (Walker D)) (est : E) (n : Nat) (st : St D E)
    (h : run c o ws est n = some st) (s : Nat) (hs : 1 < s) (ws1 : List (Walker D))
    (hm : Ev.walked s ws1 ∈ st.trace) (w : Walker D) (hw : w ∈ ws1) (ht : 0 ≤ w.total) :
    ‖w.weight‖ ≤ w.total / 10 := by
  have h' := run_steps h
  have hb := steps_old c o _ _ rfl n h' _ hm
  simp only [evStep] at hb
  obtain ⟨k, rfl⟩ : ∃ k, s = k + 1 := ⟨s - 1, by omega⟩
  obtain ⟨a, b, ha, hb', -⟩ := steps_prefix c o _ _ n h' k (by omega)
  obtain ⟨evs, ht', hev, hwk, -⟩ := step_trace c o _ _ _ hb'
  rw [mem_trace c o _ _ rfl n h' k (by omega) a b ha hb' evs ht' _ rfl, hwk] at hm
  rw [hm, List.mem_iff_getElem?] at hw
  obtain ⟨j, hj⟩ := hw
  rw [walkAll_get, Option.map_eq_some_iff] at hj
  obtain ⟨w0, -, hj⟩ := hj
  unfold walk1 at hj
  rw [show decide (1 < k + 1) = true from decide_eq_true hs] at hj
  split_ifs at hj <;> (simp only at hj; subst hj; exact cap_le _ ht)

/-! ## The energy shift (C76) -/

/-- The first step uses no shift; each later one uses the estimate of the previous step, during equilibration the one
that belongs to the propagation scheme and afterwards always the hybrid one. -/
theorem shift_used (c : Cfg) (o : Ops D E) (ws : List (Walker D)) (est : E) (n : Nat) (st : St D E)
    (h : run c o ws est n = some st) (s i : Nat) (e : ℝ) (hm : Ev.prop s i e ∈ st.trace) :
    (s = 1 ∧ e = 0) ∨ ∃ k st', s = k + 2 ∧ run c o ws est (k + 1) = some st' ∧
      e = o.shift (if k + 1 < c.neqlb then c.hybrid else true) st'.est := by
  have h' := run_steps h
  have hb := steps_old c o _ _ rfl n h' _ hm
  simp only [evStep] at hb
  obtain ⟨k, rfl⟩ : ∃ k, s = k + 1 := ⟨s - 1, by omega⟩
  obtain ⟨st', hr, ws1, -, -, hp, -⟩ := moves c o ws est n st h k (by omega)
  have he := ((hp i e).1 hm).1
  cases k with
  | zero =>
    left
    have := run_steps hr
    simp only [steps, Option.some.injEq] at this
    rw [← this] at he
    exact ⟨rfl, he⟩
  | succ k =>
    right
    refine ⟨k, st', rfl, hr, ?_⟩
    have h2 := run_steps hr
    rw [steps, Option.bind_eq_some_iff] at h2
    obtain ⟨a, -, h3⟩ := h2
    obtain ⟨_, _, _, _, _, _, _, hsh⟩ := step_trace c o _ _ _ h3
    rw [he, hsh]
    split_ifs <;> rfl

/-- C76, what holds: for hybrid propagation every shift is the hybrid estimate of the previous step. -/
theorem shift_hybrid_partial (c : Cfg) (hc : c.hybrid = true) (o : Ops D E) (ws : List (Walker D)) (est : E) (n : Nat)
    (st : St D E) (h : run c o ws est n = some st) (s i : Nat) (e : ℝ) (hm : Ev.prop s i e ∈ st.trace) :
    (s = 1 ∧ e = 0) ∨ ∃ k st', s = k + 2 ∧ run c o ws est (k + 1) = some st' ∧ e = o.shift c.hybrid st'.est := by
  rcases shift_used c o ws est n st h s i e hm with h1 | ⟨k, st', hs, hr, he⟩
  · exact .inl h1
  · refine .inr ⟨k, st', hs, hr, ?_⟩
    rw [he, hc]
    split_ifs <;> rfl

/-- One walker of weight one that is never changed; the hybrid estimate is 5 and the mixed one 7. -/
def idle : Ops Unit Unit where
  ortho := fun _ ws => ws
  prop := fun _ _ _ w => w
  pop := fun _ ws => some ws
  update := fun _ _ e => e
  print := fun _ e => e
  shift := fun b _ => if b then 5 else 7

/-- Finding (C76): a run with local-energy propagation uses the hybrid estimate as soon as equilibration is over. -/
theorem shift_local_wrong : ∃ (c : Cfg) (st : St Unit Unit), c.hybrid = false ∧
    run c idle [⟨1, 10, ()⟩] () 3 = some st ∧ Ev.prop 2 0 7 ∈ st.trace ∧ Ev.prop 3 0 5 ∈ st.trace := by
  have h : (1 : ℝ) / 10 ^ 8 < 1 := by norm_num
  have c1 : ∀ b : Bool, cap b (⟨1, 10, ()⟩ : Walker Unit) = ⟨1, 10, ()⟩ := by
    intro b
    unfold cap
    rw [if_neg]
    rintro ⟨hc, _⟩
    norm_num at hc
  have w1 : ∀ (s : Nat) (e : ℝ), walkAll idle s e 0 [(⟨1, 10, ()⟩ : Walker Unit)] = ([⟨1, 10, ()⟩], [.prop s 0 e]) := by
    intro s e
    have : walk1 idle s e 0 (⟨1, 10, ()⟩ : Walker Unit) = (⟨1, 10, ()⟩, [.prop s 0 e]) := by
      unfold walk1
      rw [if_pos (by simpa using h)]
      simp only [idle, c1]
    simp [walkAll, this]
  have st : ∀ (s : Nat) (e : ℝ) (tr : List (Ev Unit)), ∃ a b,
      step ⟨1, 1, 1, 2, false, 0⟩ idle s ⟨[⟨1, 10, ()⟩], (), e, tr⟩ =
        some ⟨[⟨1, 10, ()⟩], (), if s < 2 then 7 else 5, tr ++ a ++ [.prop s 0 e] ++ b⟩ := by
    intro s e tr
    refine ⟨[.ortho s], [.walked s [⟨1, 10, ()⟩], .pop s, .update s [⟨1, 10, ()⟩], .row s], ?_⟩
    unfold step
    simp only [Nat.mod_one, if_true]
    rw [show idle.ortho s [⟨1, 10, ()⟩] = [⟨1, 10, ()⟩] from rfl, w1]
    simp [idle, finish, Nat.mod_one]
  obtain ⟨a1, b1, h1⟩ := st 1 0 []
  obtain ⟨a2, b2, h2⟩ := st 2 7 ([] ++ a1 ++ [.prop 1 0 0] ++ b1)
  obtain ⟨a3, b3, h3⟩ := st 3 5 ([] ++ a1 ++ [.prop 1 0 0] ++ b1 ++ a2 ++ [.prop 2 0 7] ++ b2)
  refine ⟨⟨1, 1, 1, 2, false, 0⟩, ⟨[⟨1, 10, ()⟩], (), 5,
    [] ++ a1 ++ [.prop 1 0 0] ++ b1 ++ a2 ++ [.prop 2 0 7] ++ b2 ++ a3 ++ [.prop 3 0 5] ++ b3⟩, rfl, ?_, by simp, by simp⟩
  · rw [run, if_neg (by simp)]
    simp only [steps, Option.bind_some, Nat.zero_add, h1]
    simp only [show (1 : Nat) < 2 by omega, if_true, Nat.reduceAdd, h2, Option.bind_some]
    simp only [show ¬ (2 : Nat) < 2 by omega, if_false, Nat.reduceAdd, h3]
    simp

/-! ## What the cap compares with (C77)

The cap is meant to act on a walker that carries more than a tenth of the population.  It compares with the total of
the last population control, which is stored before the weights are rescaled to the target. -/

/-- Exactly when the cap changes a walker. -/
theorem cap_acts (w : Walker D) (ht : 0 ≤ w.total) :
    (‖(cap true w).weight‖ < ‖w.weight‖ ↔ w.total / 10 < ‖w.weight‖) ∧
      (¬ w.total / 10 < ‖w.weight‖ → cap true w = w) := by
  have hn : ¬ w.total / 10 < ‖w.weight‖ → cap true w = w := by
    intro h
    unfold cap
    rw [if_neg]
    rintro ⟨h1, _⟩
    exact h (by linarith)
  refine ⟨⟨fun h => ?_, fun h => ?_⟩, hn⟩
  · by_contra hc
    rw [hn hc] at h
    exact lt_irrefl _ h
  · unfold cap
    rw [if_pos ⟨by linarith, rfl⟩]
    simp only
    rw [Complex.norm_real, Real.norm_of_nonneg (by positivity)]
    linarith

/-- C77, what holds: if the total found by population control is the target, the cap acts exactly on walkers with more
than a tenth of the total. -/
theorem cap_share_partial (T : ℝ) (hT : 0 < T) (w : Walker D) :
    ‖(cap true (rescale T T w)).weight‖ < ‖(rescale T T w).weight‖ ↔ T / 10 < ‖w.weight‖ := by
  have h1 : (rescale T T w).weight = w.weight := by simp [rescale, div_self hT.ne']
  rw [(cap_acts (rescale T T w) hT.le).1, h1]
  rfl

/-- In general the share `‖w‖ / total` of a walker is compared with `total / (10 target)` instead of a tenth. -/
theorem cap_share (target total : ℝ) (h1 : 0 < target) (h2 : 0 < total) (w : Walker D) :
    ‖(cap true (rescale target total w)).weight‖ < ‖(rescale target total w).weight‖ ↔
      total / (10 * target) < ‖w.weight‖ / total := by
  rw [(cap_acts (rescale target total w) h2.le).1]
  have e : ‖(rescale target total w).weight‖ = ‖w.weight‖ * target / total := by
    simp only [rescale]
    rw [norm_div, Complex.norm_real, Real.norm_of_nonneg (by positivity), div_div_eq_mul_div]
  rw [e]
  simp only [rescale]
  rw [div_lt_div_iff₀ (by norm_num) h2, div_lt_div_iff₀ (by positivity) h2]
  constructor <;> intro h <;> nlinarith

/-- Finding (C77): after the total of a uniform population has dropped below ten, or if there are fewer than ten walkers,
every walker is cut, although each has the same share. -/
theorem cap_uniform (n : Nat) (hn : 0 < n) (total : ℝ) (h2 : 0 < total) (w : Walker D)
    (hw : ‖w.weight‖ = total / n) :
    ‖(cap true (rescale n total w)).weight‖ < ‖(rescale n total w).weight‖ ↔ total < 10 := by
  have hn' : (0 : ℝ) < n := by exact_mod_cast hn
  rw [cap_share n total hn' h2, hw, div_div_cancel_left' h2.ne', div_lt_iff₀ (by positivity)]
  rw [show (n : ℝ)⁻¹ * (10 * n) = 10 by field_simp]

/-- Finding (C77): a walker with half of the population escapes when the total has grown tenfold. -/
theorem cap_escape (target : ℝ) (h1 : 0 < target) (w : Walker D) (hw : ‖w.weight‖ = 10 * target / 2) :
    cap true (rescale target (10 * target) w) = rescale target (10 * target) w := by
  refine (cap_acts _ (by simp only [rescale]; positivity)).2 ?_
  simp only [rescale]
  rw [norm_div, Complex.norm_real, Real.norm_of_nonneg (by positivity), hw]
  rw [show 10 * target / 2 / (10 * target / target) = target / 2 by field_simp]
  linarith

/-- Case: a hundred walkers whose total weight decayed to five. -/
example : ∃ w : Walker Unit, ‖w.weight‖ = 5 / (100 : Nat) := ⟨⟨((5 / 100 : ℝ) : ℂ), 0, ()⟩, by
  rw [Complex.norm_real, Real.norm_of_nonneg (by norm_num)]; norm_num⟩

/-! ## The thermal driver -/

inductive TAct where
  | propagate | pop | estimate | reset
  deriving DecidableEq

/-- Calls by path and slice (the estimate and the reset carry no slice). -/
def tact : TEv D → Option (Nat × Nat × TAct)
  | .prop _ _ _ => none
  | .walked p ts _ => some (p, ts, .propagate)
  | .pop p ts => some (p, ts, .pop)
  | .update p _ => some (p, 0, .estimate)
  | .reset p => some (p, 0, .reset)

theorem slice_tact (npop : Nat) (o : TOps D E) (p ts : Nat) (st st' : TSt D E) (h : slice npop o p ts st = some st') :
    st'.est = st.est ∧ st'.trace.filterMap tact = st.trace.filterMap tact ++
      ([(p, ts, TAct.propagate)] ++ if npop ∣ ts ∧ 0 < ts then [(p, ts, TAct.pop)] else []) := by
  have hp : ((List.range st.ws.length).map (fun i => TEv.prop (D := D) p ts i)).filterMap tact = [] := by
    rw [List.filterMap_eq_nil_iff]
    intro ev hev
    obtain ⟨i, -, rfl⟩ := List.mem_map.1 hev
    rfl
  unfold slice at h
  simp only at h
  by_cases hc : ts % npop = 0 ∧ ts ≠ 0
  · rw [if_pos hc] at h
    rw [if_pos ⟨Nat.dvd_iff_mod_eq_zero.2 hc.1, Nat.pos_of_ne_zero hc.2⟩]
    split at h
    · exact absurd h (by simp)
    · simp only [Option.some.injEq] at h
      rw [← h]
      simp only [List.filterMap_append, hp]
      simp [tact]
  · rw [if_neg hc] at h
    rw [if_neg (fun hd => hc ⟨Nat.dvd_iff_mod_eq_zero.1 hd.1, hd.2.ne'⟩)]
    simp only [Option.some.injEq] at h
    rw [← h]
    simp only [List.filterMap_append, hp]
    simp [tact]

theorem slices_tact (npop : Nat) (o : TOps D E) (p : Nat) (st st' : TSt D E) (m : Nat)
    (h : slices npop o p st m = some st') :
    st'.trace.filterMap tact = st.trace.filterMap tact ++ (List.range m).flatMap fun ts =>
      [(p, ts, TAct.propagate)] ++ if npop ∣ ts ∧ 0 < ts then [(p, ts, TAct.pop)] else [] := by
  induction m generalizing st' with
  | zero =>
    simp only [slices, Option.some.injEq] at h
    simp [h]
  | succ m ih =>
    rw [slices, Option.bind_eq_some_iff] at h
    obtain ⟨a, h1, h2⟩ := h
    rw [(slice_tact npop o p m a st' h2).2, ih _ h1, List.range_succ, List.flatMap_append]
    simp

/-- C50, thermal: each path propagates through the slices `0, …, m - 1` in order, controls the population after the
slices that are positive multiples of the period, and ends with one estimate and one reset. -/
theorem thermal_schedule (npop m : Nat) (o : TOps D E) (ws : List (Walker D)) (est : E) (n : Nat) (st : TSt D E)
    (h : trun npop m o ws est n = some st) :
    st.trace.filterMap tact = (List.range' 1 n).flatMap fun p =>
      ((List.range m).flatMap fun ts =>
        [(p, ts, TAct.propagate)] ++ if npop ∣ ts ∧ 0 < ts then [(p, ts, TAct.pop)] else []) ++
      [(p, 0, .estimate), (p, 0, .reset)] := by
  unfold trun at h
  split_ifs at h
  clear * - h
  induction n generalizing st with
  | zero =>
    simp only [paths, Option.some.injEq] at h
    simp [← h]
  | succ n ih =>
    rw [paths, Option.bind_eq_some_iff] at h
    obtain ⟨a, h1, h2⟩ := h
    rw [path, Option.map_eq_some_iff] at h2
    obtain ⟨b, h3, h4⟩ := h2
    rw [← h4]
    simp only [List.filterMap_append]
    rw [slices_tact npop o _ _ _ m h3, ih _ h1, List.range'_concat, List.flatMap_append]
    simp [tact, Nat.add_comm]

/-- Path and slice of the events that concern walkers within a path. -/
theorem slices_walked (npop : Nat) (o : TOps D E) (p : Nat) (st st' : TSt D E) (m : Nat)
    (h : slices npop o p st m = some st') :
    ∃ evs, st'.trace = st.trace ++ evs ∧ ∀ p' ts ws, TEv.walked p' ts ws ∈ evs →
      p' = p ∧ ts < m ∧ ∃ ws0, ws = twalk o p ts ws0 := by
  induction m generalizing st' with
  | zero =>
    simp only [slices, Option.some.injEq] at h
    exact ⟨[], by simp [h], by simp⟩
  | succ m ih =>
    rw [slices, Option.bind_eq_some_iff] at h
    obtain ⟨a, h1, h2⟩ := h
    obtain ⟨evs, ht, hw⟩ := ih _ h1
    have key : ∃ e2, st'.trace = a.trace ++ e2 ∧ ∀ p' ts ws, TEv.walked p' ts ws ∈ e2 →
        p' = p ∧ ts = m ∧ ∃ ws0, ws = twalk o p ts ws0 := by
      unfold slice at h2
      simp only at h2
      have hno : ∀ p' ts ws, TEv.walked p' ts ws ∉ (List.range a.ws.length).map (fun i => TEv.prop (D := D) p m i) := by
        intro p' ts ws hc
        obtain ⟨i, -, hi⟩ := List.mem_map.1 hc
        cases hi
      split_ifs at h2
      · split at h2
        · exact absurd h2 (by simp)
        · simp only [Option.some.injEq] at h2
          rw [← h2]
          refine ⟨(List.range a.ws.length).map (fun i => TEv.prop (D := D) p m i) ++ [TEv.walked p m (twalk o p m a.ws)] ++
            [TEv.pop p m], by simp, ?_⟩
          intro p' ts ws hm
          simp only [List.mem_append, List.mem_singleton] at hm
          rcases hm with (hm | hm) | hm
          · exact absurd hm (hno _ _ _)
          · cases hm; exact ⟨rfl, rfl, _, rfl⟩
          · cases hm
      · simp only [Option.some.injEq] at h2
        rw [← h2]
        refine ⟨(List.range a.ws.length).map (fun i => TEv.prop (D := D) p m i) ++ [TEv.walked p m (twalk o p m a.ws)],
          by simp, ?_⟩
        intro p' ts ws hm
        simp only [List.mem_append, List.mem_singleton] at hm
        rcases hm with hm | hm
        · exact absurd hm (hno _ _ _)
        · cases hm; exact ⟨rfl, rfl, _, rfl⟩
    obtain ⟨e2, ht2, hw2⟩ := key
    refine ⟨evs ++ e2, by rw [ht2, ht, List.append_assoc], ?_⟩
    intro p' ts ws hm
    rcases List.mem_append.1 hm with hm | hm
    · obtain ⟨a1, a2, a3⟩ := hw _ _ _ hm
      exact ⟨a1, by omega, a3⟩
    · obtain ⟨a1, a2, a3⟩ := hw2 _ _ _ hm
      exact ⟨a1, by omega, a3⟩

/-- C50, thermal: after every slice but the first of a path no weight exceeds a tenth of the stored total. -/
theorem thermal_capped (npop m : Nat) (o : TOps D E) (ws : List (Walker D)) (est : E) (n : Nat) (st : TSt D E)
    (h : trun npop m o ws est n = some st) (p ts : Nat) (hts : 0 < ts) (ws1 : List (Walker D))
    (hm : TEv.walked p ts ws1 ∈ st.trace) (w : Walker D) (hw : w ∈ ws1) (ht : 0 ≤ w.total) :
    ‖w.weight‖ ≤ w.total / 10 := by
  have hx : ∃ p ws0, ws1 = twalk o p ts ws0 := by
    unfold trun at h
    split_ifs at h
    clear * - h hm
    induction n generalizing st with
    | zero =>
      simp only [paths, Option.some.injEq] at h
      rw [← h] at hm
      exact absurd hm List.not_mem_nil
    | succ n ih =>
      rw [paths, Option.bind_eq_some_iff] at h
      obtain ⟨a, h1, h2⟩ := h
      rw [path, Option.map_eq_some_iff] at h2
      obtain ⟨b, h3, h4⟩ := h2
      obtain ⟨evs, ht, hv⟩ := slices_walked npop o _ _ _ m h3
      rw [← h4, ht] at hm
      simp only [List.mem_append, List.mem_cons, List.not_mem_nil, or_false] at hm
      rcases hm with (hm | hm) | hm | hm
      · exact ih _ hm h1
      · obtain ⟨-, -, ws0, e⟩ := hv _ _ _ hm
        exact ⟨_, ws0, e⟩
      · cases hm
      · cases hm
  obtain ⟨p', ws0, rfl⟩ := hx
  unfold twalk at hw
  rw [List.mem_mapIdx] at hw
  obtain ⟨i, hi, hw⟩ := hw
  rw [show decide (0 < ts) = true from decide_eq_true hts] at hw
  subst hw
  exact cap_le _ ht

/-- C50, thermal: every path starts from walkers of weight one with fresh contents; the stored total is not reset
(finding, C77: the cap of the next path compares with the total of the previous one). -/
theorem thermal_reset (npop m : Nat) (o : TOps D E) (ws : List (Walker D)) (est : E) (n : Nat) (st : TSt D E)
    (h : trun npop m o ws est (n + 1) = some st) :
    ∃ ws', TEv.update (n + 1) ws' ∈ st.trace ∧ st.ws.length = ws'.length ∧
      ∀ i : Nat, ∀ w : Walker D, ws'[i]? = some w → st.ws[i]? = some ⟨1, w.total, o.fresh w.data⟩ := by
  unfold trun at h
  split_ifs at h
  rw [paths, Option.bind_eq_some_iff] at h
  obtain ⟨a, h1, h2⟩ := h
  rw [path, Option.map_eq_some_iff] at h2
  obtain ⟨b, h3, h4⟩ := h2
  rw [← h4]
  refine ⟨b.ws, by simp, by simp, fun i w hi => ?_⟩
  rw [List.getElem?_map, hi]
  rfl

/-! ## Which walkers go where -/

/-- C50: the walkers given to population control are those just propagated, the walkers measured and handed
to the next step are those returned by population control (or those propagated when it is not due), and the
estimators accumulate on their previous state. -/
theorem flow (c : Cfg) (o : Ops D E) (ws : List (Walker D)) (est : E) (n : Nat) (st' : St D E)
    (h : run c o ws est (n + 1) = some st') :
    ∃ st, run c o ws est n = some st ∧ ∃ ws0 ws1 : List (Walker D),
      ((c.nstblz ∣ n + 1 → ws0 = o.ortho (n + 1) st.ws) ∧ (¬ c.nstblz ∣ n + 1 → ws0 = st.ws)) ∧
      ws1.length = ws0.length ∧
      (∀ (i : Nat) (w : Walker D), ws0[i]? = some w →
        (‖w.weight‖ > 1 / 10 ^ 8 → ws1[i]? = some (cap (decide (1 < n + 1)) (o.prop (n + 1) i st.eshift w))) ∧
        (¬ ‖w.weight‖ > 1 / 10 ^ 8 → ws1[i]? = some (cap (decide (1 < n + 1)) w))) ∧
      (c.npop ∣ n + 1 → o.pop (n + 1) ws1 = some st'.ws) ∧ (¬ c.npop ∣ n + 1 → st'.ws = ws1) ∧
      st'.est = o.print (n + 1) (o.update (n + 1) st'.ws st.est) := by
  unfold run at h
  split_ifs at h with h0
  rw [steps, Option.bind_eq_some_iff] at h
  obtain ⟨st, h1, h2⟩ := h
  have h0' : ¬ (0 < n ∧ (c.nstblz = 0 ∨ c.npop = 0 ∨ c.nsteps = 0)) := fun hc => h0 ⟨Nat.succ_pos n, hc.2⟩
  refine ⟨st, by rw [run, if_neg h0']; exact h1, ?_⟩
  have hs : (if (n + 1) % c.nstblz = 0 then o.ortho (n + 1) st.ws else st.ws) = start c o (n + 1) st.ws := by
    unfold start; rw [if_congr Nat.dvd_iff_mod_eq_zero rfl rfl]
  unfold step at h2
  simp only [hs] at h2
  refine ⟨start c o (n + 1) st.ws, (walkAll o (n + 1) st.eshift 0 (start c o (n + 1) st.ws)).1,
    ⟨fun hd => if_pos hd, fun hd => if_neg hd⟩, walkAll_length _ _ _ _ _, fun i w hi => ?_, ?_⟩
  · have hg := walkAll_get o (n + 1) st.eshift 0 i (start c o (n + 1) st.ws)
    rw [hi] at hg
    constructor
    · intro hw
      rw [hg]
      simp only [Option.map_some, walk1, if_pos hw, Nat.zero_add]
    · intro hw
      rw [hg]
      simp only [Option.map_some, walk1, if_neg hw]
  · by_cases hp : c.npop ∣ n + 1
    · rw [if_pos (Nat.dvd_iff_mod_eq_zero.1 hp)] at h2
      cases hq : o.pop (n + 1) (walkAll o (n + 1) st.eshift 0 (start c o (n + 1) st.ws)).1 with
      | none => rw [hq] at h2; cases h2
      | some ws2 =>
        rw [hq] at h2
        obtain rfl := Option.some.inj h2
        exact ⟨fun _ => rfl, fun hn => absurd hp hn, rfl⟩
    · rw [if_neg (fun hc => hp (Nat.dvd_iff_mod_eq_zero.2 hc))] at h2
      obtain rfl := Option.some.inj h2
      exact ⟨fun hq => absurd hq hp, fun _ => rfl, rfl⟩

/-- C50, thermal: the walkers of a path pass through the slices in order, population control acts on the
walkers just propagated, the estimators see the walkers at the end of the path and only then are they reset. -/
theorem thermal_flow (npop m : Nat) (o : TOps D E) (ws : List (Walker D)) (est : E) (n : Nat) (st : TSt D E)
    (h : trun npop m o ws est (n + 1) = some st) :
    ∃ st0, trun npop m o ws est n = some st0 ∧ ∃ f : Nat → List (Walker D), f 0 = st0.ws ∧
      (∀ ts < m, ∃ ws1 : List (Walker D), ws1.length = (f ts).length ∧
        (∀ (i : Nat) (w : Walker D), (f ts)[i]? = some w →
          ws1[i]? = some (cap (decide (0 < ts)) (o.prop (n + 1) ts i w))) ∧
        (npop ∣ ts ∧ 0 < ts → o.pop (n + 1) ts ws1 = some (f (ts + 1))) ∧
        (¬ (npop ∣ ts ∧ 0 < ts) → f (ts + 1) = ws1)) ∧
      st.est = o.update (n + 1) (f m) st0.est ∧
      st.ws = (f m).map fun w => ⟨1, w.total, o.fresh w.data⟩ := by
  unfold trun at h
  split_ifs at h with h0
  rw [paths, Option.bind_eq_some_iff] at h
  obtain ⟨a, h1, h2⟩ := h
  rw [path, Option.map_eq_some_iff] at h2
  obtain ⟨b, h3, h4⟩ := h2
  have h0' : ¬ (0 < n ∧ 0 < m ∧ npop = 0) := fun hc => h0 ⟨Nat.succ_pos n, hc.2⟩
  refine ⟨a, by rw [trun, if_neg h0']; exact h1, ?_⟩
  have key : ∀ (m : Nat) (b : TSt D E), slices npop o (n + 1) a m = some b → b.est = a.est ∧
      ∃ f : Nat → List (Walker D), f 0 = a.ws ∧ f m = b.ws ∧
      (∀ ts < m, ∃ ws1 : List (Walker D), ws1.length = (f ts).length ∧
        (∀ (i : Nat) (w : Walker D), (f ts)[i]? = some w →
          ws1[i]? = some (cap (decide (0 < ts)) (o.prop (n + 1) ts i w))) ∧
        (npop ∣ ts ∧ 0 < ts → o.pop (n + 1) ts ws1 = some (f (ts + 1))) ∧
        (¬ (npop ∣ ts ∧ 0 < ts) → f (ts + 1) = ws1)) := by
    intro m
    induction m with
    | zero =>
      intro b hb
      obtain rfl := Option.some.inj hb
      exact ⟨rfl, fun _ => a.ws, rfl, rfl, fun ts hts => absurd hts (Nat.not_lt_zero _)⟩
    | succ m ih =>
      intro b hb
      rw [slices, Option.bind_eq_some_iff] at hb
      obtain ⟨d, hd, hb⟩ := hb
      obtain ⟨he, f, f0, fm, hf⟩ := ih d hd
      have hbe : b.est = d.est ∧ (npop ∣ m ∧ 0 < m → o.pop (n + 1) m (twalk o (n + 1) m d.ws) = some b.ws) ∧
          (¬ (npop ∣ m ∧ 0 < m) → b.ws = twalk o (n + 1) m d.ws) := by
        unfold slice at hb
        simp only at hb
        have hiff : (m % npop = 0 ∧ m ≠ 0) ↔ (npop ∣ m ∧ 0 < m) :=
          and_congr Nat.dvd_iff_mod_eq_zero.symm Nat.pos_iff_ne_zero.symm
        by_cases hp : npop ∣ m ∧ 0 < m
        · rw [if_pos (hiff.2 hp)] at hb
          cases hq : o.pop (n + 1) m (twalk o (n + 1) m d.ws) with
          | none => rw [hq] at hb; cases hb
          | some ws2 =>
            rw [hq] at hb
            obtain rfl := Option.some.inj hb
            exact ⟨rfl, fun _ => rfl, fun hn => absurd hp hn⟩
        · rw [if_neg (fun hc => hp (hiff.1 hc))] at hb
          obtain rfl := Option.some.inj hb
          exact ⟨rfl, fun hq => absurd hq hp, fun _ => rfl⟩
      refine ⟨hbe.1.trans he, fun j => if j = m + 1 then b.ws else f j, ?_, ?_, fun ts hts => ?_⟩
      · simpa using f0
      · exact if_pos rfl
      · have e1 : (if ts = m + 1 then b.ws else f ts) = f ts := if_neg (by omega)
        rcases Nat.lt_succ_iff_lt_or_eq.1 hts with hlt | rfl
        · have e2 : (if ts + 1 = m + 1 then b.ws else f (ts + 1)) = f (ts + 1) := if_neg (by omega)
          simp only [e1, e2]
          exact hf ts hlt
        · rw [fm] at e1
          simp only [fm, e1, if_true]
          refine ⟨twalk o (n + 1) ts d.ws, by simp [twalk], fun i w hi => ?_, hbe.2.1, hbe.2.2⟩
          rw [twalk, List.getElem?_mapIdx, hi]
          rfl
  obtain ⟨he, f, f0, fm, hf⟩ := key m b h3
  refine ⟨f, f0, hf, ?_, ?_⟩
  · rw [← h4, fm, ← he]
  · rw [← h4, fm]
    rfl

/-! ## Non-vacuity -/

/-- Case: every configuration with positive periods completes when population control does not abort. -/
theorem run_completes (c : Cfg) (h1 : c.nstblz ≠ 0) (h2 : c.npop ≠ 0) (h3 : c.nsteps ≠ 0) (o : Ops D E)
    (hp : ∀ s ws, (o.pop s ws).isSome) (ws : List (Walker D)) (est : E) (n : Nat) : (run c o ws est n).isSome := by
  unfold run
  rw [if_neg (by tauto)]
  induction n with
  | zero => rfl
  | succ n ih =>
    obtain ⟨a, ha⟩ := Option.isSome_iff_exists.1 ih
    rw [steps, ha, Option.bind_some]
    unfold step
    simp only
    split_ifs
    · split
      · next hn => exact absurd (hp (n + 1) _) (by rw [hn]; simp)
      · rfl
    · split
      · next hn => exact absurd (hp (n + 1) _) (by rw [hn]; simp)
      · rfl
    all_goals rfl

/-- Case: the actions of three steps. -/
example : (List.range' 1 3).flatMap (expected ⟨2, 3, 1, 0, true, 3⟩) =
    [(1, .propagate), (1, .estimate), (1, .row), (2, .ortho), (2, .propagate), (2, .estimate), (2, .row),
      (3, .propagate), (3, .pop), (3, .estimate), (3, .row), (3, .restart)] := by decide

end Verif.Driver
