import Verif.FieldHistory.Props

/-!
# Property C14: back-propagation windows
-/

namespace Verif.FieldHistory

/-- A history of `nmax` steps with `nf` fields at step `k`. -/
def At (nmax nf k : Nat) (c : FC) : Prop := WF nmax nf nmax c ∧ c.step = k

theorem at_update {nmax nf k : Nat} {c : FC} (h : At nmax nf k c) (hk : k < nmax) (e : Entry)
    (he : e.config.length = nf) : ∃ c', c.update e = some c' ∧ At nmax nf (k + 1) c' := by
  obtain ⟨hw, hs⟩ := h
  unfold FC.update
  rw [if_pos ⟨by rw [hs, hw.hn]; exact hk, by rw [he, hw.hnf]⟩]
  have hw' : ∀ r ∈ c.configs.set c.step e.config, r.length = nf := by
    intro r hr
    rcases List.mem_or_eq_of_mem_set hr with hr | rfl
    · exact hw.width r hr
    · exact he
  unfold FC.advance
  simp only
  split_ifs with h1 h2
  · exfalso
    rw [hw.hnblock, Nat.div_self (by omega)] at h2
    omega
  · exact ⟨_, rfl, ⟨hw.hn, hw.hnf, hw.hnbp, hw.hnblock, by simp [hw.l1], by simp [hw.l2],
      by simp [hw.l3], hw'⟩, by simp [hs]⟩
  · exact ⟨_, rfl, ⟨hw.hn, hw.hnf, hw.hnbp, hw.hnblock, by simp [hw.l1], by simp [hw.l2],
      by simp [hw.l3], hw'⟩, by simp [hs]⟩

theorem at_update_full {nmax nf : Nat} {c : FC} (h : At nmax nf nmax c) (e : Entry) :
    c.update e = none := by
  unfold FC.update
  rw [if_neg]
  rw [h.2, h.1.hn]; omega

theorem at_reset {nmax nf k : Nat} {c : FC} (h : At nmax nf k c) (hn : 0 < nmax) :
    ∃ c', c.reset = some c' ∧ At nmax nf (if k % nmax = 0 then 0 else k) c' := by
  obtain ⟨hw, hs⟩ := h
  refine ⟨_, if_neg (by rw [hw.hn]; omega), ⟨hw.hn, hw.hnf, hw.hnbp, hw.hnblock, hw.l1, hw.l2,
    hw.l3, hw.width⟩, ?_⟩
  simp [hw.hn, hs]

theorem mapAll_some {α β : Type} {f : α → Option β} {P : α → Prop} {Q : β → Prop}
    (l : List α) (hP : ∀ a ∈ l, P a) (hf : ∀ a, P a → ∃ b, f a = some b ∧ Q b) :
    ∃ bs, mapAll f l = some bs ∧ bs.length = l.length ∧ ∀ b ∈ bs, Q b := by
  induction l with
  | nil => exact ⟨[], rfl, rfl, by simp⟩
  | cons a l ih =>
    obtain ⟨bs, h1, h2, h3⟩ := ih (fun x hx => hP x (by simp [hx]))
    obtain ⟨b, hb, hq⟩ := hf a (hP a (by simp))
    refine ⟨b :: bs, by simp [mapAll, hb, h1], by simp [h2], ?_⟩
    intro x hx
    rcases List.mem_cons.1 hx with rfl | hx
    · exact hq
    · exact h3 x hx

theorem mapAll_none {α β : Type} {f : α → Option β} (l : List α) (a : α) (ha : a ∈ l)
    (h : f a = none) : mapAll f l = none := by
  induction l with
  | nil => simp at ha
  | cons x l ih =>
    rcases List.mem_cons.1 ha with rfl | ha
    · simp [mapAll, h]
    · simp only [mapAll, ih ha]
      cases f x <;> rfl

theorem tick_at {nmax nsplit nf nw k : Nat} (hn : 0 < nmax) (hnw : 0 < nw) (hk : k < nmax)
    (ws : List FC) (hl : ws.length = nw) (hws : ∀ w ∈ ws, At nmax nf k w)
    (es : List (Option Entry)) (hel : es.length = nw)
    (hes : ∀ o ∈ es, ∃ e, o = some e ∧ e.config.length = nf)
    (src : Nat → Nat) (hsrc : ∀ i, i < nw → src i < nw) :
    ∃ ws', tick nmax nsplit ws es src = some (decide (k + 1 ∈ splits nmax nsplit), ws') ∧
      ws'.length = nw ∧ ∀ w ∈ ws', At nmax nf
        (if some (k + 1) = (splits nmax nsplit).getLast? ∧ (k + 1) % nmax = 0 then 0 else k + 1)
        w := by
  unfold tick
  obtain ⟨u, h1, h2, h3⟩ := mapAll_some (f := record) (Q := At nmax nf (k + 1))
    (P := fun p => At nmax nf k p.1 ∧ ∃ e, p.2 = some e ∧ e.config.length = nf)
    (ws.zip es)
    (by
      intro p hp
      exact ⟨hws _ (List.of_mem_zip hp).1, hes _ (List.of_mem_zip hp).2⟩)
    (by
      rintro ⟨c, o⟩ ⟨hc, e, he, hel⟩
      simp only at hc he
      subst he
      exact at_update hc hk e hel)
  rw [h1]
  simp only
  have hul : u.length = nw := by rw [h2, List.length_zip, hl, hel, Nat.min_self]
  obtain ⟨v, g1, g2, g3⟩ := mapAll_some (f := fun i => u[src i]?) (Q := At nmax nf (k + 1))
    (P := fun i => i < nw) (List.range u.length)
    (by intro i hi; rw [← hul]; simpa using hi)
    (by
      intro i hi
      have : src i < u.length := by rw [hul]; exact hsrc i hi
      exact ⟨_, List.getElem?_eq_getElem this, h3 _ (List.getElem_mem this)⟩)
  rw [g1]
  simp only
  rw [List.length_range, hul] at g2
  unfold bpUpdate
  cases v with
  | nil => simp at g2; omega
  | cons w0 v =>
    simp only
    have hw0 := g3 w0 (by simp)
    rw [hw0.2]
    by_cases hm : k + 1 ∈ splits nmax nsplit
    · rw [if_pos hm]
      by_cases hlast : some (k + 1) = (splits nmax nsplit).getLast?
      · rw [if_pos hlast]
        obtain ⟨r, r1, r2, r3⟩ := mapAll_some (f := FC.reset) (P := At nmax nf (k + 1))
          (Q := At nmax nf (if (k + 1) % nmax = 0 then 0 else k + 1)) (w0 :: v) g3
          (fun c hc => at_reset hc hn)
        refine ⟨r, by rw [r1]; simp [hm], by rw [r2, g2], ?_⟩
        intro w hw
        have := r3 w hw
        by_cases h0 : (k + 1) % nmax = 0
        · rw [if_pos h0] at this; rw [if_pos ⟨hlast, h0⟩]; exact this
        · rw [if_neg h0] at this; rw [if_neg (fun h => h0 h.2)]; exact this
      · rw [if_neg hlast]
        refine ⟨w0 :: v, by simp [hm], g2, ?_⟩
        intro w hw
        rw [if_neg (fun h => hlast h.1)]
        exact g3 w hw
    · rw [if_neg hm]
      refine ⟨w0 :: v, by simp [hm], g2, ?_⟩
      intro w hw
      rw [if_neg]
      · exact g3 w hw
      · intro h
        exact hm (List.mem_of_getLast? h.1.symm)

theorem splits_getLast {nmax nsplit : Nat} (hs : 0 < nsplit) :
    (splits nmax nsplit).getLast? = some (nsplit * (nmax / nsplit)) := by
  unfold splits
  obtain ⟨m, rfl⟩ : ∃ m, nsplit = m + 1 := ⟨nsplit - 1, by omega⟩
  rw [List.range_succ, List.map_append]
  simp

theorem mem_splits {nmax nsplit k : Nat} (hs : 0 < nsplit) (hd : nsplit ∣ nmax) (hk0 : 0 < k)
    (hk : k ≤ nmax) : k ∈ splits nmax nsplit ↔ nmax / nsplit ∣ k := by
  unfold splits
  simp only [List.mem_map, List.mem_range]
  constructor
  · rintro ⟨i, _, rfl⟩; exact Dvd.intro_left _ rfl
  · rintro ⟨j, rfl⟩
    have hm : 0 < nmax / nsplit := Nat.pos_of_mul_pos_right hk0
    have hj : 0 < j := Nat.pos_of_mul_pos_left hk0
    refine ⟨j - 1, ?_, ?_⟩
    · have hx : nmax / nsplit * nsplit = nmax := Nat.div_mul_cancel hd
      have : nmax / nsplit * j ≤ nmax / nsplit * nsplit := by rw [hx]; exact hk
      have := Nat.le_of_mul_le_mul_left this hm
      omega
    · rw [Nat.sub_add_cancel hj, Nat.mul_comm]

/-- C14, partial: the number of splits divides the window length and no walker has negligible
weight during the run.  Then a run of any length, with any population control, never overruns the
field buffer; after `t` steps every walker holds `t mod nmax` steps (so the buffer is empty exactly
at the window ends), and a measurement is made at exactly the steps that are multiples of
`nmax / nsplit`.  Missing: other numbers of splits and walkers that are not propagated in some
step; in both cases the property is false, see the two theorems below. -/
theorem bp_windows_partial (nmax nsplit nf nw : Nat) (hn : 0 < nmax) (hs : 0 < nsplit)
    (hd : nsplit ∣ nmax) (hnw : 0 < nw) (es : Nat → List (Option Entry))
    (hel : ∀ t, (es t).length = nw)
    (halive : ∀ t, ∀ o ∈ es t, ∃ e, o = some e ∧ e.config.length = nf)
    (src : Nat → Nat → Nat) (hsrc : ∀ t i, i < nw → src t i < nw) (t : Nat) :
    ∃ c0 ms ws, FC.make nf nmax nmax = some c0 ∧
      runBP nmax nsplit es src (List.replicate nw c0) t = some (ms, ws) ∧
      ws.length = nw ∧ (∀ w ∈ ws, w.step = t % nmax) ∧
      ms = (List.range t).map (fun k => decide (nmax / nsplit ∣ k + 1)) := by
  obtain ⟨c0, h0, hrel⟩ := make_rel nf nmax nmax hn
  suffices h : ∃ ms ws, runBP nmax nsplit es src (List.replicate nw c0) t = some (ms, ws) ∧
      ws.length = nw ∧ (∀ w ∈ ws, At nmax nf (t % nmax) w) ∧
      ms = (List.range t).map (fun k => decide (nmax / nsplit ∣ k + 1)) by
    obtain ⟨ms, ws, h1, h2, h3, h4⟩ := h
    exact ⟨c0, ms, ws, h0, h1, h2, fun w hw => (h3 w hw).2, h4⟩
  induction t with
  | zero =>
    refine ⟨[], _, rfl, by simp, ?_, rfl⟩
    intro w hw
    rw [List.eq_of_mem_replicate hw]
    exact ⟨hrel.wf, by rw [hrel.step]; simp⟩
  | succ t ih =>
    obtain ⟨ms, ws, h1, h2, h3, h4⟩ := ih
    obtain ⟨ws', g1, g2, g3⟩ := tick_at (nsplit := nsplit) hn hnw (Nat.mod_lt t hn) ws h2 h3 (es t)
      (hel t) (halive t) (src t) (hsrc t)
    refine ⟨ms ++ [decide (t % nmax + 1 ∈ splits nmax nsplit)], ws', by simp only [runBP, h1, g1],
      g2, ?_, ?_⟩
    · intro w hw
      have := g3 w hw
      rw [splits_getLast hs, Nat.mul_div_cancel' hd] at this
      have hcond : (some (t % nmax + 1) = some nmax ∧ (t % nmax + 1) % nmax = 0) ↔
          t % nmax + 1 = nmax := by
        constructor
        · intro h; simpa using h.1
        · intro h; exact ⟨by rw [h], by rw [h, Nat.mod_self]⟩
      have hmod : (t + 1) % nmax = if t % nmax + 1 = nmax then 0 else t % nmax + 1 := by
        rw [Nat.add_mod]
        by_cases h1 : nmax = 1
        · subst h1; simp [Nat.mod_one]
        · rw [Nat.mod_eq_of_lt (show 1 < nmax by omega)]
          have := Nat.mod_lt t hn
          split_ifs with h
          · rw [h, Nat.mod_self]
          · rw [Nat.mod_eq_of_lt (by omega)]
      rw [hmod]
      by_cases h : t % nmax + 1 = nmax
      · rw [if_pos h]; rwa [if_pos (hcond.2 h)] at this
      · rw [if_neg h]; rwa [if_neg (fun hh => h (hcond.1 hh))] at this
    · rw [h4, List.range_succ, List.map_append]
      congr 1
      simp only [List.map_cons, List.map_nil, List.cons.injEq, and_true, decide_eq_decide]
      have := Nat.mod_lt t hn
      rw [mem_splits hs hd (by omega) (by omega)]
      have hdvd : nmax / nsplit ∣ nmax := Nat.div_dvd_of_dvd hd
      have e : t + 1 = (t % nmax + 1) + nmax * (t / nmax) := by
        have := Nat.mod_add_div t nmax; omega
      rw [e]
      exact (Nat.dvd_add_left (Dvd.dvd.mul_right hdvd _)).symm

/-- C14 fails if the number of splits does not divide the window: whatever the fields, walkers and
population control, the run dies with an indexing error at step `nmax + 1`. -/
theorem bp_windows_overrun (nmax nsplit nf nw : Nat) (hn : 0 < nmax) (hs : 0 < nsplit)
    (hd : ¬ nsplit ∣ nmax) (hnw : 0 < nw) (es : Nat → List (Option Entry))
    (hel : ∀ t, (es t).length = nw)
    (halive : ∀ t, ∀ o ∈ es t, ∃ e, o = some e ∧ e.config.length = nf)
    (src : Nat → Nat → Nat) (hsrc : ∀ t i, i < nw → src t i < nw) (c0 : FC)
    (h0 : FC.make nf nmax nmax = some c0) :
    (runBP nmax nsplit es src (List.replicate nw c0) nmax).isSome ∧
    runBP nmax nsplit es src (List.replicate nw c0) (nmax + 1) = none := by
  have hrel : Rel nmax nf nmax c0 ⟨[], []⟩ := by
    obtain ⟨c, h1, h2⟩ := make_rel nf nmax nmax hn
    rw [h0] at h1; cases h1; exact h2
  have hlt : nsplit * (nmax / nsplit) < nmax := by
    rcases Nat.lt_or_ge (nsplit * (nmax / nsplit)) nmax with h | h
    · exact h
    · exact absurd (Dvd.intro _ (Nat.le_antisymm (Nat.mul_div_le _ _) h)) hd
  have key : ∀ t, t ≤ nmax → ∃ ms ws, runBP nmax nsplit es src (List.replicate nw c0) t =
      some (ms, ws) ∧ ws.length = nw ∧ ∀ w ∈ ws, At nmax nf t w := by
    intro t
    induction t with
    | zero =>
      intro _
      refine ⟨[], _, rfl, by simp, ?_⟩
      intro w hw
      rw [List.eq_of_mem_replicate hw]
      exact ⟨hrel.wf, by rw [hrel.step]; simp⟩
    | succ t ih =>
      intro ht
      obtain ⟨ms, ws, h1, h2, h3⟩ := ih (by omega)
      obtain ⟨ws', g1, g2, g3⟩ := tick_at (nsplit := nsplit) hn hnw (show t < nmax by omega) ws h2
        h3 (es t) (hel t) (halive t) (src t) (hsrc t)
      refine ⟨ms ++ [decide (t + 1 ∈ splits nmax nsplit)], ws', by simp only [runBP, h1, g1], g2, ?_⟩
      intro w hw
      have := g3 w hw
      rw [if_neg] at this
      · exact this
      · rintro ⟨a, b⟩
        rw [splits_getLast hs] at a
        simp only [Option.some.injEq] at a
        have := Nat.le_of_dvd (by omega) (Nat.dvd_of_mod_eq_zero b)
        omega
  obtain ⟨ms, ws, h1, h2, h3⟩ := key nmax le_rfl
  refine ⟨by rw [h1]; rfl, ?_⟩
  simp only [runBP, h1]
  have : tick nmax nsplit ws (es nmax) (src nmax) = none := by
    unfold tick
    cases ws with
    | nil => simp at h2; omega
    | cons w ws =>
      cases hes : es nmax with
      | nil => have := hel nmax; rw [hes] at this; simp at this; omega
      | cons o os =>
        obtain ⟨e, rfl, _⟩ := halive nmax o (by rw [hes]; simp)
        rw [mapAll_none _ (w, some e) (by simp) (at_update_full (h3 w (by simp)) e)]
  rw [this]

/-- C14 also fails if a walker of negligible weight is not propagated in some step: window of two
steps, one split, two walkers of which the second misses the first step.  The run dies at step 4,
although no walker recorded more than three entries in four steps. -/
theorem bp_windows_dead_walker (e : Entry) (he : e.config.length = 1) (c0 : FC)
    (h0 : FC.make 1 2 2 = some c0) :
    runBP 2 1 (fun t => if t = 0 then [some e, none] else [some e, some e]) (fun _ i => i)
      [c0, c0] 4 = none := by
  have hrel : Rel 2 1 2 c0 ⟨[], []⟩ := by
    obtain ⟨c, h1, h2⟩ := make_rel 1 2 2 (by norm_num)
    rw [h0] at h1; cases h1; exact h2
  have hc0 : At 2 1 0 c0 := ⟨hrel.wf, by rw [hrel.step]; simp⟩
  obtain ⟨a1, ha1, pa1⟩ := at_update hc0 (by norm_num) e he
  obtain ⟨a2, ha2, pa2⟩ := at_update pa1 (by norm_num) e he
  obtain ⟨a3, ha3, pa3⟩ := at_reset pa2 (by norm_num)
  obtain ⟨b3, hb3, pb3⟩ := at_reset pa1 (by norm_num)
  norm_num at pa3 pb3
  obtain ⟨a4, ha4, pa4⟩ := at_update pa3 (by norm_num) e he
  obtain ⟨b4, hb4, pb4⟩ := at_update pb3 (by norm_num) e he
  have hfull := at_update_full pb4 e
  have sp : splits 2 1 = [2] := by decide
  have r : List.range 2 = [0, 1] := by decide
  simp [runBP, tick, mapAll, record, ha1, ha2, ha4, hb4, hfull, r, bpUpdate, sp, pa1.2, pa2.2, pa4.2,
    ha3, hb3]

/-- Non-vacuity: window of four steps with two splits, three walkers whose population control
copies walker 0 over walker 2. -/
example : (2 ∣ 4) ∧ ∀ t i : Nat, i < 3 → (if i = 2 then 0 else i) < 3 := by
  refine ⟨by decide, ?_⟩
  intro t i hi
  split_ifs <;> omega

end Verif.FieldHistory
