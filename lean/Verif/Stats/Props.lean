import Verif.Stats.Model
import Verif.Analysis.Props

/-!
# What the averages are
-/

namespace Verif.Stats

open Verif.Analysis

/-! ## Rows that enter -/

theorem drop_eq_filter {α : Type*} (l : List α) (k : ℕ) (p : α → Bool)
    (h : ∀ i (hi : i < l.length), p l[i] = true ↔ k ≤ i) : l.drop k = l.filter p := by
  induction l generalizing k with
  | nil => simp
  | cons a t ih =>
    have h0 := h 0 (by simp)
    cases k with
    | zero =>
      have : ∀ x ∈ a :: t, p x = true := by
        intro x hx
        obtain ⟨i, hi, rfl⟩ := List.mem_iff_getElem.1 hx
        exact (h i hi).2 (Nat.zero_le _)
      rw [List.drop_zero, List.filter_eq_self.2 this]
    | succ k =>
      have hp : ¬ p a = true := by
        intro hc
        have := h0.1 (by simpa using hc)
        omega
      rw [List.drop_succ_cons, List.filter_cons_of_neg hp]
      apply ih
      intro i hi
      have := h (i + 1) (by simpa using hi)
      simpa using this

/-- Lines are written every `nsteps` steps, from step 0 on. -/
def Regular (nsteps : ℕ) (l : List Line) : Prop := ∀ i (hi : i < l.length), l[i].iter = i * nsteps

/-- The lines kept are those after `startTime` in imaginary time. -/
theorem kept_lines (l : List Line) (nsteps : ℕ) (dt startTime : ℝ) (hl : Regular nsteps l)
    (hn : 0 < nsteps) (hdt : 0 < dt) (hs : 0 ≤ startTime) :
    sliceFrom l (startRow startTime nsteps dt false) =
      open Classical in l.filter fun r => startTime < r.iter * dt := by
  classical
  have hpos : (0 : ℝ) < nsteps * dt := by positivity
  have hq : 0 ≤ startTime / (nsteps * dt) := by positivity
  have hfl : 0 ≤ ⌊startTime / (nsteps * dt)⌋ := Int.floor_nonneg.2 hq
  have hst : startRow startTime nsteps dt false = ⌊startTime / (nsteps * dt)⌋ + 1 := by
    simp [startRow, trunc, hq]
  rw [hst]
  unfold sliceFrom
  rw [if_pos (by omega)]
  apply drop_eq_filter
  intro i hi
  rw [decide_eq_true_iff, hl i hi]
  have h1 : startTime < ((i * nsteps : ℕ) : ℝ) * dt ↔ startTime / (nsteps * dt) < i := by
    rw [div_lt_iff₀ hpos]
    push_cast
    rw [mul_assoc]
  rw [h1]
  have h2 : startTime / (nsteps * dt) < (i : ℝ) ↔ ⌊startTime / (nsteps * dt)⌋ < (i : ℤ) := by
    rw [Int.floor_lt]; norm_cast
  rw [h2]
  omega

/-- With walkers read from a file all lines are kept. -/
theorem kept_restart (l : List Line) (step dt startTime : ℝ) :
    sliceFrom l (startRow startTime step dt true) = l := by
  simp [startRow, sliceFrom]

/-! ## Columns -/

theorem lookup_map_replace (l : Cols) (k c : String) (v : Json) :
    (l.map fun p => if p.1 = k then (k, v) else p).lookup c =
      if c = k then (if k ∈ l.map Prod.fst then some v else none) else l.lookup c := by
  induction l with
  | nil => simp
  | cons p t ih =>
    obtain ⟨a, b⟩ := p
    rw [List.map_cons, List.lookup_cons, List.lookup_cons]
    by_cases hak : a = k
    · subst hak
      by_cases hca : c = a
      · subst hca; simp
      · have : (c == a) = false := by simpa using hca
        simp only [if_true, this, ih, hca, if_false]
    · by_cases hca : c = a
      · subst hca
        simp [hak]
      · have hca' : (c == a) = false := by simpa using hca
        by_cases hck : c = k
        · subst hck
          simp only [hak, if_false, hca', ih, if_true, List.map_cons, List.mem_cons, hca, false_or]
        · simp [hak, hca', ih, hck]

theorem lookup_eq_none' (l : Cols) (k : String) (h : k ∉ l.map Prod.fst) : l.lookup k = none := by
  rw [List.lookup_eq_none_iff]
  intro p hp
  simp only [bne_iff_ne, ne_eq]
  intro hc
  exact h (List.mem_map.2 ⟨p, hp, hc.symm⟩)

theorem lookup_append' (l m : Cols) (k : String) :
    (l ++ m).lookup k = (l.lookup k).or (m.lookup k) := by
  induction l with
  | nil => simp
  | cons p t ih =>
    obtain ⟨a, b⟩ := p
    rw [List.cons_append, List.lookup_cons, List.lookup_cons]
    by_cases h : k = a
    · subst h; simp
    · have : (k == a) = false := by simpa using h
      simp [this, ih]

/-- A column assigned has the value assigned, the others are as before. -/
theorem lookup_put (l : Cols) (k c : String) (v : Json) :
    (put l k v).lookup c = if c = k then some v else l.lookup c := by
  unfold put
  by_cases h : k ∈ l.map Prod.fst
  · rw [if_pos h, lookup_map_replace]
    simp [h]
  · rw [if_neg h, lookup_append']
    by_cases hc : c = k
    · subst hc
      rw [lookup_eq_none' l c h]; simp
    · have : (c == k) = false := by simpa using hc
      simp [hc, this, List.lookup_cons]

open Classical in
theorem lookup_putSome (l : Cols) (k c : String) (v : Json) :
    (putSome l k v).lookup c = if c = k ∧ v ≠ .null then some v else l.lookup c := by
  cases v <;> simp [putSome, lookup_put]

theorem mem_put (l : Cols) (k c : String) (v : Json) :
    c ∈ (put l k v).map Prod.fst ↔ c = k ∨ c ∈ l.map Prod.fst := by
  have key : ∀ m : Cols, c ∈ m.map Prod.fst ↔ m.lookup c ≠ none := by
    intro m
    constructor
    · intro h hn
      rw [List.lookup_eq_none_iff] at hn
      obtain ⟨p, hp, rfl⟩ := List.mem_map.1 h
      simpa using hn p hp
    · intro h
      by_contra hc
      exact h (lookup_eq_none' m c hc)
  rw [key, key, lookup_put]
  by_cases h : c = k <;> simp [h]

theorem mem_putSome (l : Cols) (k c : String) (v : Json) :
    c ∈ (putSome l k v).map Prod.fst ↔ (c = k ∧ v ≠ .null) ∨ c ∈ l.map Prod.fst := by
  cases v <;> simp only [putSome, mem_put] <;> simp

/-! ## Groups -/

theorem groupBy_spec {α κ : Type*} (key : α → Option κ) (rows : List α) (g : κ × List α)
    (hg : g ∈ groupBy key rows) :
    g.2 = ofKey key g.1 rows ∧ ∃ r ∈ rows, key r = some g.1 := by
  classical
  unfold groupBy at hg
  obtain ⟨k, hk, rfl⟩ := List.mem_map.1 hg
  refine ⟨rfl, ?_⟩
  simp only [List.mem_reverse, List.mem_dedup, List.mem_filterMap] at hk
  obtain ⟨r, hr, h⟩ := hk
  exact ⟨r, hr, h⟩

theorem groupBy_mem {α κ : Type*} (key : α → Option κ) (rows : List α) (r : α) (k : κ)
    (hr : r ∈ rows) (hk : key r = some k) : ∃ g ∈ groupBy key rows, g.1 = k := by
  classical
  unfold groupBy
  refine ⟨_, List.mem_map.2 ⟨k, ?_, rfl⟩, rfl⟩
  simp only [List.mem_reverse, List.mem_dedup, List.mem_filterMap]
  exact ⟨r, hr, hk⟩

/-- Each group has its own key. -/
theorem groupBy_keys {α κ : Type*} (key : α → Option κ) (rows : List α) :
    ((groupBy key rows).map Prod.fst).Nodup := by
  classical
  unfold groupBy
  rw [List.map_map]
  have : ∀ (f : κ → List α) (l : List κ), l.map (Prod.fst ∘ fun k => (k, f k)) = l := by
    intro f l
    induction l with
    | nil => rfl
    | cons a t ih => simp [ih]
  rw [this]
  exact List.nodup_reverse.2 (List.nodup_dedup _)

/-- The rows of all files. -/
noncomputable def allRows (startTime : ℝ) (files : List File) : List Row :=
  files.flatMap (fileRows startTime)

theorem mem_ofKey {α κ : Type*} (key : α → Option κ) (k : κ) (rows : List α) (r : α) :
    r ∈ ofKey key k rows ↔ r ∈ rows ∧ key r = some k := by
  classical
  unfold ofKey
  simp

/-- What `analyse_estimates` reports: the rows that have one common set of parameters.  All other rows
lack one of the parameters. -/
theorem estimates_group {S A : Type*} (blk : List (String → ℝ) → S) (ac : List ℝ → A) (startTime : ℝ)
    (files : List File) (k : List Json) (s : S) (a : A)
    (h : analyseEstimates blk ac startTime files = some ((k, s), a)) :
    let kept := ofKey (fun r : Row => r.keys (groupCols files)) k (allRows startTime files)
    kept ≠ [] ∧ s = blk (kept.map Row.val) ∧ a = ac (kept.map fun r => r.val "ETotal") ∧
      ∀ r ∈ allRows startTime files,
        r.keys (groupCols files) = some k ∨ r.keys (groupCols files) = none := by
  unfold analyseEstimates at h
  split at h
  · exact absurd h (by simp)
  · split at h
    · rename_i g hg
      have h' := Option.some.inj h
      have hk : g.1 = k := congrArg (fun p => p.1.1) h'
      have hs : blk (g.2.map Row.val) = s := congrArg (fun p => p.1.2) h'
      have ha : ac (g.2.map fun r => r.val "ETotal") = a := congrArg (fun p => p.2) h'
      obtain ⟨h2, r0, hr0, hk0⟩ := groupBy_spec _ _ g (by rw [hg]; simp)
      subst hk
      rw [h2] at hs ha
      refine ⟨?_, hs.symm, ha.symm, ?_⟩
      · intro hc
        have : r0 ∈ ofKey (fun r : Row => r.keys (groupCols files)) g.1 (allRows startTime files) :=
          (mem_ofKey _ _ _ _).2 ⟨hr0, hk0⟩
        rw [hc] at this
        simp at this
      · intro r hr
        cases hkr : r.keys (groupCols files) with
        | none => exact Or.inr rfl
        | some k' =>
          obtain ⟨g', hg', he⟩ := groupBy_mem (fun r : Row => r.keys (groupCols files)) _ r k' hr hkr
          have hg'' : g' ∈ groupBy (fun r : Row => r.keys (groupCols files))
            (files.flatMap (fileRows startTime)) := hg'
          rw [hg] at hg''
          simp only [List.mem_singleton] at hg''
          rw [← he, hg'']
          exact Or.inl rfl
    · exact absurd h (by simp)

/-- Rows with two different sets of parameters: `analyse_estimates` raises. -/
theorem estimates_several {S A : Type*} (blk : List (String → ℝ) → S) (ac : List ℝ → A)
    (startTime : ℝ) (files : List File) (r r' : Row) (k k' : List Json)
    (hr : r ∈ allRows startTime files) (hr' : r' ∈ allRows startTime files)
    (hk : r.keys (groupCols files) = some k) (hk' : r'.keys (groupCols files) = some k')
    (hne : k ≠ k') : analyseEstimates blk ac startTime files = none := by
  cases h : analyseEstimates blk ac startTime files with
  | none => rfl
  | some o =>
    exfalso
    obtain ⟨⟨j, s⟩, a⟩ := o
    obtain ⟨_, _, _, hall⟩ := estimates_group blk ac startTime files j s a h
    have h1 := hall r hr
    have h2 := hall r' hr'
    rw [hk] at h1
    rw [hk'] at h2
    simp only [reduceCtorEq, or_false, Option.some.injEq] at h1 h2
    exact hne (h1.trans h2.symm)

/-- Free projection: `analyse_estimates` raises. -/
theorem estimates_free {S A : Type*} (blk : List (String → ℝ) → S) (ac : List ℝ → A)
    (startTime : ℝ) (files : List File) (h : lastFp files = true) :
    analyseEstimates blk ac startTime files = none := by
  unfold analyseEstimates; rw [if_pos h]

theorem groupBy_single {α κ : Type*} (key : α → Option κ) (rows : List α) (k : κ)
    (h : ∀ r ∈ rows, key r = some k) (hne : rows ≠ []) : groupBy key rows = [(k, rows)] := by
  classical
  have hnd := groupBy_keys key rows
  have hall : ∀ g ∈ groupBy key rows, g = (k, rows) := by
    intro g hg
    obtain ⟨h2, r, hr, hk⟩ := groupBy_spec key rows g hg
    have h1 : g.1 = k := by
      rw [h r hr] at hk
      exact (Option.some.inj hk).symm
    have h3 : g.2 = rows := by
      rw [h2]
      unfold ofKey
      rw [List.filter_eq_self]
      intro r hr
      rw [h r hr, h1]
      simp
    rw [← h1, ← h3]
  obtain ⟨r, hr⟩ := List.exists_mem_of_ne_nil rows hne
  obtain ⟨g, hg, _⟩ := groupBy_mem key rows r k hr (h r hr)
  match hgs : groupBy key rows with
  | [] => rw [hgs] at hg; simp at hg
  | [g'] => rw [hall g' (by rw [hgs]; simp)]
  | g' :: g'' :: t =>
    rw [hgs] at hnd hall
    have e1 := hall g' (by simp)
    have e2 := hall g'' (by simp)
    rw [e1, e2] at hnd
    simp at hnd

/-- One set of parameters: the lines of all files enter on an equal footing. -/
theorem estimates_all {S A : Type*} (blk : List (String → ℝ) → S) (ac : List ℝ → A) (startTime : ℝ)
    (files : List File) (k : List Json) (hfp : lastFp files = false)
    (h : ∀ r ∈ allRows startTime files, r.keys (groupCols files) = some k)
    (hne : allRows startTime files ≠ []) :
    analyseEstimates blk ac startTime files = some ((k, blk ((allRows startTime files).map Row.val)),
      ac ((allRows startTime files).map fun r => r.val "ETotal")) := by
  unfold analyseEstimates
  rw [if_neg (by simp [hfp])]
  have := groupBy_single (fun r : Row => r.keys (groupCols files)) (allRows startTime files) k h hne
  unfold allRows at this
  rw [this]
  rfl

theorem mapM_agree {α β : Type*} (f g : α → Option β) (l : List α) (k : List β)
    (hf : l.mapM f = some k) (hg : l.mapM g = some k) : ∀ c ∈ l, f c = g c ∧ f c ≠ none := by
  induction l generalizing k with
  | nil => simp
  | cons a t ih =>
    simp only [List.mapM_cons, Option.bind_eq_bind, Option.pure_def, Option.bind_eq_some_iff,
      Option.some.injEq] at hf hg
    obtain ⟨b, hb, k1, hk1, rfl⟩ := hf
    obtain ⟨b', hb', k2, hk2, he⟩ := hg
    simp only [List.cons.injEq] at he
    obtain ⟨rfl, rfl⟩ := he
    intro c hc
    rcases List.mem_cons.1 hc with rfl | hc
    · rw [hb, hb']; simp
    · exact ih k2 hk1 hk2 c hc

/-- Lines that are averaged together come from runs with equal values in all grouping columns. -/
theorem pooled_agree (r r' : Row) (cs : List String) (k : List Json) (hr : r.keys cs = some k)
    (hr' : r'.keys cs = some k) (c : String) (hc : c ∈ cs) :
    ∃ v, v ≠ .null ∧ r.cols.lookup c = some v ∧ r'.cols.lookup c = some v := by
  obtain ⟨he, hn⟩ := mapM_agree r.key r'.key cs k hr hr' c hc
  unfold Row.key at he hn
  cases h1 : r.cols.lookup c with
  | none => rw [h1] at hn; simp at hn
  | some v =>
    cases h2 : r'.cols.lookup c with
    | none =>
      rw [h1] at he hn; rw [h2] at he
      cases v <;> simp at he hn
    | some v' =>
      rw [h1] at he hn; rw [h2] at he
      cases v <;> cases v' <;> simp_all

end Verif.Stats
