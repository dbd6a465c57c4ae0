import Verif.Stats.Model

/-!
# The chemical potential for a given density
-/

namespace Verif.Stats

/-- The windows: `[s, n - s)` as long as there are more points than coefficients. -/
theorem windows_spec (n order s e : ℕ) :
    (s, e) ∈ windows n order ↔ s < n ∧ e = n - s ∧ s + (order + 1) < e := by
  unfold windows
  simp only [List.mem_map, List.mem_filter, List.mem_range, decide_eq_true_eq, Prod.mk.injEq]
  constructor
  · rintro ⟨a, ⟨h1, h2⟩, rfl, rfl⟩
    omega
  · rintro ⟨h1, rfl, h2⟩
    exact ⟨s, ⟨h1, by omega⟩, rfl, rfl⟩

/-- What the loop has found after some windows. -/
def ChemInv (ws : List Window) (c : Chem) : Prop :=
  (c.rmin = none ∧ ∀ w ∈ ws, w.root = none) ∨
    ∃ pre w0 post, ws = pre ++ w0 :: post ∧ (∀ w ∈ pre, w.root = none) ∧ w0.root ≠ none ∧
      c.rmin = some w0.res ∧ ∃ w ∈ w0 :: post, (∃ b, w.root = some (c.muMin, b)) ∧ w.res ≤ w0.res

theorem chem_inv (ws : List Window) : ChemInv ws (ws.foldl chemStep ⟨none, 0, false, none⟩) := by
  induction ws using List.reverseRecOn with
  | nil => exact Or.inl ⟨rfl, by simp⟩
  | append_singleton ws w ih =>
    rw [List.foldl_append, List.foldl_cons, List.foldl_nil]
    generalize ws.foldl chemStep ⟨none, 0, false, none⟩ = c at ih ⊢
    unfold chemStep
    cases hw : w.root with
    | none =>
      rcases ih with ⟨h1, h2⟩ | ⟨pre, w0, post, h1, h2, h3, h4, w', hw', h5⟩
      · refine Or.inl ⟨h1, ?_⟩
        intro x hx
        rcases List.mem_append.1 hx with h | h
        · exact h2 x h
        · rw [List.mem_singleton.1 h, hw]
      · refine Or.inr ⟨pre, w0, post ++ [w], by rw [h1]; simp, h2, h3, h4, w', ?_, h5⟩
        rcases List.mem_cons.1 hw' with h | h
        · exact List.mem_cons.2 (Or.inl h)
        · exact List.mem_cons.2 (Or.inr (List.mem_append.2 (Or.inl h)))
    | some p =>
      obtain ⟨mu, conv⟩ := p
      rcases ih with ⟨h1, h2⟩ | ⟨pre, w0, post, h1, h2, h3, h4, w', hw', h5⟩
      · simp only [h1]
        exact Or.inr ⟨ws, w, [], rfl, h2, by rw [hw]; simp, rfl, w, by simp, ⟨conv, hw⟩, le_rfl⟩
      · simp only [h4]
        by_cases hlt : w.res < w0.res
        · rw [if_pos hlt]
          exact Or.inr ⟨pre, w0, post ++ [w], by rw [h1]; simp, h2, h3, rfl, w, by simp, ⟨conv, hw⟩, hlt.le⟩
        · rw [if_neg hlt]
          refine Or.inr ⟨pre, w0, post ++ [w], by rw [h1]; simp, h2, h3, rfl, w', ?_, h5⟩
          rcases List.mem_cons.1 hw' with h | h
          · exact List.mem_cons.2 (Or.inl h)
          · exact List.mem_cons.2 (Or.inr (List.mem_append.2 (Or.inl h)))

/-- A value returned is a root of the fit of one of the windows, with a residual not above that of the
first window with a root.  (Intended: the window with the smallest residual.) -/
theorem chem_root_partial (ws : List Window) (mu : ℝ) (h : findChemPot ws = some (some mu)) :
    ∃ pre w0 post, ws = pre ++ w0 :: post ∧ (∀ w ∈ pre, w.root = none) ∧ w0.root ≠ none ∧
      ∃ w ∈ w0 :: post, (∃ b, w.root = some (mu, b)) ∧ w.res ≤ w0.res := by
  have hi := chem_inv ws
  unfold findChemPot at h
  simp only at h
  have hmu : ∀ ws : List Window, (∀ w ∈ ws, w.root = none) →
      ∀ x, (ws.foldl chemStep ⟨none, 0, false, none⟩).mu ≠ some (some x) := by
    intro ws
    induction ws using List.reverseRecOn with
    | nil => intro _ x; simp
    | append_singleton ws w ih =>
      intro hall x
      rw [List.foldl_append, List.foldl_cons, List.foldl_nil]
      unfold chemStep
      rw [hall w (by simp)]
      simp
  rcases hi with ⟨_, h2⟩ | ⟨pre, w0, post, h1, h2, h3, _, w', hw', h5, h6⟩
  · have := hmu ws h2
    split at h
    · simp at h
    · simp at h
    · rename_i x hx
      exact absurd hx (this x)
  · refine ⟨pre, w0, post, h1, h2, h3, w', hw', ?_, h6⟩
    split at h
    · simp at h
    · simp at h
    · split at h
      · have := Option.some.inj (Option.some.inj h)
        rw [← this]
        exact h5
      · simp at h

/-- Two windows, both with a root: the one with the smaller residual. -/
theorem chem_two_partial (r1 r2 m1 m2 : ℝ) :
    findChemPot [⟨r1, some (m1, true)⟩, ⟨r2, some (m2, true)⟩] =
      some (some (open Classical in if r2 < r1 then m2 else m1)) := by
  classical
  by_cases h : r2 < r1 <;> simp [findChemPot, chemStep, h]

/-- A single window. -/
theorem chem_one_partial (r m : ℝ) : findChemPot [⟨r, some (m, true)⟩] = some (some m) := by
  simp [findChemPot, chemStep]

/-- **Finding**: with three windows the value returned need not be that with the smallest residual. -/
theorem chem_not_min : findChemPot [⟨3, some (30, true)⟩, ⟨1, some (10, true)⟩, ⟨2, some (20, true)⟩] =
    some (some 20) := by
  simp only [findChemPot, List.foldl_cons, List.foldl_nil, chemStep]
  norm_num

/-- **Finding**: if the fit in the last window has no root, nothing is returned although other windows
had one. -/
theorem chem_last (ws : List Window) (r : ℝ) : findChemPot (ws ++ [⟨r, none⟩]) = some none := by
  simp [findChemPot, chemStep]

/-- **Finding**: with too few points the name looked at is not bound. -/
theorem chem_few (n order : ℕ) (h : n ≤ order + 1) (fit : ℕ × ℕ → Window) :
    findChemPot ((windows n order).map fit) = none := by
  have : windows n order = [] := by
    rw [List.eq_nil_iff_forall_not_mem]
    rintro ⟨s, e⟩ hm
    have := (windows_spec n order s e).1 hm
    omega
  rw [this]
  rfl

end Verif.Stats
