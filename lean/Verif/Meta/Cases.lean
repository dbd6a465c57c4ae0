import Verif.Meta.Props

/-!
# Metadata in the analysis: C130
-/

namespace Verif.Meta

open Verif.Stats

variable (show' : ℝ → String) (text : Py → String)

/-- **C130** The columns by which runs are told apart hold the parameters of the run: time step, and interaction, lattice and electrons of a Hubbard model. -/
theorem columns_hubbard {vb : Nat} {run : Fields} (hd : run.Distinct) {md : Json} (hm : metadata show' text vb run = some md)
    (hn : attr run ["system", "name"] = some (.str "Hubbard")) {dt : ℝ} (hdt : attr run ["qmc", "dt"] = some (.float dt)) :
    (setInfo md).lookup "dt" = some (.num dt) ∧
      ∀ c ∈ ["U", "nx", "ny", "nup", "ndown"], ∀ v x, attr run ["system", c] = some v → scalar v = some x → (setInfo md).lookup c = some x := by
  have h1 := param_read_back show' text hd hm hn (by simp [lastKey, special]) (x := .str "Hubbard") rfl
  have h2 := param_read_back show' text hd hm hdt (by simp [lastKey, special]) (x := .num dt) rfl
  refine ⟨by rw [setInfo_dt, h2], fun c hc v x hv hx => ?_⟩
  have h3 := param_read_back show' text hd hm hv (by
    simp only [List.mem_cons, List.not_mem_nil, or_false] at hc
    rcases hc with rfl | rfl | rfl | rfl | rfl <;> simp [lastKey, special]) hx
  rw [setInfo_hubbard md h1 c hc, h3]

theorem keys_none (r : Row) (c : String) : ∀ cs : List String, c ∈ cs → r.key c = none → r.keys cs = none
  | [], h, _ => by simp at h
  | a :: cs, h, hc => by
    have e : r.keys (a :: cs) = (r.key a).bind fun x => (r.keys cs).bind fun y => some (x :: y) := by
      simp [Row.keys, List.mapM_cons]
    rw [e]
    rcases List.mem_cons.1 h with rfl | h
    · simp [hc]
    · simp [keys_none r c cs h hc]

/-- **C130** (finding) A Hubbard run whose interaction was set to an integer of numpy (`for U in numpy.arange(1, 9)`): all its results are missing from the analysis,
without notice. -/
theorem numpy_run_lost {vb : Nat} {run : Fields} (hd : run.Distinct) {md : Json} (hm : metadata show' text vb run = some md)
    (hn : attr run ["system", "name"] = some (.str "Hubbard")) {z : ℤ} (hU : attr run ["system", "U"] = some (.npInt z))
    (files : List File) (startTime : ℝ) {lines : List Line} (hlast : files.getLast? = some ⟨md, lines⟩) (lines' : List Line) (r : Row)
    (hr : r ∈ fileRows startTime ⟨md, lines'⟩) : r.keys (groupCols files) = none := by
  have h1 := param_read_back show' text hd hm hn (by simp [lastKey, special]) (x := .str "Hubbard") rfl
  have h2 := numpy_lost show' text hd hm hU (by simp [lastKey, special]) rfl
  have h3 := setInfo_hubbard md h1 "U" (by simp)
  rw [h2] at h3
  refine keys_none r "U" _ ?_ ?_
  · rw [groupCols, hlast]
    simp only [List.mem_filter]
    exact ⟨mem_cols_of_lookup _ _ _ h3, by simp⟩
  · rw [Row.key, cols_of_fileRows startTime _ r hr, h3]

/-- **C130** The length of the back-propagation window is in the metadata, although the analysis looks for it under another name and does not find it. -/
theorem window_recorded {vb : Nat} {run : Fields} (hd : run.Distinct) {md : Json} (hm : metadata show' text vb run = some md) {tau : ℝ}
    (h : attr run ["estimators", "estimators", "back_prop", "tau_bp"] = some (.float tau)) (he : run.find "estimates" = none) :
    md.path ["estimators", "estimators", "back_prop", "tau_bp"] = .num tau ∧ "tau_bp" ∉ (setInfo md).map Prod.fst :=
  ⟨param_read_back show' text hd hm h (by simp [lastKey, special]) rfl, no_tau_bp md (nothing_invented show' text hd hm [] he)⟩

/-! ## A run -/

theorem cons_none (vb : Nat) (k : String) (v : Py) (r : Fields) :
    serialise show' text vb (.cons k v r) = none ↔ entry show' text vb k v = none ∨ serialise show' text vb r = none := by
  rw [serialise]
  cases entry show' text vb k v <;> cases serialise show' text vb r <;> simp

theorem entry_obj_none (vb : Nat) (k : String) (f : Fields) : entry show' text vb k (.obj f) = none ↔ serialise show' text vb f = none := by
  rw [entry, Option.map_eq_none_iff]

theorem entry_dict_none (vb : Nat) (k : String) (f : Fields) : entry show' text vb k (.dict f) = none ↔ serialise show' text 0 f = none := by
  rw [entry, Option.map_eq_none_iff]

/-- Objects of a list of attributes. -/
def fields : List (String × Py) → Fields
  | [] => .nil
  | (k, v) :: l => .cons k v (fields l)

/-- A Hubbard run with back propagation; `U` as given. -/
noncomputable def exRun (U : Py) : Fields := fields [
  ("verbosity", .int 0), ("root", .bool true),
  ("system", .obj (fields [("name", .str "Hubbard"), ("U", U), ("nx", .int 4), ("ny", .int 1), ("nup", .int 2), ("ndown", .int 2), ("T", .grid),
    ("ktwist", .arr false [0] []), ("ecore", .cplx 1 2)])),
  ("qmc", .obj (fields [("dt", .float 0.01), ("beta", .null), ("rng_seed", .npInt 7)])),
  ("propagators", .obj (fields [("free_projection", .bool false), ("propagate_walker", .func "f")])),
  ("estimators", .obj (fields [("estimators", .dict (fields [("mixed", .obj (fields [("estimates", .arr true [0] [0])])),
    ("back_prop", .obj (fields [("tau_bp", .float 0.5), ("splits", .seq ["1"])]))]))])),
  ("psi", .obj (fields [("walkers", .seq ["w"])]))]

theorem exRun_distinct (U : Py) (hU : U.Distinct) : (exRun U).Distinct := by
  simp [exRun, fields, Fields.Distinct, Py.Distinct, Fields.find, hU]

/-- **C130** The hypotheses are met: the run writes its metadata at every verbosity; interaction and window are read back, an interaction that is an integer of
numpy is not, of a complex number the real part. -/
theorem meta_case (vb : Nat) : (∃ md, metadata show' text vb (exRun (.float 4)) = some md ∧ md.path ["system", "U"] = .num 4 ∧
      md.path ["estimators", "estimators", "back_prop", "tau_bp"] = .num 0.5 ∧ md.path ["system", "ecore"] = .num 1 ∧ md.path ["qmc", "beta"] = .null ∧
      (setInfo md).lookup "nup" = some (.num 2)) ∧
    ∃ md, metadata show' text vb (exRun (.npInt 4)) = some md ∧ md.path ["system", "U"] = .null ∧ (setInfo md).lookup "U" = some .null := by
  have wr : ∀ U, U = .float 4 ∨ U = .npInt 4 → ∃ md, metadata show' text vb (exRun U) = some md := by
    intro U hU
    cases h : metadata show' text vb (exRun U) with
    | some md => exact ⟨md, rfl⟩
    | none =>
      exfalso
      rw [metadata, Option.map_eq_none_iff] at h
      have hl : ∀ vb k v, v.fields = none → (entry show' text vb k v = none ↔ Bad vb k v) := leaf_none show' text
      rcases hU with rfl | rfl <;>
      · simp only [exRun, fields, cons_none, entry_obj_none, entry_dict_none, hl _ _ (Py.float _) rfl, hl _ _ (Py.int _) rfl, hl _ _ (Py.npInt _) rfl,
          hl _ _ (Py.bool _) rfl, hl _ _ (Py.str _) rfl, hl _ _ Py.null rfl, hl _ _ Py.grid rfl, hl _ _ (Py.seq _) rfl, hl _ _ (Py.arr _ _ _) rfl,
          hl _ _ (Py.func _) rfl, hl _ _ (Py.cplx _ _) rfl, Bad] at h
        simp [serialise] at h
  constructor
  · obtain ⟨md, h⟩ := wr _ (Or.inl rfl)
    have hd := exRun_distinct (.float 4) (by simp [Py.Distinct])
    refine ⟨md, h, param_read_back show' text hd h rfl (by simp [lastKey, special]) rfl, param_read_back show' text hd h rfl (by simp [lastKey, special]) rfl,
      complex_real show' text hd h rfl (by simp [lastKey, special]), param_read_back show' text hd h rfl (by simp [lastKey, special]) rfl, ?_⟩
    have := (columns_hubbard show' text hd h rfl rfl).2 "nup" (by simp) (.int 2) (.num ((2 : ℤ) : ℝ)) rfl rfl
    simpa using this
  · obtain ⟨md, h⟩ := wr _ (Or.inr rfl)
    have hd := exRun_distinct (.npInt 4) (by simp [Py.Distinct])
    have h2 : md.path ["system", "U"] = .null := numpy_lost show' text hd h rfl (by simp [lastKey, special]) rfl
    refine ⟨md, h, h2, ?_⟩
    rw [setInfo_hubbard md (param_read_back show' text hd h rfl (by simp [lastKey, special]) rfl) "U" (by simp), h2]

/-- **C130** (finding) An empty one-dimensional array anywhere, here an option of the estimators: the run stops when it writes its metadata, except at verbosity 3. -/
theorem empty_array (vb : Nat) : metadata show' text vb (.cons "estimators" (.obj (.cons "times" (.arr false [] []) .nil)) .nil) = none ↔ vb ≠ 3 := by
  rw [metadata, Option.map_eq_none_iff, raises_iff]
  constructor
  · rintro ⟨vb', k, v, hr, hb⟩
    cases hr with
    | here => simp [Bad] at hb
    | later h => cases h
    | inObj h =>
      cases h with
      | here => simpa [Bad] using hb
      | later h => cases h
  · intro h
    exact ⟨vb, "times", _, .inObj .here, by simp [Bad, h]⟩

end Verif.Meta
