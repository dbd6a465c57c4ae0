import Verif.Stats.Props

/-!
# Runs averaged together
-/

namespace Verif.Stats

open Verif.Analysis

theorem systemInfo_other (s : Json) (l : Cols) (c : String)
    (hc : c ∉ ["rs", "ecut", "nup", "ndown", "U", "nx", "ny", "integrals", "cholesky_treshold",
      "nbasis"]) : (systemInfo s l).lookup c = l.lookup c := by
  simp only [List.mem_cons, List.not_mem_nil, or_false, not_or] at hc
  obtain ⟨h1, h2, h3, h4, h5, h6, h7, h8, h9, h10⟩ := hc
  unfold systemInfo
  split <;> simp [lookup_put, lookup_putSome, h1, h2, h3, h4, h5, h6, h7, h8, h9, h10]

theorem thermalInfo_other (md : Json) (l : Cols) (c : String)
    (hc : c ∉ ["E_T", "beta", "beta_red", "mu", "mu_T", "Nav_T"]) :
    (thermalInfo md l).lookup c = l.lookup c := by
  simp only [List.mem_cons, List.not_mem_nil, or_false, not_or] at hc
  obtain ⟨h1, h2, h3, h4, h5, h6⟩ := hc
  unfold thermalInfo
  split
  · simp [lookup_put, h1]
  · simp only
    split <;> simp [lookup_put, lookup_putSome, h1, h2, h3, h4, h5, h6]

/-- Time step among the columns. -/
theorem setInfo_dt (md : Json) : (setInfo md).lookup "dt" = some (md.path ["qmc", "dt"]) := by
  unfold setInfo
  simp only
  rw [systemInfo_other _ _ _ (by decide), thermalInfo_other _ _ _ (by decide)]
  split <;> simp [lookup_put, lookup_putSome]

/-- Parameters of a Hubbard model among the columns. -/
theorem setInfo_hubbard (md : Json) (h : md.path ["system", "name"] = .str "Hubbard") (c : String)
    (hc : c ∈ ["U", "nx", "ny", "nup", "ndown"]) :
    (setInfo md).lookup c = some (md.path ["system", c]) := by
  unfold setInfo
  simp only
  have h' : (md.get "system").get "name" = .str "Hubbard" := h
  have e : md.path ["system", c] = (md.get "system").get c := rfl
  rw [e]
  unfold systemInfo
  rw [h']
  simp only [List.mem_cons, List.not_mem_nil, or_false] at hc
  rcases hc with rfl | rfl | rfl | rfl | rfl <;> simp [lookup_put]

/-- Parameters of an electron gas among the columns. -/
theorem setInfo_ueg (md : Json) (h : md.path ["system", "name"] = .str "UEG") (c : String)
    (hc : c ∈ ["rs", "ecut", "nup", "ndown"]) :
    (setInfo md).lookup c = some (md.path ["system", c]) := by
  unfold setInfo
  simp only
  have h' : (md.get "system").get "name" = .str "UEG" := h
  have e : md.path ["system", c] = (md.get "system").get c := rfl
  rw [e]
  unfold systemInfo
  rw [h']
  simp only [List.mem_cons, List.not_mem_nil, or_false] at hc
  rcases hc with rfl | rfl | rfl | rfl <;> simp [lookup_put]

theorem mem_cols_of_lookup (l : Cols) (c : String) (v : Json) (h : l.lookup c = some v) :
    c ∈ l.map Prod.fst := by
  by_contra hc
  rw [lookup_eq_none' l c hc] at h
  simp at h

theorem mem_groupCols (files : List File) (f : File) (hf : files.getLast? = some f) (c : String)
    (v : Json) (hc : c ≠ "E_T") (h : (setInfo f.md).lookup c = some v) : c ∈ groupCols files := by
  unfold groupCols
  rw [hf]
  simp only [List.mem_filter]
  exact ⟨mem_cols_of_lookup _ _ _ h, by simpa using hc⟩

theorem cols_of_fileRows (startTime : ℝ) (f : File) (r : Row) (h : r ∈ fileRows startTime f) :
    r.cols = setInfo f.md := by
  unfold fileRows at h
  simp only at h
  obtain ⟨l, _, rfl⟩ := List.mem_map.1 h
  rfl

/-- Runs whose lines are averaged together have the same time step. -/
theorem pooled_dt (files : List File) (startTime : ℝ) (f g h : File) (hh : files.getLast? = some h)
    (r r' : Row) (hr : r ∈ fileRows startTime f) (hr' : r' ∈ fileRows startTime g) (k : List Json)
    (hk : r.keys (groupCols files) = some k) (hk' : r'.keys (groupCols files) = some k) :
    f.md.path ["qmc", "dt"] = g.md.path ["qmc", "dt"] := by
  obtain ⟨v, _, h1, h2⟩ := pooled_agree r r' _ k hk hk' "dt"
    (mem_groupCols files h hh _ _ (by decide) (setInfo_dt h.md))
  rw [cols_of_fileRows startTime f r hr, setInfo_dt] at h1
  rw [cols_of_fileRows startTime g r' hr', setInfo_dt] at h2
  exact (Option.some.inj h1).trans (Option.some.inj h2).symm

/-- Runs of Hubbard models whose lines are averaged together have the same interaction, lattice and
numbers of electrons. -/
theorem pooled_hubbard (files : List File) (startTime : ℝ) (f g h : File)
    (hh : files.getLast? = some h) (hall : ∀ x ∈ [f, g, h], x.md.path ["system", "name"] = .str "Hubbard")
    (r r' : Row) (hr : r ∈ fileRows startTime f) (hr' : r' ∈ fileRows startTime g) (k : List Json)
    (hk : r.keys (groupCols files) = some k) (hk' : r'.keys (groupCols files) = some k) (c : String)
    (hc : c ∈ ["U", "nx", "ny", "nup", "ndown"]) :
    f.md.path ["system", c] = g.md.path ["system", c] := by
  have hne : c ≠ "E_T" := by
    rintro rfl
    revert hc
    decide
  obtain ⟨v, _, h1, h2⟩ := pooled_agree r r' _ k hk hk' c
    (mem_groupCols files h hh _ _ hne (setInfo_hubbard h.md (hall h (by simp)) c hc))
  rw [cols_of_fileRows startTime f r hr, setInfo_hubbard _ (hall f (by simp)) c hc] at h1
  rw [cols_of_fileRows startTime g r' hr', setInfo_hubbard _ (hall g (by simp)) c hc] at h2
  exact (Option.some.inj h1).trans (Option.some.inj h2).symm

/-! ## Parameters not looked at -/

/-- Metadata with one parameter of the system changed. -/
def withSys (md : Json) (k : String) (v : Json) : Json :=
  .obj fun a => if a = "system" then .obj fun b => if b = k then v else md.path ["system", b]
    else md.get a

/-- Parameters of the system that `set_info` does not look at make no difference: not the hopping
`t`, the twist, the boundary conditions. -/
theorem setInfo_blind (md : Json) (k : String) (v : Json)
    (hk : k ∉ ["name", "nbasis", "mu", "rs", "ecut", "nup", "ndown", "U", "nx", "ny", "integral_file",
      "threshold"]) : setInfo (withSys md k v) = setInfo md := by
  simp only [List.mem_cons, List.not_mem_nil, or_false, not_or] at hk
  obtain ⟨h1, h2, h3, h4, h5, h6, h7, h8, h9, h10, h11, h12⟩ := hk
  have hsys : ∀ b, b ≠ k → ((withSys md k v).get "system").get b = (md.get "system").get b := by
    intro b hb
    simp [withSys, Json.get, Json.path, hb]
  have hoth : ∀ a, a ≠ "system" → (withSys md k v).get a = md.get a := by
    intro a ha
    simp [withSys, Json.get, ha]
  have hp : ∀ a ks, a ≠ "system" → (withSys md k v).path (a :: ks) = md.path (a :: ks) := by
    intro a ks ha
    simp only [Json.path, List.foldl_cons]
    rw [hoth a ha]
  have hps : ∀ b, b ≠ k → (withSys md k v).path ["system", b] = md.path ["system", b] := hsys
  have hth : ∀ l, thermalInfo (withSys md k v) l = thermalInfo md l := by
    intro l
    unfold thermalInfo
    rw [hp _ _ (by decide), hp _ _ (by decide), hp _ _ (by decide), hps "mu" (Ne.symm h3),
      hoth "trial" (by decide)]
  have hsi : ∀ l, systemInfo ((withSys md k v).get "system") l = systemInfo (md.get "system") l := by
    intro l
    unfold systemInfo
    rw [hsys "name" (Ne.symm h1), hsys "rs" (Ne.symm h4), hsys "ecut" (Ne.symm h5),
      hsys "nup" (Ne.symm h6), hsys "ndown" (Ne.symm h7), hsys "U" (Ne.symm h8),
      hsys "nx" (Ne.symm h9), hsys "ny" (Ne.symm h10), hsys "integral_file" (Ne.symm h11),
      hsys "threshold" (Ne.symm h12), hsys "nbasis" (Ne.symm h2)]
  unfold setInfo
  rw [hp "qmc" ["dt"] (by decide), hp "qmc" ["ntot_walkers"] (by decide),
    hp "propagators" ["free_projection"] (by decide),
    hp "estimates" ["estimates", "back_prop"] (by decide), hps "nbasis" (Ne.symm h2)]
  simp only [hth, hsi]

/-- A Hubbard run with all its parameters. -/
noncomputable def exRun : Json := .obj fun a =>
  if a = "qmc" then .obj fun b => if b = "dt" then .num 0.01 else if b = "nsteps" then .num 10
    else if b = "ntot_walkers" then .num 100 else .null
  else if a = "propagators" then .obj fun b => if b = "free_projection" then .bool false else .null
  else if a = "trial" then .obj fun b => if b = "energy" then .num (-1) else .null
  else if a = "system" then .obj fun b => if b = "name" then .str "Hubbard"
    else if b = "U" then .num 4 else if b = "nx" then .num 2 else if b = "ny" then .num 2
    else if b = "nup" then .num 2 else if b = "ndown" then .num 2 else if b = "nbasis" then .num 4
    else if b = "t" then .num 1 else .null
  else .null

theorem exRun_info : setInfo exRun = [("dt", .num 0.01), ("nwalkers", .num 100),
    ("free_projection", .bool false), ("nbasis", .num 4), ("E_T", .num (-1)), ("U", .num 4),
    ("nx", .num 2), ("ny", .num 2), ("nup", .num 2), ("ndown", .num 2)] := by
  simp [setInfo, systemInfo, thermalInfo, exRun, Json.path, Json.get, Json.orNum, put, putSome]

/-- Key of the run. -/
noncomputable def exKey : List Json :=
  [.num 0.01, .num 100, .bool false, .num 4, .num 4, .num 2, .num 2, .num 2, .num 2]

theorem exRun_key (r : Row) (h : r.cols = setInfo exRun) :
    r.keys ["dt", "nwalkers", "free_projection", "nbasis", "U", "nx", "ny", "nup", "ndown"] =
      some exKey := by
  simp [Row.keys, Row.key, h, exRun_info, exKey, List.lookup_cons]

/-- Two files with the same columns, the second one last. -/
theorem two_files {S A : Type*} (blk : List (String → ℝ) → S) (ac : List ℝ → A) (startTime : ℝ)
    (f g : File) (hf : setInfo f.md = setInfo exRun) (hg : setInfo g.md = setInfo exRun)
    (hfp : (g.md.path ["propagators", "free_projection"]).truthy = false)
    (hne : fileRows startTime g ≠ []) :
    analyseEstimates blk ac startTime [f, g] =
      some ((exKey, blk ((fileRows startTime f ++ fileRows startTime g).map Row.val)),
        ac ((fileRows startTime f ++ fileRows startTime g).map fun r => r.val "ETotal")) := by
  have hrows : allRows startTime [f, g] = fileRows startTime f ++ fileRows startTime g := by
    simp [allRows]
  have hcs : groupCols [f, g] =
      ["dt", "nwalkers", "free_projection", "nbasis", "U", "nx", "ny", "nup", "ndown"] := by
    simp [groupCols, hg, exRun_info]
  rw [estimates_all blk ac startTime [f, g] exKey (by simpa [lastFp] using hfp) ?_ ?_, hrows]
  · intro r hr
    rw [hcs]
    apply exRun_key
    rw [hrows] at hr
    rcases List.mem_append.1 hr with h | h
    · rw [cols_of_fileRows startTime f r h, hf]
    · rw [cols_of_fileRows startTime g r h, hg]
  · rw [hrows]
    simp [hne]

/-- **Finding**: runs of Hubbard models that differ in the hopping are averaged as if they were runs of
the same model. -/
theorem hopping_pooled {S A : Type*} (blk : List (String → ℝ) → S) (ac : List ℝ → A) (v : Json)
    (l0 l1 l2 l3 : Line) :
    analyseEstimates blk ac 0 [⟨exRun, [l0, l1]⟩, ⟨withSys exRun "t" v, [l2, l3]⟩] =
      some ((exKey, blk [l1.val, l3.val]), ac [l1.val "ETotal", l3.val "ETotal"]) := by
  have hst : ∀ x : ℝ, startRow 0 x x false = 1 := by intro x; simp [startRow, trunc]
  have h1 : fileRows 0 ⟨exRun, [l0, l1]⟩ = [⟨setInfo exRun, l1.val⟩] := by
    simp [fileRows, startRow, trunc, sliceFrom, exRun, Json.path, Json.get, Json.truthy]
  have h2 : fileRows 0 ⟨withSys exRun "t" v, [l2, l3]⟩ =
      [⟨setInfo (withSys exRun "t" v), l3.val⟩] := by
    simp [fileRows, startRow, trunc, sliceFrom, withSys, exRun, Json.path, Json.get, Json.truthy]
  rw [two_files blk ac 0 ⟨exRun, [l0, l1]⟩ ⟨withSys exRun "t" v, [l2, l3]⟩ rfl (setInfo_blind exRun "t" v (by decide))
    (by simp [withSys, exRun, Json.path, Json.get, Json.truthy]) (by rw [h2]; simp), h1, h2]
  simp

/-! ## Rows lost -/

/-- A Generic run, with or without the name of the integral file. -/
noncomputable def exGen (ints : Json) : Json := .obj fun a =>
  if a = "qmc" then .obj fun b => if b = "dt" then .num 0.01 else if b = "nsteps" then .num 10
    else .null
  else if a = "trial" then .obj fun b => if b = "energy" then .num (-1) else .null
  else if a = "system" then .obj fun b => if b = "name" then .str "Generic"
    else if b = "nup" then .num 2 else if b = "ndown" then .num 2 else if b = "nbasis" then .num 4
    else if b = "integral_file" then ints else .null
  else .null

/-- **Finding**: the columns of the last file decide which parameters every row has to have; rows of
files without one of them are left out without notice. -/
theorem rows_lost {S A : Type*} (blk : List (String → ℝ) → S) (ac : List ℝ → A) (name : String)
    (l0 l1 l2 l3 : Line) :
    ∃ k, analyseEstimates blk ac 0
      [⟨exGen .null, [l0, l1]⟩, ⟨exGen (.str name), [l2, l3]⟩] =
        some ((k, blk [l3.val]), ac [l3.val "ETotal"]) := by
  classical
  have hi : setInfo (exGen (.str name)) = [("dt", .num 0.01), ("nbasis", .num 4), ("E_T", .num (-1)),
      ("integrals", .str name), ("nup", .num 2), ("ndown", .num 2)] := by
    simp [setInfo, systemInfo, thermalInfo, exGen, Json.path, Json.get, Json.orNum, put, putSome]
  have hi0 : setInfo (exGen .null) = [("dt", .num 0.01), ("nbasis", .num 4), ("E_T", .num (-1)),
      ("nup", .num 2), ("ndown", .num 2)] := by
    simp [setInfo, systemInfo, thermalInfo, exGen, Json.path, Json.get, Json.orNum, put, putSome]
  have h1 : ∀ j a b, fileRows 0 ⟨exGen j, [a, b]⟩ = [⟨setInfo (exGen j), b.val⟩] := by
    intro j a b
    simp [fileRows, startRow, trunc, sliceFrom, exGen, Json.path, Json.get, Json.truthy]
  have hcs : groupCols [⟨exGen .null, [l0, l1]⟩, ⟨exGen (.str name), [l2, l3]⟩] =
      ["dt", "nbasis", "integrals", "nup", "ndown"] := by
    simp [groupCols, hi]
  have hfp : lastFp [⟨exGen .null, [l0, l1]⟩, ⟨exGen (.str name), [l2, l3]⟩] = false := by
    simp [lastFp, exGen, Json.path, Json.get, Json.truthy]
  have hk0 : (⟨setInfo (exGen .null), l1.val⟩ : Row).keys ["dt", "nbasis", "integrals", "nup", "ndown"] =
      none := by
    simp [Row.keys, Row.key, hi0, List.lookup_cons]
  have hk1 : (⟨setInfo (exGen (.str name)), l3.val⟩ : Row).keys
      ["dt", "nbasis", "integrals", "nup", "ndown"] =
      some [.num 0.01, .num 4, .str name, .num 2, .num 2] := by
    simp [Row.keys, Row.key, hi, List.lookup_cons]
  refine ⟨[.num 0.01, .num 4, .str name, .num 2, .num 2], ?_⟩
  unfold analyseEstimates
  rw [hfp, hcs]
  simp only [List.flatMap_cons, List.flatMap_nil, h1, List.append_nil, List.cons_append,
    List.nil_append, Bool.false_eq_true, if_false]
  simp [groupBy, ofKey, hk0, hk1]

/-! ## Back propagation -/

/-- **Finding**: whatever the start time, only the first line is left out. -/
theorem bp_start (startTime tbp : ℝ) (hs : 0 ≤ startTime) (ht : 0 ≤ tbp) : bpStart startTime tbp = 1 := by
  have h : 0 ≤ startTime / tbp := div_nonneg hs ht
  have hf : 0 ≤ ⌊startTime / tbp⌋ := Int.floor_nonneg.2 h
  simp only [bpStart, trunc, h, if_true]
  omega

/-- The metadata of a run has no entry `estimates`, so the column `tau_bp` is never added. -/
theorem no_tau_bp (md : Json) (h : md.get "estimates" = .null) :
    "tau_bp" ∉ (setInfo md).map Prod.fst := by
  intro hc
  have key : (setInfo md).lookup "tau_bp" = none := by
    unfold setInfo
    simp only
    rw [systemInfo_other _ _ _ (by decide), thermalInfo_other _ _ _ (by decide)]
    have : md.path ["estimates", "estimates", "back_prop"] = .null := by
      show ((md.get "estimates").get "estimates").get "back_prop" = .null
      rw [h]; rfl
    rw [this]
    simp [lookup_put, lookup_putSome]
  rw [List.lookup_eq_none_iff] at key
  obtain ⟨p, hp, he⟩ := List.mem_map.1 hc
  have := key p hp
  simp [he] at this

/-- **Finding**: `analyse_back_prop` raises for every file of a run. -/
theorem bp_raises (names : List String) (md : Json) (startTime : ℝ) (col : List ℝ)
    (h : md.get "estimates" = .null) : analyseBackProp names md startTime col = none := by
  unfold analyseBackProp
  simp only
  split
  · rfl
  · rw [if_pos (no_tau_bp md h)]

/-- **Finding**: the data set it asks for is not written by the estimator. -/
theorem bp_no_energies (energy : Bool) (ix : String) : "energies" ∉ bpNames energy ix := by
  have h0 : "energies" ≠ "energies_" ++ ix := by
    intro h
    have := congrArg String.length h
    rw [String.length_append] at this
    have h9 : "energies_".length = 9 := by decide
    have h8 : "energies".length = 8 := by decide
    omega
  have h1 : "energies" ≠ "denominator_" ++ ix := by
    intro h
    have := congrArg String.length h
    rw [String.length_append] at this
    have h9 : "denominator_".length = 12 := by decide
    have h8 : "energies".length = 8 := by decide
    omega
  have h2 : "energies" ≠ "one_rdm_" ++ ix := by
    intro h
    have := congrArg String.toList h
    rw [String.toList_append] at this
    have h3 := congrArg List.head? this
    have e1 : "energies".toList = ['e', 'n', 'e', 'r', 'g', 'i', 'e', 's'] := by decide
    have e2 : "one_rdm_".toList = ['o', 'n', 'e', '_', 'r', 'd', 'm', '_'] := by decide
    rw [e1, e2] at h3
    simp at h3
  cases energy <;> simp [bpNames, h0, h1, h2]

/-! ## Energies at finite temperature -/

/-- `analyse_energy`: for every set of parameters the mean of the column over all lines after the first
of all files with these parameters, and the standard error of that mean. -/
theorem energy_group (files : List File) (c : String) (k : List Json) (m e : ℝ)
    (h : (k, m, e) ∈ analyseEnergy files c) :
    let rows := files.flatMap fun f => (f.lines.drop 1).map fun l => (⟨setInfo f.md, l.val⟩ : Row)
    let x := (ofKey (fun r : Row => r.keys (allCols files)) k rows).map fun r => r.val c
    x ≠ [] ∧ m = x.sum / x.length ∧ e = sem x := by
  unfold analyseEnergy at h
  simp only [List.mem_map, Prod.mk.injEq] at h
  obtain ⟨g, hg, rfl, rfl, rfl⟩ := h
  obtain ⟨h2, r, hr, hk⟩ := groupBy_spec _ _ g hg
  simp only
  rw [← h2]
  refine ⟨?_, rfl, rfl⟩
  intro hc
  rw [List.map_eq_nil_iff, h2] at hc
  have := (mem_ofKey (fun r : Row => r.keys (allCols files)) _ _ r).2 ⟨hr, hk⟩
  rw [hc] at this
  simp at this

end Verif.Stats
