import Verif.Meta.Model

/-!
# What can be read back from the metadata: C130
-/

namespace Verif.Meta

open Verif.Stats

/-- Keys that `serialise` treats in a special way unless they hold an object or a dictionary. -/
def special : List String := ["estimates", "global_estimates", "walkers", "store"]

/-- The object or dictionary in a value. -/
def Py.fields : Py → Option Fields
  | .obj f => some f
  | .dict f => some f
  | _ => none

/-- The value at the end of a path through objects and dictionaries: `run.a.b['c']`. -/
def attr : Fields → List String → Option Py
  | _, [] => none
  | f, [k] => f.find k
  | f, k :: ks => (f.find k).bind fun v => v.fields.bind fun g => attr g ks

mutual
/-- Every key occurs once, as in Python dictionaries. -/
def Py.Distinct : Py → Prop
  | .obj f => f.Distinct
  | .dict f => f.Distinct
  | _ => True
def Fields.Distinct : Fields → Prop
  | .nil => True
  | .cons k v r => r.find k = none ∧ v.Distinct ∧ r.Distinct
end

variable (show' : ℝ → String) (text : Py → String)

theorem find_add (k k' : String) (j : Option J) (l : JF) : (JF.add k j l).find k' = if k = k' then (match j with | some j => some j | none => l.find k') else l.find k' := by
  cases j with
  | none => simp [JF.add]
  | some j => simp [JF.add, JF.find]

theorem serialise_cons {vb : Nat} {k : String} {v : Py} {r : Fields} {l : JF} (h : serialise show' text vb (.cons k v r) = some l) :
    ∃ j l', entry show' text vb k v = some j ∧ serialise show' text vb r = some l' ∧ l = JF.add k j l' := by
  rw [serialise] at h
  cases h1 : entry show' text vb k v with
  | none => simp [h1] at h
  | some j =>
    cases h2 : serialise show' text vb r with
    | none => simp [h1, h2] at h
    | some l' =>
      simp only [h1, h2, Option.some.injEq] at h
      exact ⟨j, l', rfl, rfl, h.symm⟩

/-- What stands in the metadata under a key is what is recorded for the attribute of that name. -/
theorem find_serialise (k : String) : ∀ (vb : Nat) (f : Fields) (l : JF), f.Distinct → serialise show' text vb f = some l →
    l.find k = (f.find k).bind fun v => (entry show' text vb k v).join
  | vb, .nil, l, _, h => by
    rw [serialise, Option.some.injEq] at h
    rw [← h]
    rfl
  | vb, .cons k' v r, l, hd, h => by
    obtain ⟨j, l', h1, h2, rfl⟩ := serialise_cons show' text h
    rw [Fields.Distinct] at hd
    have ih := find_serialise k vb r l' hd.2.2 h2
    rw [find_add, ih, Fields.find]
    by_cases hk : k' = k
    · subst hk
      simp only [if_true]
      cases j <;> simp [h1, hd.1]
    · simp [hk]

theorem load_find (k : String) : ∀ l : JF, l.load k = match l.find k with
    | some j => j.load
    | none => .null
  | .nil => rfl
  | .cons k' v r => by
    rw [JF.load, JF.find]
    split_ifs
    · rfl
    · exact load_find k r

theorem find_distinct {k : String} {v : Py} : ∀ {f : Fields}, f.Distinct → f.find k = some v → v.Distinct
  | .nil, _, h => by simp [Fields.find] at h
  | .cons k' w r, hd, h => by
    rw [Fields.Distinct] at hd
    rw [Fields.find] at h
    split_ifs at h
    · rw [← Option.some.inj h]; exact hd.2.1
    · exact find_distinct hd.2.2 h

theorem entry_of_find {k : String} {v : Py} {vb : Nat} : ∀ {f : Fields} {l : JF}, serialise show' text vb f = some l → f.find k = some v →
    ∃ j, entry show' text vb k v = some j
  | .nil, _, _, h => by simp [Fields.find] at h
  | .cons k' w r, l, hs, h => by
    obtain ⟨j, l', h1, h2, -⟩ := serialise_cons show' text hs
    rw [Fields.find] at h
    split_ifs at h with hk
    · rw [← Option.some.inj h, ← hk]; exact ⟨j, h1⟩
    · exact entry_of_find h2 h

theorem path_null : ∀ ks : List String, Json.path .null ks = .null
  | [] => rfl
  | k :: ks => by
    rw [Json.path, List.foldl_cons]
    exact path_null ks

theorem entry_fields {vb : Nat} {k : String} {v : Py} {g : Fields} (h : v.fields = some g) :
    ∃ vb', entry show' text vb k v = (serialise show' text vb' g).map fun l => some (.obj l) := by
  cases v with
  | obj f => rw [Py.fields, Option.some.injEq] at h; subst h; exact ⟨vb, by rw [entry]⟩
  | dict f => rw [Py.fields, Option.some.injEq] at h; subst h; exact ⟨0, by rw [entry]⟩
  | _ => simp [Py.fields] at h

theorem distinct_fields {v : Py} {g : Fields} (h : v.fields = some g) (hd : v.Distinct) : g.Distinct := by
  cases v with
  | obj f => rw [Py.fields, Option.some.injEq] at h; subst h; rwa [Py.Distinct] at hd
  | dict f => rw [Py.fields, Option.some.injEq] at h; subst h; rwa [Py.Distinct] at hd
  | _ => simp [Py.fields] at h

/-- The last key of a path. -/
def lastKey (ks : List String) : String := ks.getLast?.getD ""

/-- What stands in the metadata at the end of a path is what is recorded for the value of the run there, at some verbosity. -/
theorem path_entry : ∀ (ks : List String) (vb : Nat) (run : Fields) (v : Py), run.Distinct → ∀ l, serialise show' text vb run = some l → attr run ks = some v →
    ∃ vb', (Json.obj l.load).path ks = match (entry show' text vb' (lastKey ks) v).join with
      | some j => j.load
      | none => .null
  | [], _, _, _, _, _, _, h => by simp [attr] at h
  | [k], vb, run, v, hd, l, hs, h => by
    rw [attr] at h
    refine ⟨vb, ?_⟩
    show l.load k = _
    rw [load_find, find_serialise show' text k vb run l hd hs, h]
    rfl
  | k :: k2 :: ks, vb, run, v, hd, l, hs, h => by
    rw [attr] at h
    · cases hf : run.find k with
      | none => simp [hf] at h
      | some w =>
        cases hg : w.fields with
        | none => simp [hf, hg] at h
        | some g =>
          simp only [hf, hg, Option.bind_some] at h
          obtain ⟨j, hj⟩ := entry_of_find show' text hs hf
          obtain ⟨vb2, he⟩ := entry_fields show' text (vb := vb) (k := k) hg
          cases hs2 : serialise show' text vb2 g with
          | none => rw [hs2] at he; rw [he] at hj; simp at hj
          | some l2 =>
            rw [hs2] at he
            obtain ⟨vb', h'⟩ := path_entry (k2 :: ks) vb2 g v (distinct_fields hg (find_distinct hd hf)) l2 hs2 h
            refine ⟨vb', ?_⟩
            have e : (Json.obj l.load).path (k :: k2 :: ks) = (Json.obj l2.load).path (k2 :: ks) := by
              rw [Json.path, List.foldl_cons]
              have : (Json.obj l.load).get k = Json.obj l2.load := by
                show l.load k = _
                rw [load_find, find_serialise show' text k vb run l hd hs, hf]
                simp [he, J.load]
              rw [this]
              rfl
            rw [e, h']
            simp [lastKey]
    · simp

/-- Numbers, truth values, strings and `None` as they should be read back. -/
def scalar : Py → Option Json
  | .int z => some (.num z)
  | .float x => some (.num x)
  | .bool b => some (.bool b)
  | .str s => some (.str s)
  | .null => some .null
  | _ => none

theorem entry_scalar {vb : Nat} {k : String} (hk : k ∉ special) {v : Py} {x : Json} (h : scalar v = some x) :
    ∃ j, entry show' text vb k v = some (some j) ∧ j.load = x := by
  simp only [special, List.mem_cons, List.not_mem_nil, or_false, not_or] at hk
  obtain ⟨h1, h2, h3, h4⟩ := hk
  cases v <;> simp [scalar] at h <;> subst h <;> simp [entry, leaf, h1, h2, h3, h4, J.load]

/-- **C130** Every Python number, truth value, string or `None` of the run is read back from the metadata, under the names of the objects and dictionaries that hold
it, whatever the verbosity, unless its name is one of four. -/
theorem param_read_back {vb : Nat} {run : Fields} (hd : run.Distinct) {md : Json} (hm : metadata show' text vb run = some md) {ks : List String} {v : Py} {x : Json}
    (hv : attr run ks = some v) (hk : lastKey ks ∉ special) (hx : scalar v = some x) : md.path ks = x := by
  rw [metadata, Option.map_eq_some_iff] at hm
  obtain ⟨l, hl, rfl⟩ := hm
  obtain ⟨vb', h⟩ := path_entry show' text ks vb run v hd l hl hv
  obtain ⟨j, hj, hx'⟩ := entry_scalar show' text (vb := vb') hk hx
  rw [h, hj]
  exact hx'

/-- **C130** (finding) Of a complex number only the real part is read back. -/
theorem complex_real {vb : Nat} {run : Fields} (hd : run.Distinct) {md : Json} (hm : metadata show' text vb run = some md) {ks : List String} {a b : ℝ}
    (hv : attr run ks = some (.cplx a b)) (hk : lastKey ks ∉ special) : md.path ks = .num a := by
  rw [metadata, Option.map_eq_some_iff] at hm
  obtain ⟨l, hl, rfl⟩ := hm
  obtain ⟨vb', h⟩ := path_entry show' text ks vb run _ hd l hl hv
  simp only [special, List.mem_cons, List.not_mem_nil, or_false, not_or] at hk
  obtain ⟨h1, h2, h3, h4⟩ := hk
  rw [h]
  simp [entry, leaf, h1, h2, h3, h4, J.load]

/-- Values that are left out: integers and truth values of numpy, lists and tuples. -/
def dropped : Py → Bool
  | .npInt _ => true
  | .npBool _ => true
  | .seq _ => true
  | .other => true
  | _ => false

/-- **C130** (finding) Integers and truth values of numpy, lists and tuples are left out without notice: they are read back as if they had not been set. -/
theorem numpy_lost {vb : Nat} {run : Fields} (hd : run.Distinct) {md : Json} (hm : metadata show' text vb run = some md) {ks : List String} {v : Py}
    (hv : attr run ks = some v) (hk : lastKey ks ∉ special) (hx : dropped v = true) : md.path ks = .null := by
  rw [metadata, Option.map_eq_some_iff] at hm
  obtain ⟨l, hl, rfl⟩ := hm
  obtain ⟨vb', h⟩ := path_entry show' text ks vb run v hd l hl hv
  simp only [special, List.mem_cons, List.not_mem_nil, or_false, not_or] at hk
  obtain ⟨h1, h2, h3, h4⟩ := hk
  rw [h]
  cases v <;> simp [dropped] at hx <;> simp [entry, leaf, h1, h2, h3, h4]

/-- **C130** Nothing is made up: a name that the run does not have is not in the metadata. -/
theorem nothing_invented {vb : Nat} {run : Fields} (hd : run.Distinct) {md : Json} (hm : metadata show' text vb run = some md) {k : String} (ks : List String)
    (hv : run.find k = none) : md.path (k :: ks) = .null := by
  rw [metadata, Option.map_eq_some_iff] at hm
  obtain ⟨l, hl, rfl⟩ := hm
  have : (Json.obj l.load).get k = .null := by
    show l.load k = _
    rw [load_find, find_serialise show' text k vb run l hd hl, hv]
    rfl
  rw [Json.path, List.foldl_cons, this]
  exact path_null ks

/-! ## When writing raises -/

/-- The values that writing comes to, with the verbosity used for them. -/
inductive Reach : Nat → Fields → Nat → String → Py → Prop
  | here {vb k v r} : Reach vb (.cons k v r) vb k v
  | later {vb k v r vb' k' v'} : Reach vb r vb' k' v' → Reach vb (.cons k v r) vb' k' v'
  | inObj {vb k f r vb' k' v'} : Reach vb f vb' k' v' → Reach vb (.cons k (.obj f) r) vb' k' v'
  | inDict {vb k f r vb' k' v'} : Reach 0 f vb' k' v' → Reach vb (.cons k (.dict f) r) vb' k' v'

/-- Values whose first item is asked for although there is none. -/
def Bad (vb : Nat) (k : String) : Py → Prop
  | .obj _ | .dict _ | .sparse | .func _ => False
  | .arr _ re _ => k ∉ ["estimates", "global_estimates"] ∧ re = [] ∧ (k = "walkers" ∨ vb ≠ 3)
  | .seq l => k = "walkers" ∧ l = []
  | .str s => k = "walkers" ∧ s.toList = []
  | _ => k = "walkers"

theorem leaf_none (vb : Nat) (k : String) (v : Py) (hv : v.fields = none) : entry show' text vb k v = none ↔ Bad vb k v := by
  by_cases h1 : k = "estimates"
  · subst h1
    cases v <;> simp [Py.fields] at hv <;> simp [entry, leaf, Bad]
  by_cases h2 : k = "global_estimates"
  · subst h2
    cases v <;> simp [Py.fields] at hv <;> simp [entry, leaf, Bad]
  by_cases h3 : k = "walkers"
  · subst h3
    cases v <;> simp [Py.fields] at hv <;> simp [entry, leaf, Bad, first]
  cases v <;> simp [Py.fields] at hv
  case arr c re im =>
    simp only [entry, leaf, h1, h2, h3, Bad, or_self, if_false, array]
    by_cases h4 : vb = 3
    · simp [h4]
    · by_cases h5 : re = []
      · simp [h4, h5, h1, h2]
      · simp only [h4, h5, if_false]
        by_cases h6 : vb = 2
        · simp [h6]
        · simp only [h6, if_false]
          split_ifs <;> simp
  all_goals simp [entry, leaf, h1, h2, h3, Bad]
  all_goals (by_cases h4 : k = "store" <;> simp [h4])

/-- **C130** Writing the metadata, and with it the run, raises exactly if somewhere in the objects of the run there is a one-dimensional array without
elements, or something without a first item is called `walkers`. -/
theorem raises_iff : ∀ (f : Fields) (vb : Nat), serialise show' text vb f = none ↔ ∃ vb' k v, Reach vb f vb' k v ∧ Bad vb' k v
  | .nil, vb => by
    rw [serialise]
    simp only [reduceCtorEq, false_iff, not_exists]
    rintro vb' k v ⟨h, -⟩
    cases h
  | .cons k v r, vb => by
    have ihr := raises_iff r vb
    have hc : serialise show' text vb (.cons k v r) = none ↔ entry show' text vb k v = none ∨ serialise show' text vb r = none := by
      rw [serialise]
      cases entry show' text vb k v <;> cases serialise show' text vb r <;> simp
    rw [hc, ihr]
    have key : (∃ vb' k' v', Reach vb (.cons k v r) vb' k' v' ∧ Bad vb' k' v') ↔
        (Bad vb k v ∨ (∃ vb' k' v' f, (v = .obj f ∧ Reach vb f vb' k' v' ∨ v = .dict f ∧ Reach 0 f vb' k' v') ∧ Bad vb' k' v')) ∨
          ∃ vb' k' v', Reach vb r vb' k' v' ∧ Bad vb' k' v' := by
      constructor
      · rintro ⟨vb', k', v', h, hb⟩
        cases h with
        | here => exact Or.inl (Or.inl hb)
        | later h => exact Or.inr ⟨_, _, _, h, hb⟩
        | inObj h => exact Or.inl (Or.inr ⟨_, _, _, _, Or.inl ⟨rfl, h⟩, hb⟩)
        | inDict h => exact Or.inl (Or.inr ⟨_, _, _, _, Or.inr ⟨rfl, h⟩, hb⟩)
      · rintro ((hb | ⟨vb', k', v', f, ⟨rfl, h⟩ | ⟨rfl, h⟩, hb⟩) | ⟨vb', k', v', h, hb⟩)
        · exact ⟨_, _, _, .here, hb⟩
        · exact ⟨_, _, _, .inObj h, hb⟩
        · exact ⟨_, _, _, .inDict h, hb⟩
        · exact ⟨_, _, _, .later h, hb⟩
    rw [key]
    refine or_congr ?_ Iff.rfl
    match v, ihr with
    | .obj f, _ =>
      rw [entry, Option.map_eq_none_iff, raises_iff f vb]
      simp [Bad]
    | .dict f, _ =>
      rw [entry, Option.map_eq_none_iff, raises_iff f 0]
      simp [Bad]
    | .int _, _ | .float _, _ | .bool _, _ | .str _, _ | .null, _ | .cplx _ _, _ | .npInt _, _ | .npBool _, _ | .seq _, _ | .arr _ _ _, _ | .grid, _ | .func _, _ | .sparse, _
    | .h5 _, _ | .other, _ =>
      rw [leaf_none _ _ _ _ _ rfl]
      simp

end Verif.Meta
