import Verif.Input.Model

/-!
# C43, C44
-/

namespace Verif.Input

/-! ## C43 -/

theorem aliasLoop_eq {α : Type*} (inputs : List (String × Option α)) (as : List String) :
    aliasLoop inputs as none = as.findSome? (get inputs) := by
  induction as with
  | nil => rfl
  | cons a as ih =>
    rw [aliasLoop, List.findSome?_cons]
    cases h : get inputs a with
    | none => simp only [ih]
    | some v => rfl

/-- **C43**: an option present (with a value other than null) under its name wins. -/
theorem getInputValue_key {α : Type*} (inputs : List (String × Option α)) (key : String)
    (default v : α) (alts : Option (List String)) (h : get inputs key = some v) :
    getInputValue inputs key default alts = v := by
  unfold getInputValue
  rw [h]

/-- **C43**: otherwise the first alias that is present wins, whatever the later ones hold. -/
theorem getInputValue_alias {α : Type*} (inputs : List (String × Option α)) (key a : String)
    (default v : α) (pre post : List String) (h : get inputs key = none)
    (hpre : ∀ b ∈ pre, get inputs b = none) (ha : get inputs a = some v) :
    getInputValue inputs key default (some (pre ++ a :: post)) = v := by
  have hf : List.findSome? (get inputs) (pre ++ a :: post) = some v := by
    rw [List.findSome?_append, List.findSome?_eq_none_iff.mpr hpre, List.findSome?_cons, ha]
    rfl
  unfold getInputValue
  rw [h]
  simp only [aliasLoop_eq, hf]

/-- **C43**: otherwise the default. -/
theorem getInputValue_default {α : Type*} (inputs : List (String × Option α)) (key : String)
    (default : α) (alts : Option (List String)) (h : get inputs key = none)
    (ha : ∀ as, alts = some as → ∀ a ∈ as, get inputs a = none) :
    getInputValue inputs key default alts = default := by
  unfold getInputValue
  rw [h]
  cases alts with
  | none => rfl
  | some as =>
    have hf : List.findSome? (get inputs) as = none :=
      List.findSome?_eq_none_iff.mpr (ha as rfl)
    simp only [aliasLoop_eq, hf]

/-- What present means: the (unique) item of the dictionary with that key holds a value. -/
theorem get_eq_some_iff {α : Type*} (d : List (String × Option α)) (hd : (d.map Prod.fst).Nodup)
    (key : String) (v : α) : get d key = some v ↔ (key, some v) ∈ d := by
  induction d with
  | nil => simp [get]
  | cons x d ih =>
    obtain ⟨k, u⟩ := x
    rw [List.map_cons, List.nodup_cons] at hd
    rw [get]
    split_ifs with hk
    · subst hk
      constructor
      · intro h; rw [h]; simp
      · intro h
        rcases List.mem_cons.mp h with h | h
        · exact (Prod.mk.inj h).2.symm
        · exact absurd (List.mem_map_of_mem (f := Prod.fst) h) hd.1
    · rw [ih hd.2]
      constructor
      · exact fun h => List.mem_cons_of_mem _ h
      · intro h
        rcases List.mem_cons.mp h with h | h
        · exact absurd (Prod.mk.inj h).1.symm hk
        · exact h

/-- The three cases occur: name, alias behind a null, default; a false-like value is kept. -/
example : getInputValue [("a", some 0), ("b", none), ("c", some 2)] "a" 7 (some ["c"]) = 0 ∧
    getInputValue [("a", some 0), ("b", none), ("c", some 2)] "b" 7 (some ["b", "c", "a"]) = 2 ∧
    getInputValue [("a", some 0), ("b", none), ("c", some 2)] "x" 7 (some ["y", "b"]) = 7 := by
  decide

/-! ## C44 -/

variable {α : Type}

/-- What is found at a path: nothing, a dictionary (`some none`) or a leaf (`some (some a)`).
Defined without the functions of the model. -/
inductive At : Val α → List String → Option α → Prop
  | leaf (a : α) : At (.leaf a) [] (some a)
  | node (d : Dict α) : At (.node d) [] none
  | here (k : String) (v : Val α) (d : Dict α) (p : List String) (x : Option α) (h : At v p x) :
      At (.node (.cons k v d)) (k :: p) x
  | there (k k' : String) (v : Val α) (d : Dict α) (p : List String) (x : Option α) (hk : k ≠ k')
      (h : At (.node d) (k' :: p) x) : At (.node (.cons k v d)) (k' :: p) x

mutual
/-- No key occurs twice in a dictionary, at any depth (Python dictionaries guarantee this). -/
def Val.WF : Val α → Prop
  | .leaf _ => True
  | .node d => d.WF
def Dict.WF : Dict α → Prop
  | .nil => True
  | .cons k v d => v.WF ∧ d.get k = none ∧ d.WF
end

theorem at_node_cons_iff (d : Dict α) (k : String) (p : List String) (x : Option α) :
    At (.node d) (k :: p) x ↔ ∃ v, d.get k = some v ∧ At v p x := by
  match d with
  | .nil =>
    constructor
    · intro h; cases h
    · rintro ⟨v, h, _⟩; simp [Dict.get] at h
  | .cons k' v' d =>
    rw [Dict.get]
    split_ifs with hk
    · subst hk
      constructor
      · intro h
        cases h with
        | here _ _ _ _ _ h => exact ⟨v', rfl, h⟩
        | there _ _ _ _ _ _ hk _ => exact absurd rfl hk
      · rintro ⟨v, h, ha⟩
        cases h
        exact At.here _ _ _ _ _ ha
    · constructor
      · intro h
        cases h with
        | here _ _ _ _ _ h => exact absurd rfl hk
        | there _ _ _ _ _ _ _ h => exact (at_node_cons_iff d k p x).mp h
      · intro h
        exact At.there _ _ _ _ _ _ hk ((at_node_cons_iff d k p x).mpr h)

theorem at_nil_iff (v : Val α) (x : Option α) :
    At v [] x ↔ (∃ a, v = .leaf a ∧ x = some a) ∨ (∃ d, v = .node d ∧ x = none) := by
  constructor
  · intro h
    cases h with
    | leaf a => exact Or.inl ⟨a, rfl, rfl⟩
    | node d => exact Or.inr ⟨d, rfl, rfl⟩
  · rintro (⟨a, rfl, rfl⟩ | ⟨d, rfl, rfl⟩)
    · exact At.leaf a
    · exact At.node d

theorem not_at_leaf_cons (a : α) (k : String) (p : List String) (x : Option α) :
    ¬ At (.leaf a) (k :: p) x := by intro h; cases h

theorem get_set_self (d : Dict α) (k : String) (v : Val α) : (d.set k v).get k = some v := by
  match d with
  | .nil => simp [Dict.set, Dict.get]
  | .cons k' v' d =>
    rw [Dict.set]
    split_ifs with h
    · simp [Dict.get, h]
    · simp [Dict.get, h, get_set_self d k v]

theorem get_set_ne (d : Dict α) (k k' : String) (v : Val α) (h : k' ≠ k) :
    (d.set k v).get k' = d.get k' := by
  match d with
  | .nil => simp [Dict.set, Dict.get, Ne.symm h]
  | .cons j w d =>
    rw [Dict.set]
    split_ifs with hj
    · subst hj; simp [Dict.get, Ne.symm h]
    · simp only [Dict.get, get_set_ne d k k' v h]

/-- A found thing is unique. -/
theorem At.unique {v : Val α} {p : List String} {x y : Option α} (h : At v p x) (h' : At v p y) :
    x = y := by
  induction p generalizing v with
  | nil =>
    rcases (at_nil_iff v x).mp h with ⟨a, rfl, rfl⟩ | ⟨d, rfl, rfl⟩ <;>
      rcases (at_nil_iff _ y).mp h' with ⟨b, hb, rfl⟩ | ⟨e, he, rfl⟩
    · cases hb; rfl
    · cases he
    · cases hb
    · rfl
  | cons k p ih =>
    match v with
    | .leaf a => exact absurd h (not_at_leaf_cons a k p x)
    | .node d =>
      obtain ⟨w, hw, h1⟩ := (at_node_cons_iff d k p x).mp h
      obtain ⟨w', hw', h2⟩ := (at_node_cons_iff d k p y).mp h'
      rw [hw] at hw'
      cases hw'
      exact ih h1 h2

/-- The two values disagree at some path. -/
def Conflict (a b : Val α) : Prop := ∃ p x y, At a p x ∧ At b p y ∧ x ≠ y

/-- `c` holds exactly what `a` or `b` hold. -/
def Joins (a b c : Val α) : Prop := ∀ p x, At c p x ↔ At a p x ∨ At b p x

/-- The relation between arguments and result of a merge. -/
def Spec (a b : Val α) : Option (Val α) → Prop
  | some c => ¬ Conflict a b ∧ Joins a b c
  | none => Conflict a b

/-- Reduction to keys. -/
theorem conflict_node (a b : Dict α) :
    Conflict (.node a) (.node b) ↔
      ∃ k x y, a.get k = some x ∧ b.get k = some y ∧ Conflict x y := by
  constructor
  · rintro ⟨p, x, y, ha, hb, hne⟩
    match p with
    | [] =>
      rcases (at_nil_iff _ x).mp ha with ⟨_, h, _⟩ | ⟨_, _, rfl⟩
      · cases h
      · rcases (at_nil_iff _ y).mp hb with ⟨_, h, _⟩ | ⟨_, _, rfl⟩
        · cases h
        · exact absurd rfl hne
    | k :: p =>
      obtain ⟨v, hv, h1⟩ := (at_node_cons_iff a k p x).mp ha
      obtain ⟨w, hw, h2⟩ := (at_node_cons_iff b k p y).mp hb
      exact ⟨k, v, w, hv, hw, p, x, y, h1, h2, hne⟩
  · rintro ⟨k, v, w, hv, hw, p, x, y, h1, h2, hne⟩
    exact ⟨k :: p, x, y, (at_node_cons_iff a k p x).mpr ⟨v, hv, h1⟩,
      (at_node_cons_iff b k p y).mpr ⟨w, hw, h2⟩, hne⟩

theorem joins_node (a b c : Dict α)
    (h : ∀ k, match c.get k with
      | none => a.get k = none ∧ b.get k = none
      | some z => (a.get k = some z ∧ b.get k = none) ∨ (a.get k = none ∧ b.get k = some z) ∨
          ∃ x y, a.get k = some x ∧ b.get k = some y ∧ Joins x y z) :
    Joins (.node a) (.node b) (.node c) := by
  intro p x
  match p with
  | [] =>
    constructor
    · intro hc
      rcases (at_nil_iff _ x).mp hc with ⟨_, h, _⟩ | ⟨_, _, rfl⟩
      · cases h
      · exact Or.inl (At.node a)
    · rintro (ha | hb)
      · rcases (at_nil_iff _ x).mp ha with ⟨_, h, _⟩ | ⟨_, _, rfl⟩
        · cases h
        · exact At.node c
      · rcases (at_nil_iff _ x).mp hb with ⟨_, h, _⟩ | ⟨_, _, rfl⟩
        · cases h
        · exact At.node c
  | k :: p =>
    have hk := h k
    rw [at_node_cons_iff, at_node_cons_iff, at_node_cons_iff]
    cases hc : c.get k with
    | none =>
      rw [hc] at hk
      simp [hk.1, hk.2]
    | some z =>
      rw [hc] at hk
      rcases hk with ⟨h1, h2⟩ | ⟨h1, h2⟩ | ⟨u, w, h1, h2, hj⟩
      · simp [h1, h2]
      · simp [h1, h2]
      · simp only [h1, h2, Option.some.injEq, exists_eq_left']
        exact hj p x

variable [DecidableEq α]

mutual
/-- Keywise description of the merge of two dictionaries. -/
theorem mergeDicts_keys (a b : Dict α) (hb : b.WF) :
    match mergeDicts a b with
    | none => ∃ k x y, a.get k = some x ∧ b.get k = some y ∧ Conflict x y
    | some c => ∀ k,
        (∀ x y, a.get k = some x → b.get k = some y → ¬ Conflict x y) ∧
        match c.get k with
        | none => a.get k = none ∧ b.get k = none
        | some z => (a.get k = some z ∧ b.get k = none) ∨ (a.get k = none ∧ b.get k = some z) ∨
          ∃ x y, a.get k = some x ∧ b.get k = some y ∧ Joins x y z := by
  match b with
  | .nil =>
    rw [mergeDicts]
    intro k
    constructor
    · intro x y _ h; simp [Dict.get] at h
    · cases h : a.get k with
      | none => simp [Dict.get]
      | some z => simp [Dict.get]
  | .cons k v b =>
    obtain ⟨hv, hk, hb'⟩ := hb
    rw [mergeDicts]
    cases hak : a.get k with
    | none =>
      simp only
      have ih := mergeDicts_keys (a.set k v) b hb'
      cases hm : mergeDicts (a.set k v) b with
      | none =>
        rw [hm] at ih
        obtain ⟨j, x, y, h1, h2, h3⟩ := ih
        have hj : j ≠ k := by rintro rfl; rw [hk] at h2; cases h2
        rw [get_set_ne _ _ _ _ hj] at h1
        exact ⟨j, x, y, h1, by rw [Dict.get, if_neg (Ne.symm hj)]; exact h2, h3⟩
      | some c =>
        rw [hm] at ih
        intro j
        have ihj := ih j
        by_cases hj : j = k
        · subst hj
          have hc : c.get j = some v := by
            have := ihj.2
            cases hcj : c.get j with
            | none => rw [hcj] at this; rw [get_set_self] at this; cases this.1
            | some z =>
              rw [hcj, get_set_self, hk] at this
              rcases this with ⟨h1, _⟩ | ⟨h1, _⟩ | ⟨_, _, _, h1, _⟩
              · exact h1.symm
              · cases h1
              · cases h1
          rw [hc, hak]
          refine ⟨(fun x y h1 => by cases h1), Or.inr (Or.inl ⟨rfl, by rw [Dict.get, if_pos rfl]⟩)⟩
        · rw [get_set_ne _ _ _ _ hj] at ihj
          rw [Dict.get, if_neg (Ne.symm hj)]
          exact ihj
    | some x0 =>
      have ihv := mergeVals_spec x0 v hv
      simp only
      cases hmv : mergeVals x0 v with
      | none =>
        rw [hmv] at ihv
        exact ⟨k, x0, v, hak, by rw [Dict.get, if_pos rfl], ihv⟩
      | some y0 =>
        rw [hmv] at ihv
        rw [Option.bind_some]
        have ih := mergeDicts_keys (a.set k y0) b hb'
        cases hm : mergeDicts (a.set k y0) b with
        | none =>
          rw [hm] at ih
          obtain ⟨j, x, y, h1, h2, h3⟩ := ih
          have hj : j ≠ k := by rintro rfl; rw [hk] at h2; cases h2
          rw [get_set_ne _ _ _ _ hj] at h1
          exact ⟨j, x, y, h1, by rw [Dict.get, if_neg (Ne.symm hj)]; exact h2, h3⟩
        | some c =>
          rw [hm] at ih
          intro j
          have ihj := ih j
          by_cases hj : j = k
          · subst hj
            have hc : c.get j = some y0 := by
              have := ihj.2
              cases hcj : c.get j with
              | none => rw [hcj] at this; rw [get_set_self] at this; cases this.1
              | some z =>
                rw [hcj, get_set_self, hk] at this
                rcases this with ⟨h1, _⟩ | ⟨h1, _⟩ | ⟨_, _, _, h1, _⟩
                · exact h1.symm
                · cases h1
                · cases h1
            rw [Dict.get, if_pos rfl, hc]
            refine ⟨fun x y h1 h2 => ?_, Or.inr (Or.inr ⟨x0, v, hak, rfl, ihv.2⟩)⟩
            rw [hak] at h1
            cases h1
            cases h2
            exact ihv.1
          · rw [get_set_ne _ _ _ _ hj] at ihj
            rw [Dict.get, if_neg (Ne.symm hj)]
            exact ihj
  termination_by structural b
/-- The merge of two values. -/
theorem mergeVals_spec (x v : Val α) (hv : v.WF) : Spec x v (mergeVals x v) := by
  match v with
  | .leaf b =>
    match x with
    | .leaf a =>
      rw [mergeVals]
      split_ifs with h
      · subst h
        refine ⟨?_, ?_⟩
        · rintro ⟨p, x, y, h1, h2, hne⟩
          exact hne (h1.unique h2)
        · intro p x; simp
      · exact ⟨[], some a, some b, At.leaf a, At.leaf b, fun h' => h (Option.some.inj h')⟩
    | .node d =>
      rw [mergeVals]
      exact ⟨[], none, some b, At.node d, At.leaf b, by simp⟩
  | .node db =>
    match x with
    | .leaf a =>
      rw [mergeVals]
      exact ⟨[], some a, none, At.leaf a, At.node db, by simp⟩
    | .node da =>
      have ih := mergeDicts_keys da db hv
      rw [mergeVals]
      cases hm : mergeDicts da db with
      | none =>
        rw [hm] at ih
        exact (conflict_node da db).mpr ih
      | some c =>
        rw [hm] at ih
        refine ⟨?_, joins_node da db c fun k => (ih k).2⟩
        rw [conflict_node]
        rintro ⟨k, x, y, h1, h2, h3⟩
        exact (ih k).1 x y h1 h2 h3
  termination_by structural v
end

/-- **C44**: a merge fails exactly if the two dictionaries disagree at some path (different leaves, or
a leaf against a dictionary). -/
theorem mergeDicts_fails_iff (a b : Dict α) (hb : b.WF) :
    mergeDicts a b = none ↔ ∃ p x y, At (.node a) p x ∧ At (.node b) p y ∧ x ≠ y := by
  have h := mergeDicts_keys a b hb
  constructor
  · intro hm
    rw [hm] at h
    exact (conflict_node a b).mpr h
  · intro hc
    cases hm : mergeDicts a b with
    | none => rfl
    | some c =>
      rw [hm] at h
      obtain ⟨k, x, y, h1, h2, h3⟩ := (conflict_node a b).mp hc
      exact absurd h3 ((h k).1 x y h1 h2)

/-- **C44**: after a successful merge exactly the paths of either dictionary are found, with their
values; in particular no existing leaf changes. -/
theorem mergeDicts_paths (a b c : Dict α) (hb : b.WF) (hm : mergeDicts a b = some c)
    (p : List String) (x : Option α) :
    At (.node c) p x ↔ At (.node a) p x ∨ At (.node b) p x := by
  have h := mergeDicts_keys a b hb
  rw [hm] at h
  exact joins_node a b c (fun k => (h k).2) p x

omit [DecidableEq α] in
/-- **C44**: nested lookup returns the leaf at a path. -/
theorem getFromDict_leaf (null : α) (v : Val α) (p : List String) (a : α) (h : At v p (some a)) :
    getFromDict null v p = .leaf a := by
  induction p generalizing v with
  | nil =>
    rcases (at_nil_iff v _).mp h with ⟨b, rfl, hb⟩ | ⟨d, _, hd⟩
    · cases hb; rfl
    · cases hd
  | cons k p ih =>
    match v with
    | .leaf b => exact absurd h (not_at_leaf_cons b k p _)
    | .node d =>
      obtain ⟨w, hw, h1⟩ := (at_node_cons_iff d k p _).mp h
      rw [getFromDict, hw]
      exact ih w h1

omit [DecidableEq α] in
/-- **C44**: a dictionary at a path is returned as such. -/
theorem getFromDict_node (null : α) (v : Val α) (p : List String) (h : At v p none) :
    ∃ d, getFromDict null v p = .node d := by
  induction p generalizing v with
  | nil =>
    rcases (at_nil_iff v _).mp h with ⟨b, rfl, hb⟩ | ⟨d, rfl, _⟩
    · cases hb
    · exact ⟨d, rfl⟩
  | cons k p ih =>
    match v with
    | .leaf b => exact absurd h (not_at_leaf_cons b k p _)
    | .node d =>
      obtain ⟨w, hw, h1⟩ := (at_node_cons_iff d k p _).mp h
      rw [getFromDict, hw]
      exact ih w h1

omit [DecidableEq α] in
/-- **C44**: nothing at a path gives null. -/
theorem getFromDict_missing (null : α) (v : Val α) (p : List String) (h : ∀ x, ¬ At v p x) :
    getFromDict null v p = .leaf null := by
  induction p generalizing v with
  | nil =>
    match v with
    | .leaf a => exact absurd (At.leaf a) (h _)
    | .node d => exact absurd (At.node d) (h _)
  | cons k p ih =>
    match v with
    | .leaf b => rfl
    | .node d =>
      rw [getFromDict]
      cases hw : d.get k with
      | some w =>
        rw [Option.getD_some]
        exact ih w fun x hx => h x ((at_node_cons_iff d k p x).mpr ⟨w, hw, hx⟩)
      | none =>
        rw [Option.getD_none]
        cases p <;> rfl

/-- A merge that succeeds and one that fails below the first level. -/
example :
    mergeDicts (.cons "a" (.node (.cons "x" (.leaf 1) .nil)) .nil)
      (.cons "a" (.node (.cons "y" (.leaf 2) .nil)) (.cons "b" (.leaf 3) .nil)) =
    some (.cons "a" (.node (.cons "x" (.leaf 1) (.cons "y" (.leaf 2) .nil)))
      (.cons "b" (.leaf 3) .nil)) ∧
    mergeDicts (.cons "a" (.node (.cons "x" (.leaf 1) .nil)) .nil)
      (.cons "a" (.node (.cons "x" (.leaf 2) .nil)) .nil) = none := by
  constructor <;> simp [mergeDicts, mergeVals, Dict.get, Dict.set]

end Verif.Input
