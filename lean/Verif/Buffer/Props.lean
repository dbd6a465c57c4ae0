import Verif.Buffer.Model
import Mathlib.Algebra.BigOperators.Group.List.Basic
import Mathlib.Data.Rat.Floor
import Mathlib.Tactic.NormNum

/-!
# Property C10: exchange buffer round trip
-/

namespace Verif.Buffer

variable {K : Type} [Field K]

/-! ## Specification -/

/-- Two list items have the same kind, arrays with the same number of elements. -/
inductive ItemLayout : Item K → Item K → Prop
  | arr (sh sh' d d') (h : d.length = d'.length) : ItemLayout (.arr sh d) (.arr sh' d')
  | scal (s s') : ItemLayout (.scal s) (.scal s')
  | other : ItemLayout .other .other

/-- Two attributes have the same layout: same kind, arrays with the same number of elements, lists
with items of the same layout.  The types of numbers may differ. -/
inductive Layout : Attr K → Attr K → Prop
  | arr (sh sh' d d') (h : d.length = d'.length) : Layout (.arr sh d) (.arr sh' d')
  | scal (s s') : Layout (.scal s) (.scal s')
  | list (l l') (h : List.Forall₂ ItemLayout l l') : Layout (.list l) (.list l')

/-- Same value, whatever the type a number is stored with. -/
inductive ItemSame : Item K → Item K → Prop
  | arr (sh sh' d) : ItemSame (.arr sh d) (.arr sh' d)
  | scal (s s') (h : s.toCx = s'.toCx) : ItemSame (.scal s) (.scal s')
  | other : ItemSame .other .other

inductive Same : Attr K → Attr K → Prop
  | arr (sh sh' d) : Same (.arr sh d) (.arr sh' d)
  | scal (s s') (h : s.toCx = s'.toCx) : Same (.scal s) (.scal s')
  | list (l l') (h : List.Forall₂ ItemSame l l') : Same (.list l) (.list l')

/-- The number `s` can be held by a variable of the type of `old`. -/
def Fits (s old : Scal K) : Prop :=
  match old with
  | .int _ => ∃ z : Int, s.toCx = ⟨(z : K), 0⟩
  | .flt _ => s.toCx.im = 0
  | .cplx _ => True

/-- All numbers of the sender fit the types of the receiver.  (Numbers inside lists always do.) -/
def AttrFits : Attr K → Attr K → Prop
  | .scal s, .scal old => Fits s old
  | _, _ => True

/-- The receiver keeps its own shapes. -/
def SameShape : Attr K → Attr K → Prop
  | .arr sh d, .arr sh' d' => sh = sh' ∧ d.length = d'.length
  | .scal _, .scal _ => True
  | .list l, .list l' => l.length = l'.length
  | _, _ => False

/-! ## Lemmas -/

theorem getLoop_eq (ps : List (List (Cx K))) (pre rest : List (Cx K))
    (h : ps.flatten.length ≤ rest.length) :
    getLoop (pre ++ rest) pre.length ps =
      some (pre ++ ps.flatten ++ rest.drop ps.flatten.length) := by
  induction ps generalizing pre rest with
  | nil => simp [getLoop]
  | cons p ps ih =>
    simp only [List.flatten_cons, List.length_append] at h ⊢
    unfold getLoop writeAt
    rw [if_pos (by simp; omega)]
    simp only [List.take_left, List.drop_append, List.drop_eq_nil_of_le (Nat.le_add_right _ _),
      Nat.add_sub_cancel_left, List.nil_append]
    have := ih (pre ++ p) (rest.drop p.length) (by rw [List.length_drop]; omega)
    rw [List.length_append] at this
    rw [this]
    simp [List.drop_drop, List.append_assoc]

theorem flatten_pieces_length (a : Attr K) : a.pieces.flatten.length = a.size := by
  cases a with
  | arr sh d => simp [Attr.pieces, Attr.size]
  | scal s => simp [Attr.pieces, Attr.size]
  | list l =>
    simp only [Attr.pieces, Attr.size]
    induction l with
    | nil => simp
    | cons i l ih => cases i <;> simp_all [Item.size, Nat.add_comm]

theorem flatten_flatMap (as : List (Attr K)) :
    (as.flatMap Attr.pieces).flatten = as.flatMap (fun a => a.pieces.flatten) := by
  induction as with
  | nil => rfl
  | cons a as ih => simp [ih]

theorem flat_length (as : List (Attr K)) :
    (as.flatMap (fun a => a.pieces.flatten)).length = buffSize as := by
  unfold buffSize
  induction as with
  | nil => rfl
  | cons a as ih =>
    rw [List.flatMap_cons, List.length_append, ih, flatten_pieces_length, List.map_cons,
      List.sum_cons]

theorem getAttrs_eq (as : List (Attr K)) :
    getAttrs (buffSize as) as = some (as.flatMap (fun a => a.pieces.flatten)) := by
  unfold getAttrs
  have := getLoop_eq (as.flatMap Attr.pieces) [] (List.replicate (buffSize as) ⟨0, 0⟩)
    (by rw [flatten_flatMap, flat_length]; simp)
  simp only [List.nil_append, List.length_nil] at this
  rw [this, flatten_flatMap, flat_length]
  simp

theorem flatten_list (l : List (Item K)) :
    (Attr.list l).pieces.flatten = l.flatMap Item.flat := by
  simp only [Attr.pieces]
  induction l with
  | nil => rfl
  | cons i l ih => cases i <;> simp_all [Item.flat]

theorem buffSize_congr {as bs : List (Attr K)} (h : List.Forall₂ Layout as bs) :
    buffSize as = buffSize bs := by
  unfold buffSize
  induction h with
  | nil => rfl
  | cons hab _ ih =>
    simp only [List.map_cons, List.sum_cons, ih]
    congr 1
    cases hab with
    | arr _ _ _ _ h => exact h
    | scal => rfl
    | list l l' h =>
      simp only [Attr.size]
      induction h with
      | nil => rfl
      | cons hi _ ih =>
        simp only [List.map_cons, List.sum_cons, ih]
        cases hi <;> simp_all [Item.size]

theorem getElem?_of_drop {α : Type} {l : List α} {s : Nat} {z : α} {t : List α}
    (h : l.drop s = z :: t) : l[s]? = some z := by
  have : (l.drop s)[0]? = some z := by rw [h]; rfl
  rwa [List.getElem?_drop, Nat.add_zero] at this

theorem drop_next {α : Type} {l : List α} {s : Nat} {d t : List α}
    (h : l.drop s = d ++ t) : l.drop (s + d.length) = t := by
  rw [← List.drop_drop, h, List.drop_left]

variable [LinearOrder K] [IsStrictOrderedRing K] [FloorRing K]

theorem setItems_eq {ls lr : List (Item K)} (h : List.Forall₂ ItemLayout ls lr)
    (buff : List (Cx K)) (s : Nat) (tail : List (Cx K))
    (hb : buff.drop s = ls.flatMap Item.flat ++ tail) :
    ∃ lr', setItems buff s lr = some (lr', s + (ls.flatMap Item.flat).length) ∧
      List.Forall₂ ItemSame ls lr' := by
  induction h generalizing s with
  | nil => exact ⟨[], by simp [setItems], .nil⟩
  | @cons i j ls lr hij _ ih =>
    simp only [List.flatMap_cons, List.append_assoc] at hb
    cases hij with
    | arr sh sh' d d' hd =>
      simp only [Item.flat] at hb
      obtain ⟨lr', h1, h2⟩ := ih (s + d.length) (drop_next hb)
      have ht : (buff.drop s).take d'.length = d := by rw [hb, ← hd, List.take_left]
      refine ⟨.arr sh' d :: lr', ?_, .cons (.arr _ _ _) h2⟩
      simp only [setItems, ht]
      rw [if_pos hd, ← hd, h1]
      simp [Item.flat, Nat.add_assoc]
    | scal a b =>
      simp only [Item.flat] at hb
      obtain ⟨lr', h1, h2⟩ := ih (s + 1) (drop_next (d := [a.toCx]) hb)
      refine ⟨.scal (.cplx a.toCx) :: lr', ?_, .cons (.scal _ _ rfl) h2⟩
      simp only [setItems, getElem?_of_drop hb, h1]
      simp [Item.flat, Nat.add_assoc, Nat.add_comm]
    | other =>
      simp only [Item.flat, List.nil_append] at hb
      obtain ⟨lr', h1, h2⟩ := ih s hb
      refine ⟨.other :: lr', ?_, .cons .other h2⟩
      simp only [setItems, h1]
      simp [Item.flat]

theorem setItems_length (buff : List (Cx K)) (l l' : List (Item K)) (s s' : Nat)
    (h : setItems buff s l = some (l', s')) : l'.length = l.length := by
  induction l generalizing l' s s' with
  | nil => simp [setItems] at h; simp [← h.1]
  | cons i l ih =>
    cases i with
    | arr sh d =>
      simp only [setItems] at h
      split_ifs at h
      cases hr : setItems buff (s + d.length) l with
      | none => rw [hr] at h; simp at h
      | some x =>
        rw [hr] at h
        simp only [Option.some.injEq, Prod.mk.injEq] at h
        rw [← h.1, List.length_cons, ih x.1 _ x.2 hr, List.length_cons]
    | scal a =>
      simp only [setItems] at h
      cases hb : buff[s]? with
      | none => rw [hb] at h; simp at h
      | some z =>
        rw [hb] at h
        simp only at h
        cases hr : setItems buff (s + 1) l with
        | none => rw [hr] at h; simp at h
        | some x =>
          rw [hr] at h
          simp only [Option.some.injEq, Prod.mk.injEq] at h
          rw [← h.1, List.length_cons, ih x.1 _ x.2 hr, List.length_cons]
    | other =>
      simp only [setItems] at h
      cases hr : setItems buff s l with
      | none => rw [hr] at h; simp at h
      | some x =>
        rw [hr] at h
        simp only [Option.some.injEq, Prod.mk.injEq] at h
        rw [← h.1, List.length_cons, ih x.1 _ x.2 hr, List.length_cons]

theorem truncInt_intCast (z : Int) : truncInt (z : K) = z := by
  unfold truncInt
  split_ifs <;> simp

/-- A number survives the exchange exactly if it fits the receiver's type. -/
theorem recv_same_iff (s old : Scal K) :
    (old.recv s.toCx).toCx = s.toCx ↔ Fits s old := by
  cases old with
  | int z =>
    simp only [Scal.recv, Scal.toCx, Fits]
    constructor
    · intro h; exact ⟨_, h.symm⟩
    · rintro ⟨y, hy⟩
      rw [hy, truncInt_intCast]
  | flt x =>
    simp only [Scal.recv, Fits]
    show (⟨_, 0⟩ : Cx K) = _ ↔ _
    constructor
    · intro h; rw [← h]
    · intro h
      cases hs : s.toCx with
      | mk re im => rw [hs] at h; simp only at h; rw [h]
  | cplx c => simp [Scal.recv, Fits, Scal.toCx]

theorem setLoop_eq {as bs : List (Attr K)} (h : List.Forall₂ Layout as bs)
    (buff : List (Cx K)) (s : Nat) (tail : List (Cx K))
    (hb : buff.drop s = as.flatMap (fun a => a.pieces.flatten) ++ tail) :
    ∃ bs', setLoop buff s bs = some bs' ∧ List.Forall₂ SameShape bs bs' ∧
      (List.Forall₂ Same as bs' ↔ List.Forall₂ AttrFits as bs) := by
  induction h generalizing s with
  | nil => exact ⟨[], rfl, .nil, by simp⟩
  | @cons a b as bs hab _ ih =>
    simp only [List.flatMap_cons, List.append_assoc] at hb
    cases hab with
    | arr sh sh' d d' hd =>
      simp only [Attr.pieces, List.flatten_cons, List.flatten_nil, List.append_nil] at hb
      obtain ⟨bs', h1, h2, h3⟩ := ih (s + d.length) (drop_next hb)
      have ht : (buff.drop s).take d'.length = d := by rw [hb, ← hd, List.take_left]
      refine ⟨.arr sh' d :: bs', ?_, .cons ⟨rfl, hd.symm⟩ h2, ?_⟩
      · simp only [setLoop, ht]
        rw [if_pos hd, ← hd, h1]
        rfl
      · rw [List.forall₂_cons, List.forall₂_cons, h3]
        exact ⟨fun h => ⟨trivial, h.2⟩, fun h => ⟨.arr _ _ _, h.2⟩⟩
    | scal x y =>
      simp only [Attr.pieces, List.flatten_cons, List.flatten_nil, List.append_nil] at hb
      obtain ⟨bs', h1, h2, h3⟩ := ih (s + 1) (drop_next (d := [x.toCx]) hb)
      refine ⟨.scal (y.recv x.toCx) :: bs', ?_, .cons trivial h2, ?_⟩
      · simp only [setLoop, getElem?_of_drop hb, h1]
        rfl
      · rw [List.forall₂_cons, List.forall₂_cons, h3]
        refine and_congr_left (fun _ => ?_)
        show _ ↔ Fits x y
        rw [← recv_same_iff]
        exact ⟨fun h => by cases h with | scal _ _ h => exact h.symm, fun h => .scal _ _ h.symm⟩
    | list l l' hl =>
      rw [flatten_list] at hb
      obtain ⟨l'', h4, h5⟩ := setItems_eq hl buff s _ hb
      obtain ⟨bs', h1, h2, h3⟩ := ih (s + (l.flatMap Item.flat).length) (drop_next hb)
      refine ⟨.list l'' :: bs', ?_, .cons (setItems_length _ _ _ _ _ h4).symm h2, ?_⟩
      · simp only [setLoop, h4, h1]
        rfl
      · rw [List.forall₂_cons, List.forall₂_cons, h3]
        exact ⟨fun h => ⟨trivial, h.2⟩, fun h => ⟨.list _ _ h5, h.2⟩⟩

/-! ## The property -/

/-- Sender and receiver were built alike: same attributes with the same layout, `buff_size` as
computed by `get_numeric_names` at construction, and alike sub-objects (field history or stack). -/
structure Alike (a b : Obj K) : Prop where
  attrs : List.Forall₂ Layout a.attrs b.attrs
  size : a.size = buffSize a.attrs ∧ b.size = buffSize b.attrs
  sub : match a.sub, b.sub with
    | none, none => True
    | some (x, n), some (y, m) => List.Forall₂ Layout x y ∧ n = buffSize x ∧ m = buffSize y
    | _, _ => False

/-- All attributes, including those of the sub-object, in order. -/
def Obj.all (o : Obj K) : List (Attr K) :=
  o.attrs ++ (match o.sub with | none => [] | some (x, _) => x)

/-- C10.  For objects built alike, serialising one never fails, the buffer has the size announced
for communication, and loading it into the other never fails and keeps the receiver's shapes.
Afterwards every attribute of the receiver has the sender's value if and only if every number of
the sender fits the type the receiver's variable had (in particular if the types agree, see
`buffer_round_trip_same_types`). -/
theorem buffer_round_trip (a b : Obj K) (h : Alike a b) :
    ∃ buff b', a.get = some buff ∧
      buff.length = b.size + (match b.sub with | none => 0 | some (_, m) => m) ∧
      b.set buff = some b' ∧
      List.Forall₂ SameShape b.all b'.all ∧
      (List.Forall₂ Same a.all b'.all ↔ List.Forall₂ AttrFits a.all b.all) := by
  obtain ⟨aa, an, asub⟩ := a
  obtain ⟨ba, bn, bsub⟩ := b
  obtain ⟨h1, ⟨h2, h3⟩, h4⟩ := h
  simp only at h1 h2 h3 h4
  subst h2 h3
  cases asub with
  | none =>
    cases bsub with
    | some y => obtain ⟨y, m⟩ := y; exact h4.elim
    | none =>
      obtain ⟨bs', g1, g2, g3⟩ := setLoop_eq h1 (aa.flatMap (fun a => a.pieces.flatten)) 0 []
        (by simp)
      refine ⟨aa.flatMap (fun a => a.pieces.flatten), ⟨bs', buffSize ba, none⟩, ?_, ?_, ?_, ?_, ?_⟩
      · simp only [Obj.get, getAttrs_eq]
      · rw [flat_length, buffSize_congr h1]; rfl
      · simp only [Obj.set, g1]
      · simpa [Obj.all] using g2
      · simpa [Obj.all] using g3
  | some x =>
    obtain ⟨x, n⟩ := x
    cases bsub with
    | none => exact h4.elim
    | some y =>
      obtain ⟨y, m⟩ := y
      obtain ⟨k1, k2, k3⟩ := h4
      subst k2 k3
      obtain ⟨bs', g1, g2, g3⟩ := setLoop_eq h1 (aa.flatMap (fun a => a.pieces.flatten) ++
        x.flatMap (fun a => a.pieces.flatten)) 0 (x.flatMap (fun a => a.pieces.flatten)) rfl
      obtain ⟨fs', f1, f2, f3⟩ := setLoop_eq k1 (x.flatMap (fun a => a.pieces.flatten)) 0 []
        (by simp)
      refine ⟨aa.flatMap (fun a => a.pieces.flatten) ++ x.flatMap (fun a => a.pieces.flatten),
        ⟨bs', buffSize ba, some (fs', buffSize y)⟩, ?_, ?_, ?_, ?_, ?_⟩
      · simp only [Obj.get, getAttrs_eq, Option.map_some]
      · rw [List.length_append, flat_length, flat_length, buffSize_congr h1, buffSize_congr k1]
      · simp only [Obj.set, g1]
        rw [show buffSize ba = (aa.flatMap (fun a => a.pieces.flatten)).length by
          rw [flat_length, buffSize_congr h1], List.drop_left, f1]
        rfl
      · exact List.rel_append g2 f2
      · have l1 : aa.length = ba.length := h1.length_eq
        have l2 : ba.length = bs'.length := g2.length_eq
        have split : ∀ {R : Attr K → Attr K → Prop} {u v u' v' : List (Attr K)},
            u.length = v.length →
            (List.Forall₂ R (u ++ u') (v ++ v') ↔ List.Forall₂ R u v ∧ List.Forall₂ R u' v') := by
          intro R u v u' v' hl
          constructor
          · intro hh
            have t := List.forall₂_take u.length hh
            have d := List.forall₂_drop u.length hh
            rw [List.take_left, hl, List.take_left] at t
            rw [List.drop_left, hl, List.drop_left] at d
            exact ⟨t, d⟩
          · intro hh; exact List.rel_append hh.1 hh.2
        show List.Forall₂ Same (aa ++ x) (bs' ++ fs') ↔ List.Forall₂ AttrFits (aa ++ x) (ba ++ y)
        rw [split (l1.trans l2), split l1, g3, f3]

/-- Same type of number. -/
def SameType : Attr K → Attr K → Prop
  | .scal (.int _), .scal (.int _) => True
  | .scal (.flt _), .scal (.flt _) => True
  | .scal (.cplx _), .scal (.cplx _) => True
  | .scal _, .scal _ => False
  | _, _ => True

/-- C10 as stated: with the same attribute types, the receiver ends with the sender's values. -/
theorem buffer_round_trip_same_types (a b : Obj K) (h : Alike a b)
    (ht : List.Forall₂ SameType a.all b.all) :
    ∃ buff b', a.get = some buff ∧ b.set buff = some b' ∧ List.Forall₂ Same a.all b'.all := by
  obtain ⟨buff, b', h1, _, h2, _, h3⟩ := buffer_round_trip a b h
  refine ⟨buff, b', h1, h2, h3.2 ?_⟩
  apply ht.imp
  intro x y hxy
  match x, y with
  | .scal (.int z), .scal (.int _) => exact ⟨z, rfl⟩
  | .scal (.flt _), .scal (.flt _) => exact rfl
  | .scal (.cplx _), .scal (.cplx _) => exact trivial
  | .arr .., _ => exact trivial
  | .list .., _ => exact trivial
  | .scal _, .arr .. => exact trivial
  | .scal _, .list .. => exact trivial

/-- Non-vacuity: a walker with weight, wavefunction, counter, a list attribute and a field
history, and another one with other values. -/
example : Alike
    (⟨[.scal (.flt 2), .arr [1, 2] [⟨1, 2⟩, ⟨3, 4⟩], .scal (.int 3), .list [.scal (.flt 1), .other]],
      5, some ([.scal (.cplx ⟨1, 1⟩)], 1)⟩ : Obj ℚ)
    ⟨[.scal (.flt 1), .arr [1, 2] [⟨0, 0⟩, ⟨0, 0⟩], .scal (.int 0), .list [.scal (.flt 7), .other]],
      5, some ([.scal (.cplx ⟨0, 0⟩)], 1)⟩ := by
  refine ⟨?_, ⟨rfl, rfl⟩, ?_, rfl, rfl⟩
  · exact .cons (.scal _ _) (.cons (.arr _ _ _ _ rfl) (.cons (.scal _ _)
      (.cons (.list _ _ (.cons (.scal _ _) (.cons .other .nil))) .nil)))
  · exact .cons (.scal _ _) .nil

end Verif.Buffer
