import Verif.FieldHistory.Model
import Verif.Buffer.Props
import Mathlib.Tactic.Ring

/-!
# Properties C11, C13, C14: field history and back-propagation windows
-/

namespace Verif.FieldHistory

open Verif.Buffer

/-! ## Specification: a bounded list -/

open Classical in
/-- Ratio of weight factor to cosine factor, zero if the latter is negligible. -/
noncomputable def Entry.ratio (e : Entry) : ℂ := if ‖e.w1‖ > 1e-16 then e.w0 / e.w1 else 0

/-- `hist`: entries since the window was last emptied; `ratios`: ratios since the last reset. -/
structure Spec where
  hist : List Entry
  ratios : List ℂ

/-- A window of `n` entries of `nf` fields: an update appends and fails if the window is full; a
reset empties a full window. -/
noncomputable def Spec.apply (n nf : Nat) (s : Spec) : Op → Option Spec
  | .update e => if s.hist.length < n ∧ e.config.length = nf
      then some ⟨s.hist ++ [e], s.ratios ++ [e.ratio]⟩ else none
  | .reset => some ⟨if s.hist.length = n then [] else s.hist, []⟩

noncomputable def Spec.run (n nf : Nat) (s : Spec) : List Op → Option Spec
  | [] => some s
  | o :: os => match s.apply n nf o with
    | none => none
    | some s' => s'.run n nf os

/-- What a user can read from a history. -/
structure Reads (c : FC) (s : Spec) : Prop where
  block : c.getBlock = (s.hist.map (·.config), s.hist.map (fun e => ((e.w1.re : ℝ) : ℂ)),
    s.hist.map (·.w0))
  wfac : c.getWfac = ((s.hist.map (fun e => ((e.w1.re : ℝ) : ℂ))).prod, (s.hist.map (·.w0)).prod)
  tot : ofPair c.totWfac.toCx = s.ratios.prod

/-! ## Refinement -/

structure Rel (n nf nbp : Nat) (c : FC) (s : Spec) : Prop where
  hn : c.npropTot = n
  hnf : c.nfields = nf
  hnbp : c.nbp = nbp
  hnblock : c.nblock = n / nbp
  step : c.step = s.hist.length
  le : s.hist.length ≤ n
  l1 : c.configs.length = n
  l2 : c.cosFac.length = n
  l3 : c.weightFac.length = n
  width : ∀ r ∈ c.configs, r.length = nf
  t1 : c.configs.take c.step = s.hist.map (·.config)
  t2 : c.cosFac.take c.step = s.hist.map (fun e => ((e.w1.re : ℝ) : ℂ))
  t3 : c.weightFac.take c.step = s.hist.map (·.w0)
  tot : ofPair c.totWfac.toCx = s.ratios.prod

theorem take_succ_set {α : Type} (l : List α) (i : Nat) (x : α) (h : i < l.length) :
    (l.set i x).take (i + 1) = l.take i ++ [x] := by
  rw [List.take_add_one, List.take_set_of_le (by omega)]
  simp [h]

theorem ofPair_toPair (z : ℂ) : ofPair (toPair z) = z := rfl

theorem newWfac_val (t : Scal ℝ) (e : Entry) :
    ofPair (newWfac t e.w0 e.w1).toCx = ofPair t.toCx * e.ratio := by
  unfold newWfac Entry.ratio
  split_ifs with h
  · simp [Scal.toCx, ofPair_toPair]
  · simp [Scal.toCx, ofPair, Complex.ext_iff]

theorem make_rel (nf n nbp : Nat) (h : 0 < nbp) :
    ∃ c, FC.make nf n nbp = some c ∧ Rel n nf nbp c ⟨[], []⟩ := by
  refine ⟨_, if_neg (by omega), ?_⟩
  constructor <;> simp [Scal.toCx, ofPair_toPair]

theorem apply_rel {n nf nbp : Nat} (hn : 0 < n) (hb : 0 < nbp) {c : FC} {s : Spec}
    (h : Rel n nf nbp c s) (o : Op) :
    match c.apply o, s.apply n nf o with
    | none, none => True
    | some c', some s' => Rel n nf nbp c' s'
    | _, _ => False := by
  cases o with
  | reset =>
    simp only [FC.apply, FC.reset, Spec.apply]
    rw [if_neg (by rw [h.hn]; omega)]
    simp only
    by_cases hfull : s.hist.length = n
    · rw [if_pos hfull]
      constructor <;> simp [h.hn, h.hnf, h.hnbp, h.hnblock, h.l1, h.l2, h.l3, h.step, hfull,
        Scal.toCx, ofPair_toPair]
      exact h.width
    · rw [if_neg hfull]
      have hlt : s.hist.length < n := lt_of_le_of_ne h.le hfull
      have hmod : (if c.step % c.npropTot = 0 then 0 else c.step) = c.step := by
        rw [h.hn, h.step, Nat.mod_eq_of_lt hlt]
        split_ifs with h0
        · exact h0.symm
        · rfl
      rw [hmod]
      exact { h with tot := by simp [Scal.toCx, ofPair_toPair] }
  | update e =>
    simp only [FC.apply, FC.update, Spec.apply]
    rw [h.step, h.hn, h.hnf]
    by_cases hc : s.hist.length < n ∧ e.config.length = nf
    · rw [if_pos hc, if_pos hc]
      have key : ∀ b : Int, Rel n nf nbp
          ⟨c.configs.set s.hist.length e.config, c.cosFac.set s.hist.length ((e.w1.re : ℝ) : ℂ),
            c.weightFac.set s.hist.length e.w0, newWfac c.totWfac e.w0 e.w1,
            s.hist.length + 1, b, c.ib, nf, c.nbp, n, c.nblock⟩
          ⟨s.hist ++ [e], s.ratios ++ [e.ratio]⟩ := by
        intro b
        refine ⟨rfl, rfl, h.hnbp, h.hnblock, by simp, by simp; omega, by simp [h.l1],
          by simp [h.l2], by simp [h.l3], ?_, ?_, ?_, ?_, ?_⟩
        · intro r hr
          rcases List.mem_or_eq_of_mem_set hr with hr | rfl
          · exact h.width r hr
          · exact hc.2
        · simp only
          rw [take_succ_set _ _ _ (by rw [h.l1]; exact hc.1), ← h.step, h.t1]; simp
        · simp only
          rw [take_succ_set _ _ _ (by rw [h.l2]; exact hc.1), ← h.step, h.t2]; simp
        · simp only
          rw [take_succ_set _ _ _ (by rw [h.l3]; exact hc.1), ← h.step, h.t3]; simp
        · simp only
          rw [newWfac_val, h.tot]; simp
      unfold FC.advance
      simp only [h.step]
      split_ifs with h1 h2
      · exfalso
        rw [h.hnblock] at h2
        have : nbp ≤ s.hist.length + 1 := Nat.le_of_dvd (by omega)
          (by rw [← h.hnbp]; exact Nat.dvd_of_mod_eq_zero h1)
        have := Nat.div_pos (show nbp ≤ n by omega) hb
        omega
      · exact key _
      · exact key _
    · rw [if_neg hc, if_neg hc]
      trivial

theorem run_rel {n nf nbp : Nat} (hn : 0 < n) (hb : 0 < nbp) (os : List Op) {c : FC} {s : Spec}
    (h : Rel n nf nbp c s) :
    match c.run os, s.run n nf os with
    | none, none => True
    | some c', some s' => Rel n nf nbp c' s'
    | _, _ => False := by
  induction os generalizing c s with
  | nil => exact h
  | cons o os ih =>
    have := apply_rel hn hb h o
    simp only [FC.run, Spec.run]
    cases h1 : c.apply o with
    | none =>
      rw [h1] at this
      cases h2 : s.apply n nf o with
      | none => trivial
      | some s' => rw [h2] at this; exact this.elim
    | some c' =>
      rw [h1] at this
      cases h2 : s.apply n nf o with
      | none => rw [h2] at this; exact this.elim
      | some s' => rw [h2] at this; exact ih this

/-- C13.  From the construction on, under every sequence of updates and resets, the history behaves
like the bounded list of the specification: it fails exactly when that fails (update of a full
window), and otherwise the block read is the list of entries of the current window in order, with
their weight and cosine factors, and the accumulated factor is the product of the ratios. -/
theorem history_refines (nf n nbp : Nat) (hn : 0 < n) (hb : 0 < nbp) (os : List Op) :
    ∃ c0, FC.make nf n nbp = some c0 ∧
      match c0.run os, (⟨[], []⟩ : Spec).run n nf os with
      | none, none => True
      | some c, some s => Reads c s
      | _, _ => False := by
  obtain ⟨c0, h0, h1⟩ := make_rel nf n nbp hb
  refine ⟨c0, h0, ?_⟩
  have := run_rel hn hb os h1
  cases h2 : c0.run os with
  | none =>
    cases h3 : (⟨[], []⟩ : Spec).run n nf os with
    | none => trivial
    | some s => rw [h2, h3] at this; exact this.elim
  | some c =>
    cases h3 : (⟨[], []⟩ : Spec).run n nf os with
    | none => rw [h2, h3] at this; exact this
    | some s =>
      rw [h2, h3] at this
      simp only at this ⊢
      refine ⟨?_, ?_, this.tot⟩
      · unfold FC.getBlock; rw [this.t1, this.t2, this.t3]
      · unfold FC.getWfac; rw [this.t2, this.t3]

theorem spec_updates (n nf : Nat) (es : List Entry) (s : Spec)
    (hl : s.hist.length + es.length ≤ n) (hw : ∀ e ∈ es, e.config.length = nf) :
    s.run n nf (es.map .update) = some ⟨s.hist ++ es, s.ratios ++ es.map Entry.ratio⟩ := by
  induction es generalizing s with
  | nil => simp [Spec.run]
  | cons e es ih =>
    simp only [List.length_cons] at hl
    simp only [List.map_cons, Spec.run, Spec.apply]
    rw [if_pos ⟨by omega, hw e (by simp)⟩]
    simp only
    rw [ih _ (by simp; omega) (fun x hx => hw x (by simp [hx]))]
    simp

/-- C13 for one window.  Any number of updates up to the window length succeeds and reading the
block gives exactly these entries; one update more fails; a reset of the full window empties it. -/
theorem history_window (nf n nbp : Nat) (hn : 0 < n) (hb : 0 < nbp) (es : List Entry)
    (hl : es.length ≤ n) (hw : ∀ e ∈ es, e.config.length = nf) :
    ∃ c0 c, FC.make nf n nbp = some c0 ∧ c0.run (es.map .update) = some c ∧
      c.getBlock = (es.map (·.config), es.map (fun e => ((e.w1.re : ℝ) : ℂ)), es.map (·.w0)) ∧
      ofPair c.totWfac.toCx = (es.map Entry.ratio).prod ∧
      (es.length = n → (∀ e, c.update e = none) ∧
        ∃ c', c.reset = some c' ∧ c'.getBlock = ([], [], []) ∧ c'.totWfac = .cplx ⟨1, 0⟩) := by
  obtain ⟨c0, h0, h1⟩ := make_rel nf n nbp hb
  have hspec := spec_updates n nf es ⟨[], []⟩ (by simpa using hl) hw
  have := run_rel hn hb (es.map .update) h1
  rw [hspec] at this
  cases h2 : c0.run (es.map .update) with
  | none => rw [h2] at this; exact this.elim
  | some c =>
    rw [h2] at this
    simp only [List.nil_append] at this
    refine ⟨c0, c, h0, h2, ?_, this.tot, ?_⟩
    · unfold FC.getBlock; rw [this.t1, this.t2, this.t3]
    · intro hfull
      have hstep : c.step = n := by rw [this.step, ← hfull]
      constructor
      · intro e
        unfold FC.update
        rw [if_neg]
        rw [hstep, this.hn]; omega
      · refine ⟨{ c with step := 0, totWfac := .cplx (toPair 1) }, ?_, ?_, ?_⟩
        · unfold FC.reset
          rw [if_neg (by rw [this.hn]; omega), hstep, this.hn]
          simp
        · simp [FC.getBlock]
        · simp [toPair]

/-- Non-vacuity: a window of three steps with two entries of two fields. -/
example : (2 : Nat) ≤ 3 ∧ ∀ e ∈ ([⟨[1, 2], 1, 1⟩, ⟨[3, 4], 2, 1⟩] : List Entry),
    e.config.length = 2 := by
  refine ⟨by omega, ?_⟩
  intro e he
  simp at he
  rcases he with rfl | rfl <;> rfl

/-! ## Pushing single fields -/

noncomputable def pushAll (c : FC) : List ℂ → Option FC
  | [] => some c
  | x :: xs => match c.push x with
    | none => none
    | some c' => pushAll c' xs

theorem push_partial (xs : List ℂ) (c : FC) (row : List ℂ)
    (hstep : c.step < c.npropTot) (hlen : c.configs.length = c.npropTot)
    (hrow : c.configs[c.step]? = some row) (hrl : row.length = c.nfields)
    (hxs : c.ib + xs.length < c.nfields) :
    pushAll c xs = some { c with
      configs := c.configs.set c.step (row.take c.ib ++ xs ++ row.drop (c.ib + xs.length))
      ib := c.ib + xs.length } := by
  induction xs generalizing c row with
  | nil =>
    simp only [pushAll, List.append_nil, List.length_nil, Nat.add_zero, List.take_append_drop]
    congr 1
    have : c.configs.set c.step row = c.configs := by
      apply List.ext_getElem?
      intro i
      rw [List.getElem?_set]
      split_ifs with h1 h2
      · subst h1; exact hrow.symm
      · subst h1; omega
      · rfl
    rw [this]
  | cons x xs ih =>
    simp only [List.length_cons] at hxs
    have hrow' : c.configs[c.step]'(by omega) = row := by
      rw [List.getElem?_eq_getElem (by omega)] at hrow
      simpa using hrow
    have hp : c.push x = some { c with
        configs := c.configs.set c.step (row.set c.ib x)
        ib := c.ib + 1 } := by
      unfold FC.push
      rw [if_pos ⟨hstep, by omega⟩]
      simp only
      rw [Nat.mod_eq_of_lt (by omega), if_neg (by omega)]
      congr 2
      apply List.ext_getElem?
      intro i
      rw [List.getElem?_modify, List.getElem?_set]
      by_cases h1 : c.step = i
      · subst h1
        simp [hrow', hlen, hstep]
      · simp [h1]
    simp only [pushAll, hp]
    rw [ih { c with configs := c.configs.set c.step (row.set c.ib x), ib := c.ib + 1 }
      (row.set c.ib x) hstep (by simpa using hlen) (by simp [hlen, hstep])
      (by simpa using hrl) (by simp only; omega)]
    simp only [List.set_set, List.length_cons]
    have hi : c.ib < row.length := by omega
    congr 2
    · congr 1
      rw [take_succ_set _ _ _ hi, List.drop_set_of_lt (by omega)]
      simp [Nat.add_assoc, Nat.add_comm 1]
    · omega

/-- C13, discrete fields.  Pushing the fields of a configuration one by one has the same effect on
the recorded configurations and counters as recording the whole configuration at once. -/
theorem push_fields (c : FC) (row xs : List ℂ) (x : ℂ)
    (hstep : c.step < c.npropTot) (hlen : c.configs.length = c.npropTot)
    (hrow : c.configs[c.step]? = some row) (hrl : row.length = c.nfields)
    (hib : c.ib = 0) (hxs : (xs ++ [x]).length = c.nfields) :
    pushAll c (xs ++ [x]) =
      FC.advance { c with configs := c.configs.set c.step (xs ++ [x]) } := by
  have hsplit : ∀ (l : List ℂ) (c : FC), pushAll c (l ++ [x]) =
      (pushAll c l).bind (fun c' => c'.push x) := by
    intro l
    induction l with
    | nil =>
      intro c
      simp only [List.nil_append, pushAll, Option.bind_some]
      cases c.push x <;> rfl
    | cons a l ih =>
      intro c
      simp only [List.cons_append, pushAll]
      cases c.push a with
      | none => rfl
      | some c' => exact ih c'
  simp only [List.length_append, List.length_cons, List.length_nil, Nat.zero_add] at hxs
  rw [hsplit, push_partial xs c row hstep hlen hrow hrl (by omega), Option.bind_some]
  unfold FC.push
  rw [if_pos ⟨hstep, by simp only; omega⟩]
  simp only [hib, Nat.zero_add, List.take_zero, List.nil_append]
  rw [hxs, Nat.mod_self, if_pos rfl]
  congr 1
  have : (c.configs.set c.step (xs ++ row.drop xs.length)).modify c.step
      (fun r => r.set xs.length x) = c.configs.set c.step (xs ++ [x]) := by
    apply List.ext_getElem?
    intro i
    rw [List.getElem?_modify, List.getElem?_set, List.getElem?_set]
    by_cases h1 : c.step = i
    · subst h1
      have hd : (row.drop xs.length) = [row[xs.length]'(by omega)] := by
        rw [List.drop_eq_getElem_cons (by omega), List.drop_eq_nil_of_le (by omega)]
      simp [hlen, hstep, hd]
    · simp [h1]
  rw [this]

/-! ## C11 -/

theorem rows_flatten {α : Type} (n : Nat) (l : List (List α)) (h : ∀ r ∈ l, r.length = n) :
    rows n l.length l.flatten = l := by
  induction l with
  | nil => rfl
  | cons a l ih =>
    simp only [List.length_cons, rows, List.flatten_cons]
    have ha := h a (by simp)
    rw [← ha, List.take_left, List.drop_left, ha, ih (fun r hr => h r (by simp [hr]))]

/-- Arrays have the sizes given at construction. -/
structure WF (n nf nbp : Nat) (c : FC) : Prop where
  hn : c.npropTot = n
  hnf : c.nfields = nf
  hnbp : c.nbp = nbp
  hnblock : c.nblock = n / nbp
  l1 : c.configs.length = n
  l2 : c.cosFac.length = n
  l3 : c.weightFac.length = n
  width : ∀ r ∈ c.configs, r.length = nf

theorem Rel.wf {n nf nbp : Nat} {c : FC} {s : Spec} (h : Rel n nf nbp c s) : WF n nf nbp c :=
  ⟨h.hn, h.hnf, h.hnbp, h.hnblock, h.l1, h.l2, h.l3, h.width⟩

theorem ofPair_comp : (ofPair ∘ toPair) = id := by funext z; rfl

theorem exchange_eq {n nf nbp : Nat} {a b : FC} (ha : WF n nf nbp a) (hb : WF n nf nbp b) :
    ∃ buff, a.getBuffer = some buff ∧
      b.setBuffer buff = some { a with totWfac := b.totWfac.recv a.totWfac.toCx } := by
  have hflat : ∀ (l : List (List ℂ)), (∀ r ∈ l, r.length = nf) →
      l.flatten.length = l.length * nf := by
    intro l hl
    induction l with
    | nil => simp
    | cons r l ih =>
      rw [List.flatten_cons, List.length_append, ih (fun x hx => hl x (by simp [hx])),
        hl r (by simp), List.length_cons]
      ring
  refine ⟨_, getAttrs_eq a.attrs, ?_⟩
  have hA : a.attrs.flatMap (fun x => x.pieces.flatten) =
      a.configs.flatten.map toPair ++ (a.cosFac.map toPair ++ (a.weightFac.map toPair ++
        [a.totWfac.toCx, (Scal.int a.step).toCx, (Scal.int a.block).toCx, (Scal.int a.ib).toCx,
          (Scal.int a.nfields).toCx, (Scal.int a.nbp).toCx, (Scal.int a.npropTot).toCx,
          (Scal.int a.nblock).toCx])) := by
    simp [FC.attrs, Attr.pieces]
  rw [hA]
  have e1 : (b.configs.flatten.map toPair).length = (a.configs.flatten.map toPair).length := by
    rw [List.length_map, List.length_map, hflat _ hb.width, hflat _ ha.width, ha.l1, hb.l1]
  have e2 : (b.cosFac.map toPair).length = (a.cosFac.map toPair).length := by
    rw [List.length_map, List.length_map, ha.l2, hb.l2]
  have e3 : (b.weightFac.map toPair).length = (a.weightFac.map toPair).length := by
    rw [List.length_map, List.length_map, ha.l3, hb.l3]
  have hint : ∀ z : Int, truncInt ((Scal.int z : Scal ℝ).toCx.re) = z := fun z =>
    truncInt_intCast z
  generalize hX : a.configs.flatten.map toPair = X at e1 ⊢
  generalize hY : a.cosFac.map toPair = Y at e2 ⊢
  generalize hZ : a.weightFac.map toPair = Z at e3 ⊢
  have hset : setLoop (X ++ (Y ++ (Z ++
        [a.totWfac.toCx, (Scal.int a.step).toCx, (Scal.int a.block).toCx, (Scal.int a.ib).toCx,
          (Scal.int a.nfields).toCx, (Scal.int a.nbp).toCx, (Scal.int a.npropTot).toCx,
          (Scal.int a.nblock).toCx]))) 0 b.attrs =
      some [.arr [b.npropTot, b.nfields] X, .arr [b.npropTot, 1] Y, .arr [b.npropTot, 1] Z,
        .scal (b.totWfac.recv a.totWfac.toCx), .scal (.int a.step), .scal (.int a.block),
        .scal (.int a.ib), .scal (.int a.nfields), .scal (.int a.nbp), .scal (.int a.npropTot),
        .scal (.int a.nblock)] := by
    simp only [FC.attrs, setLoop, e1, e2, e3]
    rw [List.drop_zero, List.take_left, if_pos rfl, Nat.zero_add, List.drop_left, List.take_left,
      if_pos rfl, ← List.drop_drop, List.drop_left, List.drop_left, List.take_left, if_pos rfl]
    have hget : ∀ (T : List (Cx ℝ)) (i : Nat),
        (X ++ (Y ++ (Z ++ T)))[X.length + Y.length + Z.length + i]? = T[i]? := by
      intro T i
      rw [List.getElem?_append_right (by omega), List.getElem?_append_right (by omega),
        List.getElem?_append_right (by omega)]
      congr 1
      omega
    have h0 := fun T => hget T 0
    simp only [Nat.add_zero] at h0
    simp only [Nat.add_assoc, Nat.reduceAdd] at h0 hget ⊢
    simp only [h0, hget]
    simp only [List.getElem?_cons_zero, List.getElem?_cons_succ, Option.map_some, Scal.recv, hint]
  unfold FC.setBuffer
  rw [hset]
  simp only [Option.bind_some, ofAttrs, ← hX, ← hY, ← hZ, List.map_map, ofPair_comp, List.map_id,
    Int.toNat_natCast]
  congr 1
  have : rows b.nfields b.npropTot a.configs.flatten = a.configs := by
    rw [hb.hnf, hb.hn, ← ha.l1]
    exact rows_flatten nf a.configs ha.width
  rw [this]

theorem reachable_wf {nf n nbp : Nat} (hn : 0 < n) (hb : 0 < nbp) {c0 c : FC} {os : List Op}
    (h0 : FC.make nf n nbp = some c0) (h : c0.run os = some c) : WF n nf nbp c := by
  obtain ⟨c1, h1, h2⟩ := make_rel nf n nbp hb
  rw [h0] at h1
  cases h1
  have := run_rel hn hb os h2
  rw [h] at this
  cases hs : (⟨[], []⟩ : Spec).run n nf os with
  | none => rw [hs] at this; exact this.elim
  | some s => rw [hs] at this; exact this.wf

/-- C11, exact effect.  For any two reachable histories of the same shape the exchange succeeds,
and the receiver becomes equal to the sender except that the accumulated factor is converted to
the number type the receiver's accumulated factor had. -/
theorem history_exchange {nf n nbp : Nat} (hn : 0 < n) (hb : 0 < nbp) {c0 a b : FC}
    {os os' : List Op} (h0 : FC.make nf n nbp = some c0) (ha : c0.run os = some a)
    (hr : c0.run os' = some b) :
    ∃ buff, a.getBuffer = some buff ∧
      b.setBuffer buff = some { a with totWfac := b.totWfac.recv a.totWfac.toCx } :=
  exchange_eq (reachable_wf hn hb h0 ha) (reachable_wf hn hb h0 hr)

/-- The last operation was not an update with a negligible cosine factor. -/
def LastFine (os : List Op) : Prop :=
  ∀ os' e, os = os' ++ [.update e] → ‖e.w1‖ > 1e-16

theorem totWfac_cplx {c0 b : FC} {nf n nbp : Nat} {os : List Op}
    (h0 : FC.make nf n nbp = some c0) (hr : c0.run os = some b) (hf : LastFine os) :
    ∃ z, b.totWfac = .cplx z := by
  rcases List.eq_nil_or_concat os with h | ⟨os', o, h⟩
  · subst h
    simp only [FC.run, Option.some.injEq] at hr
    subst hr
    unfold FC.make at h0
    split_ifs at h0
    simp only [Option.some.injEq] at h0
    subst h0
    exact ⟨_, rfl⟩
  · rw [List.concat_eq_append] at h
    subst h
    have hsplit : ∀ (l : List Op) (c : FC), c.run (l ++ [o]) = (c.run l).bind (fun c' => c'.apply o) := by
      intro l
      induction l with
      | nil =>
        intro c
        simp only [List.nil_append, FC.run, Option.bind_some]
        cases c.apply o <;> rfl
      | cons x l ih =>
        intro c
        simp only [List.cons_append, FC.run]
        cases c.apply x with
        | none => rfl
        | some c' => exact ih c'
    rw [hsplit] at hr
    cases hm : c0.run os' with
    | none => rw [hm] at hr; simp at hr
    | some m =>
      rw [hm, Option.bind_some] at hr
      cases o with
      | reset =>
        simp only [FC.apply, FC.reset] at hr
        split_ifs at hr
        all_goals
          simp only [Option.some.injEq] at hr
          subst hr
          exact ⟨_, rfl⟩
      | update e =>
        have := hf os' e rfl
        simp only [FC.apply, FC.update] at hr
        split_ifs at hr
        unfold FC.advance at hr
        simp only at hr
        split_ifs at hr
        all_goals
          simp only [Option.some.injEq] at hr
          subst hr
          simp only [newWfac, if_pos this]
          exact ⟨_, rfl⟩

/-- C11, partial.  If the receiver's last operation was not an update with negligible cosine
factor, the exchange makes the receiver equal to the sender in every value.  Missing for the full
property: receivers whose last update had a negligible cosine factor; there the property is false,
see `history_exchange_loses_factor`. -/
theorem history_exchange_partial {nf n nbp : Nat} (hn : 0 < n) (hb : 0 < nbp) {c0 a b : FC}
    {os os' : List Op} (h0 : FC.make nf n nbp = some c0) (ha : c0.run os = some a)
    (hr : c0.run os' = some b) (hf : LastFine os') :
    ∃ buff b', a.getBuffer = some buff ∧ b.setBuffer buff = some b' ∧
      b'.totWfac.toCx = a.totWfac.toCx ∧ { b' with totWfac := a.totWfac } = a := by
  obtain ⟨buff, h1, h2⟩ := history_exchange hn hb h0 ha hr
  obtain ⟨z, hz⟩ := totWfac_cplx h0 hr hf
  refine ⟨buff, _, h1, h2, ?_, rfl⟩
  simp only [hz, Scal.recv, Scal.toCx]

/-- C11 fails in general: a sender with accumulated factor 1/2 and a receiver whose last update had
cosine factor zero (both reachable by one update from the construction); after the exchange the
receiver's accumulated factor is zero. -/
theorem history_exchange_loses_factor :
    ∃ (c0 a b b' : FC) (buff : List (Cx ℝ)), FC.make 1 2 2 = some c0 ∧
      c0.run [.update ⟨[0], 1, 2⟩] = some a ∧ c0.run [.update ⟨[0], 1, 0⟩] = some b ∧
      a.getBuffer = some buff ∧ b.setBuffer buff = some b' ∧
      ofPair a.totWfac.toCx = 1 / 2 ∧ ofPair b'.totWfac.toCx = 0 := by
  obtain ⟨c0, h0, hrel⟩ := make_rel 1 2 2 (by norm_num)
  have hA := run_rel (by norm_num) (by norm_num) [.update ⟨[0], 1, 2⟩] hrel
  have hB := run_rel (by norm_num) (by norm_num) [.update ⟨[0], 1, 0⟩] hrel
  have sA := spec_updates 2 1 [⟨[0], 1, 2⟩] ⟨[], []⟩ (by simp) (by simp)
  have sB := spec_updates 2 1 [⟨[0], 1, 0⟩] ⟨[], []⟩ (by simp) (by simp)
  simp only [List.map_cons, List.map_nil] at sA sB
  rw [sA] at hA
  rw [sB] at hB
  cases ha : c0.run [.update ⟨[0], 1, 2⟩] with
  | none => rw [ha] at hA; exact hA.elim
  | some a =>
    cases hb : c0.run [.update ⟨[0], 1, 0⟩] with
    | none => rw [hb] at hB; exact hB.elim
    | some b =>
      rw [ha] at hA
      obtain ⟨buff, g1, g2⟩ := history_exchange (by norm_num) (by norm_num) h0 ha hb
      have hval : ofPair a.totWfac.toCx = 1 / 2 := by
        rw [hA.tot]
        have : (1e-16 : ℝ) < 2 := by norm_num
        simp [Entry.ratio, this]
      have hint : b.totWfac = .int 0 := by
        simp only [FC.run, FC.apply, FC.update] at hb
        split_ifs at hb with hcond
        unfold FC.advance at hb
        simp only at hb
        have hn : newWfac c0.totWfac 1 0 = .int 0 := by
          unfold newWfac
          rw [if_neg]
          simp
          norm_num
        split_ifs at hb
        all_goals
          simp only [Option.some.injEq] at hb
          subst hb
          exact hn
      refine ⟨c0, a, b, _, buff, h0, ha, hb, g1, g2, hval, ?_⟩
      have hre : a.totWfac.toCx.re = 1 / 2 := by
        have := congrArg Complex.re hval
        simpa [ofPair] using this
      simp only [hint, Scal.recv, hre]
      have : truncInt (1 / 2 : ℝ) = 0 := by
        unfold truncInt
        rw [if_pos (by norm_num)]
        norm_num
      rw [this]
      simp [Scal.toCx, ofPair, Complex.ext_iff]

end Verif.FieldHistory
