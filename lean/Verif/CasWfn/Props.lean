import Verif.CasWfn.Model
import Mathlib.Tactic.Linarith
import Mathlib.Tactic.NormNum
import Mathlib.Algebra.BigOperators.Group.List.Basic
import Mathlib.Algebra.Order.BigOperators.Group.List

/-!
# C91: which determinants of an active-space calculation reach the file
-/

namespace Verif.CasWfn

/-- What a reader makes of the orbital numbers when there are `norb` orbitals: numbers from one to `norb` are spin up,
larger ones spin down. -/
def decode (norb : Nat) (l : List Nat) : List Nat × List Nat :=
  ((l.filter (· ≤ norb)).map (· - 1), (l.filter (norb < ·)).map (· - norb - 1))

/-- The weight of the determinants in a file. -/
noncomputable def weight (f : List (ℝ × List Nat)) : ℝ := (f.map fun l => l.1 ^ 2).sum

theorem maxDet_le (s : Solver) (ix : List Nat) (c : ℝ) : maxDet s ix c ≤ ix.length := by
  unfold maxDet
  refine le_trans List.findIdx_le_length ?_
  simp

theorem below (s : Solver) (ix : List Nat) (c : ℝ) {k : Nat} (hk : k < maxDet s ix c) : cumw s ix (k + 1) < c := by
  have h := hk
  unfold maxDet at h
  have := List.not_of_lt_findIdx h
  simpa using this

theorem above (s : Solver) (ix : List Nat) (c : ℝ) (hk : maxDet s ix c < ix.length) :
    c ≤ cumw s ix (maxDet s ix c + 1) := by
  have h : maxDet s ix c < (List.range ix.length).length := by simpa using hk
  have := List.findIdx_getElem (w := h)
  rw [decide_eq_true_iff] at this
  calc c ≤ cumw s ix ((List.range ix.length)[maxDet s ix c]'h + 1) := this
    _ = _ := by rw [List.getElem_range]

theorem mapM_some {α β : Type} {g : α → Option β} {l : List α} {f : List β} (h : l.mapM g = some f) :
    List.Forall₂ (fun a b => g a = some b) l f := by
  induction l generalizing f with
  | nil =>
    simp at h
    subst h
    exact List.Forall₂.nil
  | cons x t ih =>
    rw [List.mapM_cons] at h
    simp only [Option.bind_eq_bind, Option.bind_eq_some_iff] at h
    obtain ⟨y, hy, r, hr, h⟩ := h
    simp only [Option.pure_def, Option.some.injEq] at h
    subst h
    exact List.Forall₂.cons hy (ih hr)

/-- The lines of a file are the lines of the leading determinants. -/
theorem file_spec {s : Solver} {ix : List Nat} {c : ℝ} {norb : Option Nat} {f : List (ℝ × List Nat)}
    (h : file s ix c norb = some f) :
    f.length = maxDet s ix c ∧ ∀ k < maxDet s ix c, line s (norb.getD s.ncas) (ix.getD k 0) = f[k]? := by
  unfold file at h
  replace h := mapM_some h
  have hl : (ix.take (maxDet s ix c)).length = maxDet s ix c := by
    rw [List.length_take]; exact Nat.min_eq_left (maxDet_le s ix c)
  refine ⟨by rw [← h.length_eq, hl], fun k hk => ?_⟩
  have hkf : k < f.length := by rw [← h.length_eq, hl]; exact hk
  have := List.forall₂_iff_get.1 h |>.2 k (by rw [hl]; exact hk) hkf
  have hki : k < ix.length := lt_of_lt_of_le hk (maxDet_le s ix c)
  simp only [List.get_eq_getElem, List.getElem_take] at this
  rw [List.getD_eq_getElem _ _ hki, this, List.getElem?_eq_getElem hkf]

theorem line_coeff {s : Solver} {norb i : Nat} {l : ℝ × List Nat} (h : line s norb i = some l) : l.1 = s.ci.getD i 0 := by
  unfold line at h
  simp only [Option.bind_eq_bind, Option.bind_eq_some_iff, Option.some.injEq] at h
  obtain ⟨_, _, _, _, rfl⟩ := h
  rfl

theorem weight_eq {s : Solver} {ix : List Nat} {c : ℝ} {norb : Option Nat} {f : List (ℝ × List Nat)}
    (h : file s ix c norb = some f) : weight f = cumw s ix (maxDet s ix c) := by
  unfold file at h
  replace h := mapM_some h
  unfold weight cumw
  congr 1
  generalize ix.take (maxDet s ix c) = l at h
  induction h with
  | nil => rfl
  | cons h1 _ ih => simp [ih, line_coeff h1]

/-- **The accumulated weight never reaches a positive cutoff.** -/
theorem weight_below {s : Solver} {ix : List Nat} {c : ℝ} {norb : Option Nat} {f : List (ℝ × List Nat)} (hc : 0 < c)
    (h : file s ix c norb = some f) : weight f < c := by
  rw [weight_eq h]
  rcases Nat.eq_zero_or_pos (maxDet s ix c) with h0 | h0
  · rw [h0]; simpa [cumw] using hc
  · obtain ⟨k, hk⟩ := Nat.exists_eq_succ_of_ne_zero h0.ne'
    rw [hk]
    exact below s ix c (by omega)

/-- **One more determinant reaches the cutoff**, unless all are written. -/
theorem weight_next {s : Solver} {ix : List Nat} {c : ℝ} {norb : Option Nat} {f : List (ℝ × List Nat)}
    (h : file s ix c norb = some f) (hlt : f.length < ix.length) :
    c ≤ weight f + s.ci.getD (ix.getD f.length 0) 0 ^ 2 := by
  rw [weight_eq h]
  rw [(file_spec h).1] at hlt ⊢
  have := above s ix c hlt
  refine this.trans (le_of_eq ?_)
  unfold cumw
  rw [List.take_succ_eq_append_getElem hlt, List.getD_eq_getElem _ _ hlt, List.map_append, List.sum_append]
  rw [List.map_singleton, List.sum_singleton]

/-- **A dominant determinant is dropped, with all others**: nothing is written if the first one reaches the cutoff. -/
theorem dominant {s : Solver} {ix : List Nat} {c : ℝ} {norb : Option Nat} {i : Nat} (hi : ix.head? = some i)
    (hd : c ≤ s.ci.getD i 0 ^ 2) : file s ix c norb = some [] := by
  have : maxDet s ix c = 0 := by
    by_contra h0
    have hb := below s ix c (Nat.pos_of_ne_zero h0)
    cases ix with
    | nil => simp at hi
    | cons x t =>
      simp only [List.head?_cons, Option.some.injEq] at hi
      subst hi
      rw [cumw, List.take_succ_cons, List.take_zero, List.map_singleton, List.sum_singleton] at hb
      linarith
  unfold file
  rw [this]
  rfl

/-- **The heaviest determinants are kept**: no determinant left out outweighs one that is written. -/
theorem heaviest {s : Solver} {ix : List Nat} {c : ℝ} {norb : Option Nat} {f : List (ℝ × List Nat)}
    (hp : ix.Perm (List.range s.ci.length))
    (hs : ix.Pairwise fun i j => |s.ci.getD j 0| ≤ |s.ci.getD i 0|) (h : file s ix c norb = some f) {k i : Nat}
    (hk : k < f.length) (hi : i < s.ci.length) (hn : i ∉ ix.take f.length) :
    |s.ci.getD i 0| ≤ |(f[k]).1| := by
  obtain ⟨hl, hf⟩ := file_spec h
  have hki : k < ix.length := lt_of_lt_of_le (hl ▸ hk) (maxDet_le s ix c)
  have h1 := hf k (hl ▸ hk)
  rw [List.getElem?_eq_getElem hk, List.getD_eq_getElem _ _ hki] at h1
  rw [line_coeff h1]
  have hm : i ∈ ix := hp.mem_iff.2 (List.mem_range.2 hi)
  obtain ⟨j, hj, rfl⟩ := List.getElem_of_mem hm
  have hkj : k < j := by
    by_contra hle
    apply hn
    rw [List.mem_take_iff_getElem]
    exact ⟨j, by omega, rfl⟩
  exact List.pairwise_iff_getElem.1 hs k j hki hj hkj

theorem decode_line {core ncas norb : Nat} {a b : List Nat} (hn : core + ncas ≤ norb) (ha : ∀ x ∈ a, x < ncas) :
    decode norb ((List.range core).map (· + 1) ++ a.map (· + 1 + core) ++
      ((List.range core).map (· + 1 + norb) ++ b.map (· + norb + 1 + core))) =
    (List.range core ++ a.map (· + core), List.range core ++ b.map (· + core)) := by
  have e1 : ((List.range core).map (· + 1) ++ a.map (· + 1 + core)).filter (· ≤ norb) =
      (List.range core).map (· + 1) ++ a.map (· + 1 + core) := by
    rw [List.filter_eq_self]
    intro x hx
    rcases List.mem_append.1 hx with hx | hx
    · obtain ⟨y, hy, rfl⟩ := List.mem_map.1 hx
      have := List.mem_range.1 hy
      simp; omega
    · obtain ⟨y, hy, rfl⟩ := List.mem_map.1 hx
      have := ha y hy
      simp; omega
  have e2 : ((List.range core).map (· + 1 + norb) ++ b.map (· + norb + 1 + core)).filter (· ≤ norb) = [] := by
    rw [List.filter_eq_nil_iff]
    intro x hx
    rcases List.mem_append.1 hx with hx | hx <;> obtain ⟨y, hy, rfl⟩ := List.mem_map.1 hx <;> simp <;> omega
  have e3 : ((List.range core).map (· + 1) ++ a.map (· + 1 + core)).filter (norb < ·) = [] := by
    rw [List.filter_eq_nil_iff]
    intro x hx
    have := List.of_mem_filter (e1 ▸ hx : x ∈ _)
    simpa using this
  have e4 : ((List.range core).map (· + 1 + norb) ++ b.map (· + norb + 1 + core)).filter (norb < ·) =
      (List.range core).map (· + 1 + norb) ++ b.map (· + norb + 1 + core) := by
    rw [List.filter_eq_self]
    intro x hx
    rcases List.mem_append.1 hx with hx | hx <;> obtain ⟨y, hy, rfl⟩ := List.mem_map.1 hx <;> simp <;> omega
  unfold decode
  rw [List.filter_append (l₁ := (List.range core).map (· + 1) ++ a.map (· + 1 + core)),
    List.filter_append (l₁ := (List.range core).map (· + 1) ++ a.map (· + 1 + core)), e1, e2, e3, e4]
  simp only [List.append_nil, List.nil_append, List.map_append, List.map_map, Prod.mk.injEq]
  refine ⟨?_, ?_⟩ <;> congr 1
  · exact (List.map_congr_left (g := id) fun x _ => by simp).trans (List.map_id _)
  · exact List.map_congr_left fun x _ => by simp only [Function.comp]; omega
  · exact (List.map_congr_left (g := id) fun x _ => by simp only [Function.comp, id]; omega).trans (List.map_id _)
  · exact List.map_congr_left fun x _ => by simp only [Function.comp]; omega

/-- **Equal numbers of active electrons and `norb` at least the number of core and active orbitals**: a file is written;
its `k`-th line decodes to the core and the strings `p`, `q` of the `k`-th heaviest determinant, with the coefficient
`ci[p][q]`. -/
theorem lines_partial {s : Solver} {ix : List Nat} {c : ℝ} {norb : Nat} (hci : s.ci.length = s.occ.length * s.occ.length)
    (hix : ∀ i ∈ ix, i < s.ci.length) (hocc : ∀ a ∈ s.occ, ∀ x ∈ a, x < s.ncas) (hn : s.ncore + s.ncas ≤ norb) :
    ∃ f, file s ix c (some norb) = some f ∧ f.length ≤ ix.length ∧ ∀ k (hk : k < f.length), ∃ (p q : Nat)
      (hp : p < s.occ.length) (hq : q < s.occ.length), ix[k]? = some (p * s.occ.length + q) ∧
      (f[k]).1 = s.ci.getD (p * s.occ.length + q) 0 ∧
      decode norb (f[k]).2 = (List.range s.ncore ++ (s.occ[p]).map (· + s.ncore),
        List.range s.ncore ++ (s.occ[q]).map (· + s.ncore)) := by
  have hline : ∀ i, i < s.ci.length → ∃ l, line s norb i = some l ∧ ∃ (p q : Nat)
      (hp : p < s.occ.length) (hq : q < s.occ.length), i = p * s.occ.length + q ∧
      l.1 = s.ci.getD (p * s.occ.length + q) 0 ∧
      decode norb l.2 = (List.range s.ncore ++ (s.occ[p]).map (· + s.ncore),
        List.range s.ncore ++ (s.occ[q]).map (· + s.ncore)) := by
    intro i hi
    rw [hci] at hi
    have hpos : 0 < s.occ.length := Nat.pos_of_ne_zero fun h0 => by rw [h0] at hi; simp at hi
    have hp : i / s.occ.length < s.occ.length := Nat.div_lt_of_lt_mul hi
    have hq : i % s.occ.length < s.occ.length := Nat.mod_lt _ hpos
    have hl : line s norb i = some (s.ci.getD i 0, (List.range s.ncore).map (· + 1) ++
        (s.occ[i / s.occ.length]).map (· + 1 + s.ncore) ++ ((List.range s.ncore).map (· + 1 + norb) ++
        (s.occ[i % s.occ.length]).map (· + norb + 1 + s.ncore))) := by
      unfold line
      rw [List.getElem?_eq_getElem hp, List.getElem?_eq_getElem hq]
      rfl
    refine ⟨_, hl, i / s.occ.length, i % s.occ.length, hp, hq, (Nat.div_add_mod' _ _).symm, ?_, ?_⟩
    · rw [Nat.div_add_mod']
    · exact decode_line hn (hocc _ (List.getElem_mem hp))
  have hex : ∃ f, file s ix c (some norb) = some f := by
    unfold file
    have : ∀ l : List Nat, (∀ i ∈ l, i < s.ci.length) → ∃ f, l.mapM (line s norb) = some f := by
      intro l
      induction l with
      | nil => intro _; exact ⟨[], rfl⟩
      | cons x t ih =>
        intro h
        obtain ⟨f, hf⟩ := ih fun i hi => h i (List.mem_cons_of_mem _ hi)
        obtain ⟨l, hl, _⟩ := hline x (h x List.mem_cons_self)
        exact ⟨l :: f, by rw [List.mapM_cons, hl, hf]; rfl⟩
    exact this _ fun i hi => hix i (List.mem_of_mem_take hi)
  obtain ⟨f, hf⟩ := hex
  obtain ⟨hl, hk⟩ := file_spec hf
  refine ⟨f, hf, hl ▸ maxDet_le s ix c, fun k hkf => ?_⟩
  have hki : k < ix.length := lt_of_lt_of_le (hl ▸ hkf) (maxDet_le s ix c)
  have h1 := hk k (hl ▸ hkf)
  rw [List.getElem?_eq_getElem hkf, List.getD_eq_getElem _ _ hki, Option.getD_some] at h1
  obtain ⟨l, hl', p, q, hp, hq, hi, hc, hd⟩ := hline ix[k] (hix _ (List.getElem_mem hki))
  rw [h1, Option.some.injEq] at hl'
  subst hl'
  exact ⟨p, q, hp, hq, by rw [List.getElem?_eq_getElem hki, hi], hc, hd⟩

/-! Cases -/

/-- Two electrons in two orbitals above one core orbital. -/
noncomputable def exS : Solver := ⟨2, 1, [[0], [1]], [9/10, 0, 0, -3/10]⟩

theorem ex_sorted : [0, 3, 1, 2].Perm (List.range exS.ci.length) ∧
    [0, 3, 1, 2].Pairwise fun i j => |exS.ci.getD j 0| ≤ |exS.ci.getD i 0| := by
  refine ⟨by simp only [exS]; decide, ?_⟩
  simp [exS, abs_le]
  norm_num [abs_of_pos]

theorem ex_maxDet : maxDet exS [0, 3, 1, 2] (85 / 100) = 1 := by
  have h0 : maxDet exS [0, 3, 1, 2] (85 / 100) ≠ 0 := by
    intro h
    have := above exS [0, 3, 1, 2] (85 / 100) (by rw [h]; decide)
    rw [h] at this
    simp [cumw, exS] at this
    norm_num at this
  have h1 : ¬ 1 < maxDet exS [0, 3, 1, 2] (85 / 100) := by
    intro h
    have := below exS [0, 3, 1, 2] (85 / 100) h
    simp [cumw, exS] at this
    norm_num at this
  omega

/-- `lines_partial` applies, with one determinant of two written. -/
example : exS.ci.length = exS.occ.length * exS.occ.length ∧ (∀ i ∈ [0, 3, 1, 2], i < exS.ci.length) ∧
    (∀ a ∈ exS.occ, ∀ x ∈ a, x < exS.ncas) ∧ exS.ncore + exS.ncas ≤ 3 ∧
    file exS [0, 3, 1, 2] (85 / 100) (some 3) = some [(9 / 10, [1, 2, 4, 5])] := by
  refine ⟨rfl, by simp [exS], by simp [exS], by simp [exS], ?_⟩
  unfold file
  rw [ex_maxDet]
  simp [line, exS]

/-- **With core orbitals and the default `norb` the file is wrong**: the active spin-up electron is read as spin down.
Here an up and a down electron share the number of one orbital. -/
theorem default_norb_fails : ∃ (s : Solver) (ix : List Nat) (c : ℝ) (l : ℝ × List Nat), s.ci.length = s.occ.length * s.occ.length ∧
    0 < s.ncore ∧ file s ix c none = some [l] ∧ ¬ l.2.Nodup ∧ (decode s.ncas l.2).1.length ≠ (decode s.ncas l.2).2.length := by
  refine ⟨⟨2, 1, [[0], [1]], [3 / 10, 0, 0, 9 / 10]⟩, [3, 0, 1, 2], 85 / 100, (9 / 10, [1, 3, 3, 5]), rfl, by simp, ?_,
    by decide, by decide⟩
  have h0 : maxDet ⟨2, 1, [[0], [1]], [3 / 10, 0, 0, 9 / 10]⟩ [3, 0, 1, 2] (85 / 100) ≠ 0 := by
    intro h
    have := above _ [3, 0, 1, 2] (85 / 100) (by rw [h]; decide)
    rw [h] at this
    simp [cumw] at this
    norm_num at this
  have h1 : ¬ 1 < maxDet ⟨2, 1, [[0], [1]], [3 / 10, 0, 0, 9 / 10]⟩ [3, 0, 1, 2] (85 / 100) := by
    intro h
    have := below _ [3, 0, 1, 2] (85 / 100) h
    simp [cumw] at this
    norm_num at this
  have : maxDet ⟨2, 1, [[0], [1]], [3 / 10, 0, 0, 9 / 10]⟩ [3, 0, 1, 2] (85 / 100) = 1 := by omega
  unfold file
  rw [this]
  simp [line]

/-- **With unequal numbers of active electrons the strings are wrong**: for two up and one down electron in two orbitals
(one up string, two down strings) the determinant with the second down string cannot be written. -/
theorem open_shell_fails : file ⟨2, 0, [[0, 1]], [3 / 5, 4 / 5]⟩ [1, 0] (9 / 10) (some 2) = none := by
  have h0 : maxDet ⟨2, 0, [[0, 1]], [3 / 5, 4 / 5]⟩ [1, 0] (9 / 10) ≠ 0 := by
    intro h
    have := above _ [1, 0] (9 / 10) (by rw [h]; decide)
    rw [h] at this
    simp [cumw] at this
    norm_num at this
  have h1 : ¬ 1 < maxDet ⟨2, 0, [[0, 1]], [3 / 5, 4 / 5]⟩ [1, 0] (9 / 10) := by
    intro h
    have := below _ [1, 0] (9 / 10) h
    simp [cumw] at this
    norm_num at this
  have : maxDet ⟨2, 0, [[0, 1]], [3 / 5, 4 / 5]⟩ [1, 0] (9 / 10) = 1 := by omega
  unfold file
  rw [this]
  simp [line]

/-- ... and every file written has as many down as up electrons, `n = nelecas[0]` active ones, whatever `nelecas[1]`. -/
theorem open_shell_electrons {s : Solver} {ix : List Nat} {c : ℝ} {norb : Nat} {n : Nat} {f : List (ℝ × List Nat)}
    (hocc : ∀ a ∈ s.occ, a.length = n ∧ ∀ x ∈ a, x < s.ncas) (hn : s.ncore + s.ncas ≤ norb)
    (h : file s ix c (some norb) = some f) : ∀ l ∈ f, (decode norb l.2).2.length = s.ncore + n := by
  have hf := mapM_some h
  intro l hl
  obtain ⟨k, hk, rfl⟩ := List.getElem_of_mem hl
  have := (List.forall₂_iff_get.1 hf).2 k (by rw [hf.length_eq]; exact hk) hk
  simp only [List.get_eq_getElem, Option.getD_some] at this
  unfold line at this
  simp only [Option.bind_eq_bind, Option.bind_eq_some_iff, Option.some.injEq] at this
  obtain ⟨a, ha, b, hb, e⟩ := this
  have hbm := hocc b (List.mem_of_getElem? hb)
  have ham := hocc a (List.mem_of_getElem? ha)
  rw [← e, decode_line hn ham.2]
  simp [hbm.1]

end Verif.CasWfn
