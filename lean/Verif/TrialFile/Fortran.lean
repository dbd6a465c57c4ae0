import Verif.TrialFile.Props
import Mathlib.LinearAlgebra.Matrix.NonsingularInverse
import Mathlib.Analysis.Complex.Basic

/-!
# Free-electron trials read from Fortran files (C126)
-/

namespace Verif.TrialFile

open Matrix

variable {nb nup ndn : Nat}

/-- A column of the file: an up orbital has zeros in the down rows and the other way round. -/
noncomputable def column (U : Matrix (Fin nb) (Fin nup) ℂ) (D : Matrix (Fin nb) (Fin ndn) ℂ) : Fin nup ⊕ Fin ndn → Fin (nb + nb) → ℂ
  | .inl i => Fin.addCases (fun x => U x i) fun _ => 0
  | .inr j => Fin.addCases (fun _ => 0) fun x => D x j

/-- The numbers of the file, column after column. -/
noncomputable def ghfFile (U : Matrix (Fin nb) (Fin nup) ℂ) (D : Matrix (Fin nb) (Fin ndn) ℂ) (arr : List (Fin nup ⊕ Fin ndn)) : List ℂ :=
  arr.flatMap fun o => (List.finRange (nb + nb)).map (column U D o)

/-- Every orbital once, those of the same spin in their order; up and down may alternate in any way. -/
structure Arranged (arr : List (Fin nup ⊕ Fin ndn)) : Prop where
  up : arr.filterMap Sum.getLeft? = List.finRange nup
  dn : arr.filterMap Sum.getRight? = List.finRange ndn

theorem Arranged.length {arr : List (Fin nup ⊕ Fin ndn)} (h : Arranged arr) : arr.length = nup + ndn := by
  have : ∀ l : List (Fin nup ⊕ Fin ndn), l.length = (l.filterMap Sum.getLeft?).length + (l.filterMap Sum.getRight?).length := by
    intro l
    induction l with
    | nil => rfl
    | cons o l ih =>
      cases o <;> simp [List.filterMap_cons, ih] <;> omega
  rw [this, h.up, h.dn, List.length_finRange, List.length_finRange]

/-- The array that the file is reshaped to. -/
noncomputable def table (U : Matrix (Fin nb) (Fin nup) ℂ) (D : Matrix (Fin nb) (Fin ndn) ℂ) (arr : List (Fin nup ⊕ Fin ndn)) (hl : arr.length = nup + ndn) :
    Matrix (Fin (nb + nb)) (Fin (nup + ndn)) ℂ := Matrix.of fun r c => column U D (arr[c.val]'(lt_of_lt_of_eq c.2 hl.symm)) r

theorem ghfMatrix_file (U : Matrix (Fin nb) (Fin nup) ℂ) (D : Matrix (Fin nb) (Fin ndn) ℂ) {arr : List (Fin nup ⊕ Fin ndn)} (hl : arr.length = nup + ndn) :
    ghfMatrix nb (nup + ndn) (ghfFile U D arr) = some (table U D arr hl) := by
  rw [ghfMatrix, if_pos (by rw [ghfFile, length_flatMap_const _ (nb + nb) (fun _ => by simp), hl, mul_comm])]
  congr 1
  ext r c
  rw [Matrix.of_apply, ghfFile, getElem?_flatMap_const _ (nb + nb) (fun _ => by simp) _ _ _ r.2, List.getElem?_eq_getElem (lt_of_lt_of_eq c.2 hl.symm)]
  simp [table]

theorem finRange_map_get {β : Type} (arr : List β) {n : Nat} (hl : arr.length = n) : (List.finRange n).map (fun c : Fin n => arr[c.val]'(lt_of_lt_of_eq c.2 hl.symm)) = arr := by
  subst hl
  exact List.map_getElem_finRange arr

theorem table_up (U : Matrix (Fin nb) (Fin nup) ℂ) (D : Matrix (Fin nb) (Fin ndn) ℂ) {arr : List (Fin nup ⊕ Fin ndn)} (hl : arr.length = nup + ndn)
    (p : (Fin nb → ℂ) → Prop) [DecidablePred p] : ((List.finRange (nup + ndn)).filter fun c => p fun x => table U D arr hl (Fin.castAdd nb x) c).map
      (fun c x => table U D arr hl (Fin.castAdd nb x) c) =
      ((arr.map (column U D)).filter fun v => p fun x => v (Fin.castAdd nb x)).map fun v x => v (Fin.castAdd nb x) := by
  conv_rhs => rw [← finRange_map_get arr hl, List.map_map, List.filter_map, List.map_map]
  rfl

theorem table_dn (U : Matrix (Fin nb) (Fin nup) ℂ) (D : Matrix (Fin nb) (Fin ndn) ℂ) {arr : List (Fin nup ⊕ Fin ndn)} (hl : arr.length = nup + ndn)
    (p : (Fin nb → ℂ) → Prop) [DecidablePred p] : ((List.finRange (nup + ndn)).filter fun c => p fun x => table U D arr hl (Fin.castAdd nb x) c).map
      (fun c x => table U D arr hl (Fin.natAdd nb x) c) =
      ((arr.map (column U D)).filter fun v => p fun x => v (Fin.castAdd nb x)).map fun v x => v (Fin.natAdd nb x) := by
  conv_rhs => rw [← finRange_map_get arr hl, List.map_map, List.filter_map, List.map_map]
  rfl

/-- An up orbital without a node. -/
def NoNode (tol : ℝ) (U : Matrix (Fin nb) (Fin nup) ℂ) (i : Fin nup) : Prop := ∀ x, tol < ‖U x i‖

open Classical in
theorem filter_up {tol : ℝ} (ht : 0 ≤ tol) (hb : 0 < nb) (U : Matrix (Fin nb) (Fin nup) ℂ) (D : Matrix (Fin nb) (Fin ndn) ℂ) (arr : List (Fin nup ⊕ Fin ndn)) :
    ((arr.map (column U D)).filter fun v => ∀ x : Fin nb, tol < ‖v (Fin.castAdd nb x)‖).map (fun v x => v (Fin.castAdd nb x)) =
      ((arr.filterMap Sum.getLeft?).filter fun i => NoNode tol U i).map fun i x => U x i := by
  induction arr with
  | nil => rfl
  | cons o arr ih =>
    rw [List.map_cons, List.filter_cons]
    cases o with
    | inl i =>
      have e : ∀ x, column U D (.inl i) (Fin.castAdd nb x) = U x i := fun x => by simp [column]
      simp only [e, List.filterMap_cons, Sum.getLeft?_inl, List.filter_cons]
      by_cases h : ∀ x, tol < ‖U x i‖
      · have h' : NoNode tol U i := h
        simp only [h, h', implies_true, decide_true, if_true, List.map_cons, ih, e]
      · have h' : ¬ NoNode tol U i := h
        simp only [h, h', decide_false, Bool.false_eq_true, if_false, ih]
    | inr j =>
      have e : ¬ ∀ x : Fin nb, tol < ‖column U D (.inr j) (Fin.castAdd nb x)‖ := fun h => by
        have := h ⟨0, hb⟩
        simp only [column, Fin.addCases_left, norm_zero] at this
        linarith
      simp only [e, decide_false, Bool.false_eq_true, if_false, List.filterMap_cons, Sum.getLeft?_inr, ih]

open Classical in
theorem filter_dn {tol : ℝ} (ht : 0 ≤ tol) (hb : 0 < nb) (U : Matrix (Fin nb) (Fin nup) ℂ) (D : Matrix (Fin nb) (Fin ndn) ℂ)
    (hU : ∀ i, NoNode tol U i) (arr : List (Fin nup ⊕ Fin ndn)) :
    ((arr.map (column U D)).filter fun v => ¬ ∀ x : Fin nb, tol < ‖v (Fin.castAdd nb x)‖).map (fun v x => v (Fin.natAdd nb x)) =
      (arr.filterMap Sum.getRight?).map fun j x => D x j := by
  induction arr with
  | nil => rfl
  | cons o arr ih =>
    rw [List.map_cons, List.filter_cons]
    cases o with
    | inl i =>
      have e : ∀ x : Fin nb, tol < ‖column U D (.inl i) (Fin.castAdd nb x)‖ := fun x => by
        simpa [column] using hU i x
      rw [if_neg (by simp only [decide_eq_true_eq, not_not]; exact e), ih]
      rfl
    | inr j =>
      have e : ¬ ∀ x : Fin nb, tol < ‖column U D (.inr j) (Fin.castAdd nb x)‖ := fun h => by
        have := h ⟨0, hb⟩
        simp only [column, Fin.addCases_left, norm_zero] at this
        linarith
      rw [if_pos (by simp only [decide_eq_true_eq]; exact e), List.map_cons, ih]
      rw [List.filterMap_cons]
      simp only [Sum.getRight?_inr, List.map_cons]
      congr 1
      funext x
      show Fin.addCases (fun _ => 0) (fun x => D x j) (Fin.natAdd nb x) = D x j
      rw [Fin.addCases_right]

theorem filter_lengths {β : Type} (p : β → Prop) [DecidablePred p] (l : List β) :
    (l.filter fun a => p a).length + (l.filter fun a => ¬ p a).length = l.length := by
  induction l with
  | nil => rfl
  | cons a l ih =>
    by_cases h : p a <;> simp [List.filter_cons, h] at ih ⊢ <;> omega

open Classical in
/-- **C126** A free-electron trial read from a Fortran file: the columns may alternate between the spins in any way, and both sets of
orbitals are read back, if no up orbital has a node. -/
theorem fortran_read {tol : ℝ} (ht : 0 ≤ tol) (hb : 0 < nb) (U : Matrix (Fin nb) (Fin nup) ℂ) (D : Matrix (Fin nb) (Fin ndn) ℂ)
    (hU : ∀ i, NoNode tol U i) {arr : List (Fin nup ⊕ Fin ndn)} (ha : Arranged arr) :
    readFortran tol nb nup ndn (ghfFile U D arr) = some (U, D) := by
  have hl := ha.length
  rw [readFortran, ghfMatrix_file U D hl]
  simp only [Option.bind_eq_bind, Option.bind_some]
  rw [table_up U D hl fun v => ∀ x, tol < ‖v x‖, filter_up ht hb U D arr, table_dn U D hl fun v => ¬ ∀ x, tol < ‖v x‖, filter_dn ht hb U D hU arr,
    ha.up, ha.dn, List.filter_eq_self.2 (fun i _ => decide_eq_true (hU i))]
  have h1 : assign nup ((List.finRange nup).map fun i x => U x i) = some U := by
    rw [assign, if_pos (by simp)]
    congr 1
    ext x j
    simp
  have h2 : assign ndn ((List.finRange ndn).map fun j x => D x j) = some D := by
    rw [assign, if_pos (by simp)]
    congr 1
    ext x j
    simp
  rw [h1, Option.bind_some, h2, Option.bind_some]

theorem assign_some {k : Nat} {cols : List (Fin nb → ℂ)} {M : Matrix (Fin nb) (Fin k) ℂ} (h : assign k cols = some M) :
    cols.length = k ∨ cols.length = 1 ∧ ∀ x i j, M x i = M x j := by
  rw [assign] at h
  split_ifs at h with h1 h2
  · exact .inl h1
  · refine .inr ⟨h2, fun x i j => ?_⟩
    rw [← Option.some.inj h]
    rfl

open Classical in
theorem count_columns {tol : ℝ} (ht : 0 ≤ tol) (hb : 0 < nb) (U : Matrix (Fin nb) (Fin nup) ℂ) (D : Matrix (Fin nb) (Fin ndn) ℂ)
    {arr : List (Fin nup ⊕ Fin ndn)} (ha : Arranged arr) (hl : arr.length = nup + ndn) :
    ((List.finRange nup).filter fun i => NoNode tol U i).length +
      ((List.finRange (nup + ndn)).filter fun c => ¬ ∀ x, tol < ‖table U D arr hl (Fin.castAdd nb x) c‖).length = nup + ndn := by
  have hup := (table_up U D hl fun v => ∀ x, tol < ‖v x‖).trans (filter_up ht hb U D arr)
  rw [ha.up] at hup
  have hlen := congrArg List.length hup
  rw [List.length_map, List.length_map] at hlen
  rw [← hlen]
  refine Eq.trans ?_ ((filter_lengths (fun c => ∀ x, tol < ‖table U D arr hl (Fin.castAdd nb x) c‖) (List.finRange (nup + ndn))).trans
      List.length_finRange)
  congr!

open Classical in
/-- **C126** If an up orbital has a node, reading raises, or two up electrons and no down electron get the same orbital, whose overlap
matrix has no inverse. -/
theorem fortran_node {tol : ℝ} (ht : 0 ≤ tol) (hb : 0 < nb) (U : Matrix (Fin nb) (Fin nup) ℂ) (D : Matrix (Fin nb) (Fin ndn) ℂ)
    {i : Fin nup} (hU : ¬ NoNode tol U i) {arr : List (Fin nup ⊕ Fin ndn)} (ha : Arranged arr) (r)
    (hr : readFortran tol nb nup ndn (ghfFile U D arr) = some r) : nup = 2 ∧ ndn = 0 ∧ (r.1ᴴ * r.1).det = 0 := by
  have hl := ha.length
  rw [readFortran, ghfMatrix_file U D hl] at hr
  simp only [Option.bind_eq_bind, Option.bind_some] at hr
  rw [table_up U D hl fun v => ∀ x, tol < ‖v x‖, filter_up ht hb U D arr, ha.up] at hr
  obtain ⟨V, hV, hr⟩ := Option.bind_eq_some_iff.1 hr
  obtain ⟨W, hW, hr⟩ := Option.bind_eq_some_iff.1 hr
  have hlt : ((List.finRange nup).filter fun i => NoNode tol U i).length < nup := by
    have h1 := filter_lengths (fun i => NoNode tol U i) (List.finRange nup)
    have h2 : i ∈ (List.finRange nup).filter fun i => ¬ NoNode tol U i := List.mem_filter.2 ⟨List.mem_finRange i, decide_eq_true hU⟩
    have h3 := List.length_pos_of_mem h2
    rw [List.length_finRange] at h1
    omega
  have hcount := count_columns ht hb U D ha hl
  rcases assign_some hV with h | ⟨h, hcol⟩
  · rw [List.length_map] at h
    omega
  · rw [List.length_map] at h
    rcases assign_some hW with h' | ⟨h', -⟩
    · rw [List.length_map] at h'
      omega
    · rw [List.length_map] at h'
      have e2 : nup = 2 := by omega
      refine ⟨e2, by omega, ?_⟩
      rw [← Option.some.inj hr]
      refine Matrix.det_zero_of_column_eq (i := ⟨0, by omega⟩) (j := ⟨1, by omega⟩) (fun h => by simpa using congrArg Fin.val h) fun k => ?_
      rw [Matrix.mul_apply, Matrix.mul_apply]
      exact Finset.sum_congr rfl fun x _ => congrArg _ (hcol x ⟨0, by omega⟩ ⟨1, by omega⟩)

open Classical in
/-- **C126** Two up electrons on two sites, the second orbital with a node: both electrons get the first orbital. -/
theorem fortran_repeat : ∃ D, readFortran 1e-10 2 2 0 (ghfFile !![1, 1; 1, 0] (0 : Matrix (Fin 2) (Fin 0) ℂ) [.inl 0, .inl 1]) = some (!![1, 1; 1, 1], D) := by
  have ha : Arranged ([.inl 0, .inl 1] : List (Fin 2 ⊕ Fin 0)) := ⟨rfl, rfl⟩
  have h0 : NoNode 1e-10 (!![1, 1; 1, 0] : Matrix (Fin 2) (Fin 2) ℂ) 0 := by
    intro x
    fin_cases x <;> simp <;> norm_num
  have h1 : ¬ NoNode 1e-10 (!![1, 1; 1, 0] : Matrix (Fin 2) (Fin 2) ℂ) 1 := by
    intro h
    have := h 1
    simp at this
    norm_num at this
  have hf : (List.finRange 2).filter (fun i => NoNode 1e-10 (!![1, 1; 1, 0] : Matrix (Fin 2) (Fin 2) ℂ) i) = [0] := by
    rw [show List.finRange 2 = [0, 1] from rfl]
    simp [h0, h1]
  have hc := count_columns (tol := 1e-10) (by norm_num) (by norm_num) (!![1, 1; 1, 0] : Matrix (Fin 2) (Fin 2) ℂ) (0 : Matrix (Fin 2) (Fin 0) ℂ) ha ha.length
  rw [hf] at hc
  rw [readFortran, ghfMatrix_file _ _ ha.length]
  simp only [Option.bind_eq_bind, Option.bind_some]
  rw [table_up _ _ ha.length fun v => ∀ x, (1e-10 : ℝ) < ‖v x‖, filter_up (by norm_num) (by norm_num), ha.up, hf]
  have h2 : assign 2 ([(0 : Fin 2)].map fun i x => (!![1, 1; 1, 0] : Matrix (Fin 2) (Fin 2) ℂ) x i) = some !![1, 1; 1, 1] := by
    rw [assign, if_neg (by simp), if_pos (by simp)]
    congr 1
    ext x j
    fin_cases x <;> fin_cases j <;> rfl
  rw [h2, Option.bind_some]
  have h3 : ∀ l : List (Fin 2 → ℂ), l.length = 1 → ∃ D, assign 0 l = some D := fun l hl => by
    rw [assign, if_neg (by omega), if_pos hl]
    exact ⟨_, rfl⟩
  rw [List.length_singleton] at hc
  have hc' := Nat.add_left_cancel (hc.trans (show 2 + 0 = 1 + 1 from rfl))
  obtain ⟨D, hD⟩ := h3 (List.map (fun c x => table !![1, 1; 1, 0] (0 : Matrix (Fin 2) (Fin 0) ℂ) [.inl 0, .inl 1] ha.length (Fin.natAdd 2 x) c) _)
    ((List.length_map _).trans hc')
  exact ⟨D, by rw [hD]; rfl⟩

/-- The second orbital of two sites has no node, that of three sites has: `(1, 0, -1)`. -/
example : NoNode 1e-10 (!![1, 1; 1, -1] : Matrix (Fin 2) (Fin 2) ℂ) 1 ∧ ¬ NoNode 1e-10 (!![1, 1; 1, 0; 1, -1] : Matrix (Fin 3) (Fin 2) ℂ) 1 := by
  constructor
  · intro x
    fin_cases x <;> simp <;> norm_num
  · intro h
    have := h 1
    simp at this
    norm_num at this

/-- Columns that alternate. -/
example : Arranged ([.inl 0, .inr 0, .inl 1] : List (Fin 2 ⊕ Fin 1)) := ⟨rfl, rfl⟩

end Verif.TrialFile
