import Verif.Convert.Model
import Verif.Chol.Props

/-!
# Proofs about the conversion
-/

namespace Verif.Convert

open Verif.Files (FFile FRead readFcidump Quad RSt Line readLine readLines set1 set2 setAll assigns)

variable {n m r c : Nat}

/-! ## Arrays in files -/

theorem pairUp_flatMap {α : Type*} (f : α → ℂ) (g : List α) : pairUp (g.flatMap fun a => [(f a).re, (f a).im]) = g.map f := by
  induction g with
  | nil => rfl
  | cons a g ih => simp [pairUp, ih]

/-- Elements of a row-major list. -/
theorem rowMajor {α : Type*} (f : Nat → Nat → α) (d : α) (r c i j : Nat) (hi : i < r) (hj : j < c) :
    ((List.range r).flatMap fun i => (List.range c).map (f i)).getD (i * c + j) d = f i j := by
  induction r generalizing i f with
  | zero => omega
  | succ r ih =>
    rw [List.range_succ_eq_map, List.flatMap_cons, List.flatMap_map]
    cases i with
    | zero =>
      rw [List.getD_eq_getElem?_getD, List.getElem?_append_left (by simpa using hj)]
      simp [hj]
    | succ i =>
      rw [List.getD_eq_getElem?_getD, List.getElem?_append_right (by simp; nlinarith), ← List.getD_eq_getElem?_getD]
      have e : (i + 1) * c + j - ((List.range c).map (f 0)).length = i * c + j := by
        rw [List.length_map, List.length_range, Nat.succ_mul]
        omega
      rw [e]
      exact ih (fun i => f (i + 1)) i (by omega)

theorem rowMajor_fin {α : Type*} (f : Fin r → Fin c → α) (d : α) (i : Fin r) (j : Fin c) :
    ((List.finRange r).flatMap fun i => (List.finRange c).map (f i)).getD (i * c + j) d = f i j := by
  let g : Nat → Nat → α := fun a b => if h : a < r ∧ b < c then f ⟨a, h.1⟩ ⟨b, h.2⟩ else d
  have h1 : ((List.finRange r).flatMap fun i => (List.finRange c).map (f i)) =
      (List.range r).flatMap fun i => (List.range c).map (g i) := by
    have e1 : List.range r = (List.finRange r).map Fin.val := by simp
    have e2 : List.range c = (List.finRange c).map Fin.val := by simp
    rw [e1, e2, List.flatMap_map]
    refine List.flatMap_congr fun i _ => ?_
    rw [List.map_map]
    refine List.map_congr_left fun j _ => ?_
    simp [g]
  rw [h1, rowMajor g d r c i j i.2 j.2]
  simp [g]

theorem cplxSet_view (M : Fin r → Fin c → ℂ) :
    view (cplxSet M) = some ((List.finRange r).flatMap fun i => (List.finRange c).map (M i)) := by
  have h : (List.finRange r).flatMap (fun i => (List.finRange c).flatMap fun j => [(M i j).re, (M i j).im]) =
      ((List.finRange r).flatMap fun i => (List.finRange c).map (M i)).flatMap fun z => [z.re, z.im] := by
    rw [List.flatMap_assoc]
    refine List.flatMap_congr fun i _ => ?_
    rw [List.flatMap_map]
  simp only [view, cplxSet, List.getLast?_cons_cons, List.getLast?_singleton, h]
  have := pairUp_flatMap (fun z : ℂ => z) ((List.finRange r).flatMap fun i => (List.finRange c).map (M i))
  simpa using this

theorem length_flat {α : Type*} (f : Fin r → Fin c → α) : ((List.finRange r).flatMap fun i => (List.finRange c).map (f i)).length = r * c := by
  simp [List.length_flatMap]

/-- Half as many complex numbers. -/
theorem pairUp_length : ∀ l : List ℝ, (pairUp l).length = l.length / 2
  | [] => rfl
  | [_] => by simp [pairUp]
  | a :: b :: l => by
    simp only [pairUp, List.length_cons, pairUp_length l]
    omega

/-- A matrix of real numbers is not taken for one of complex numbers. -/
theorem realSet_fromComplex (hn : 0 < n) (M : Fin n → Fin n → ℝ) : fromComplex (realSet M) n n = none := by
  simp only [fromComplex, view, realSet, List.getLast?_cons_cons, List.getLast?_singleton]
  split_ifs with h
  · have h1 : 0 < n * n := Nat.mul_pos hn hn
    rw [Option.bind_some, pairUp_length, length_flat, if_neg (by omega)]
  · rfl

/-- **C101**: what was written in the real format is read. -/
theorem dense_real (hn : 0 < n) (hcore : Fin n → Fin n → ℂ) (chol : Fin (n * n) → Fin m → ℂ) (nelec : Int × Int) (enuc : ℂ) :
    let s := readDense (writeDense hcore chol nelec enuc true)
    (∀ i j : Fin n, s.hcore.at i j = ((hcore i j).re : ℂ)) ∧ (∀ (p : Fin (n * n)) (x : Fin m), s.chol.at p x = ((chol p x).re : ℂ)) ∧ s.chol.cols = m ∧
      s.enuc = enuc ∧ s.nmo = n ∧ s.nelec = nelec := by
  have h1 : (writeDense hcore chol nelec enuc true).dims.getD 3 0 = n := rfl
  have hr : readDense (writeDense hcore chol nelec enuc true) =
      ⟨asReal (realSet fun i j => (hcore i j).re), asReal (realSet fun i j => (chol i j).re), enuc, n, nelec⟩ := by
    simp only [readDense, h1, Int.toNat_natCast]
    have h2 : fromComplex (writeDense hcore chol nelec enuc true).hcore n n = none := realSet_fromComplex hn _
    rw [h2]
    rfl
  have hat : ∀ {r c : Nat} (M : Fin r → Fin c → ℝ) (i : Fin r) (j : Fin c), (asReal (realSet M)).at i j = (M i j : ℂ) := by
    intro r c M i j
    have := rowMajor_fin (fun i j => (M i j : ℂ)) 0 i j
    rw [← this]
    simp only [asReal, realSet, Arr.at, List.map_flatMap, List.map_map]
    rfl
  rw [hr]
  exact ⟨fun i j => hat _ i j, fun p x => hat _ p x, rfl, rfl, rfl, rfl⟩

/-- **C101**: what was written in the complex format is read. -/
theorem dense_cplx (hn : 0 < n) (hcore : Fin n → Fin n → ℂ) (chol : Fin (n * n) → Fin m → ℂ) (nelec : Int × Int) (enuc : ℂ) :
    let s := readDense (writeDense hcore chol nelec enuc false)
    (∀ i j : Fin n, s.hcore.at i j = hcore i j) ∧ (∀ (p : Fin (n * n)) (x : Fin m), s.chol.at p x = chol p x) ∧ s.chol.cols = m ∧
      s.enuc = enuc ∧ s.nmo = n ∧ s.nelec = nelec := by
  have hnn : 0 < n * n := Nat.mul_pos hn hn
  have h1 : (writeDense hcore chol nelec enuc false).dims.getD 3 0 = n := rfl
  have h2 : fromComplex (cplxSet hcore) n n = some ⟨n, n, (List.finRange n).flatMap fun i => (List.finRange n).map (hcore i)⟩ := by
    rw [fromComplex, cplxSet_view, Option.bind_some, if_pos (length_flat hcore)]
  have h3 : fromComplexFree (cplxSet chol) (n * n) =
      some ⟨n * n, m, (List.finRange (n * n)).flatMap fun i => (List.finRange m).map (chol i)⟩ := by
    rw [fromComplexFree, cplxSet_view, Option.bind_some, length_flat chol, if_pos ⟨hnn.ne', Dvd.intro _ rfl⟩, Nat.mul_div_cancel_left _ hnn]
  have hr : readDense (writeDense hcore chol nelec enuc false) = ⟨⟨n, n, (List.finRange n).flatMap fun i => (List.finRange n).map (hcore i)⟩,
      ⟨n * n, m, (List.finRange (n * n)).flatMap fun i => (List.finRange m).map (chol i)⟩, enuc, n, nelec⟩ := by
    simp only [readDense, h1, Int.toNat_natCast]
    have e2 : (writeDense hcore chol nelec enuc false).hcore = cplxSet hcore := rfl
    have e3 : (writeDense hcore chol nelec enuc false).chol = cplxSet chol := rfl
    rw [e2, e3, h2, h3]
    rfl
  rw [hr]
  exact ⟨fun i j => rowMajor_fin hcore 0 i j, fun p x => rowMajor_fin chol 0 p x, rfl, rfl, rfl, rfl⟩

end Verif.Convert
