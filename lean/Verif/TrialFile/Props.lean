import Verif.TrialFile.Model

/-!
# Trial wavefunctions in text files (C126)
-/

namespace Verif.TrialFile

open Matrix

variable {α : Type} [Zero α]

/-! ## Lists of blocks of equal length -/

omit [Zero α] in
theorem getElem?_flatMap_const {β : Type} (f : β → List α) (r : Nat) (h : ∀ b, (f b).length = r) : ∀ (l : List β) (j i : Nat), i < r →
    (l.flatMap f)[j * r + i]? = (l[j]?).bind fun b => (f b)[i]?
  | [], j, i, _ => by simp
  | b :: l, 0, i, hi => by
    rw [List.flatMap_cons, List.getElem?_append_left (by rw [h]; omega)]
    simp
  | b :: l, j + 1, i, hi => by
    rw [List.flatMap_cons, List.getElem?_append_right (by rw [h]; nlinarith), h,
      show (j + 1) * r + i - r = j * r + i by rw [Nat.add_mul]; omega, getElem?_flatMap_const f r h l j i hi]
    simp

omit [Zero α] in
theorem length_flatMap_const {β : Type} (f : β → List α) (r : Nat) (h : ∀ b, (f b).length = r) (l : List β) : (l.flatMap f).length = l.length * r := by
  induction l with
  | nil => simp
  | cons b l ih => rw [List.flatMap_cons, List.length_append, ih, h, List.length_cons]; ring

omit [Zero α] in
theorem mapM_num (rnd : α → α) (l : List α) : (l.map fun z => Tok.num (rnd z)).mapM Tok.value = some (l.map rnd) := by
  induction l with
  | nil => rfl
  | cons a l ih => rw [List.map_cons, List.mapM_cons, ih]; rfl

omit [Zero α] in
theorem mapM_num' (l : List α) : (l.map Tok.num).mapM Tok.value = some l := by
  have := mapM_num id l
  simpa using this

theorem ravelF_length {r c : Nat} (C : Matrix (Fin r) (Fin c) α) : (ravelF C).length = c * r := by
  rw [ravelF, length_flatMap_const _ r (fun _ => by simp), List.length_finRange]

theorem ravelF_get {r c : Nat} (C : Matrix (Fin r) (Fin c) α) (i : Fin r) (j : Fin c) : (ravelF C)[j.val * r + i.val]? = some (C i j) := by
  rw [ravelF, getElem?_flatMap_const _ r (fun _ => by simp) _ _ _ i.2]
  simp

theorem square_ravelF {n : Nat} (rnd : α → α) (C : Matrix (Fin n) (Fin n) α) : square n ((ravelF C).map rnd) = some (C.map rnd) := by
  rw [square, if_pos (by rw [List.length_map, ravelF_length])]
  congr 1
  ext i j
  rw [Matrix.of_apply, List.getElem?_map, ravelF_get]
  rfl

/-! ## Files of several determinants -/

theorem flatten_single (l : List α) (f : α → Tok α) : (l.map fun z => [f z]).flatten = l.map f := by
  induction l with
  | nil => rfl
  | cons a l ih => rw [List.map_cons, List.flatten_cons, ih]; rfl

theorem scan_nums (l : List α) (rest : List (Tok α)) (nd : Option Nat) (cs : Option (List (Tok α))) :
    scan (l.map Tok.num ++ rest) nd cs = scan rest nd cs := by
  induction l with
  | nil => rfl
  | cons a l ih => rw [List.map_cons, List.cons_append, scan, ih] <;> simp

/-- The words of the determinants from number `k` on. -/
def detToks {n : Nat} (rnd : α → α) (p : Nat) (k : Nat) (dets : List (Matrix (Fin n) (Fin n) α)) : List (Tok α) :=
  ((dets.zipIdx k).flatMap (detLines rnd p)).flatten

theorem detToks_cons {n : Nat} (rnd : α → α) (p k : Nat) (C : Matrix (Fin n) (Fin n) α) (dets : List (Matrix (Fin n) (Fin n) α)) :
    detToks rnd p k (C :: dets) = .det :: .int (k + 1) :: ((ravelF (pad p C)).map fun z => .num (rnd z)) ++ detToks rnd p (k + 1) dets := by
  rw [detToks, List.zipIdx_cons, List.flatMap_cons, List.flatten_append, detLines, List.flatten_cons, flatten_single]
  rfl

theorem readDets_spec {n : Nat} (rnd : α → α) (p : Nat) : ∀ (dets : List (Matrix (Fin n) (Fin n) α)) (k : Nat),
    readDets (n + p) dets.length ((detToks rnd p k dets).drop 2) = some (dets.map fun C => (pad p C).map rnd)
  | [], _ => rfl
  | C :: dets, k => by
    have hl : ((ravelF (pad p C)).map fun z => Tok.num (rnd z)).length = (n + p) * (n + p) := by rw [List.length_map, ravelF_length]
    rw [detToks_cons, List.length_cons, readDets]
    simp only [List.cons_append, List.drop_succ_cons, List.drop_zero]
    rw [List.take_append_of_le_length hl.ge, List.take_of_length_le hl.le, mapM_num, Option.bind_eq_bind, Option.bind_some, square_ravelF,
      Option.bind_eq_bind, Option.bind_some, ← List.drop_drop, ← hl, List.drop_left, readDets_spec rnd p dets (k + 1)]
    rfl

/-- **C126** A file of determinants written with `write_phfmol_wavefunction` and read with `read_phfmol` for the number of rows after
padding gives back the coefficients and, rounded to the digits of the file, the occupied columns of the padded matrices. -/
theorem phf_roundtrip {n na nb p : Nat} (rnd : α → α) (coeffs : List α) (dets : List (Matrix (Fin n) (Fin n) α)) (h : coeffs.length = dets.length)
    (ha : na ≤ n + p) (hb : nb ≤ n + p) : readPhf (writePhf rnd coeffs dets p) ha hb =
      some (coeffs.map rnd, dets.map fun C => (occ ha ((pad p C).map rnd), occ hb ((pad p C).map rnd))) := by
  have hf : (writePhf rnd coeffs dets p).flatten = [.word, .word, .word, .int 0, .nci, .word, .int coeffs.length, .word, .word, .word, .word, .word,
      .coefs] ++ (coeffs.map fun z => Tok.num (rnd z)) ++ detToks rnd p 0 dets := by
    rw [writePhf, List.flatten_append, List.flatten_append, List.flatten_append, flatten_single]
    rfl
  have hc : (coeffs.map fun z => Tok.num (rnd z)).length = coeffs.length := List.length_map _
  have hs : scan (writePhf rnd coeffs dets p).flatten none none =
      some (some coeffs.length, some (coeffs.map fun z => Tok.num (rnd z)), (detToks rnd p 0 dets).drop 2) := by
    rw [hf]
    simp only [List.cons_append, List.nil_append, List.append_assoc, scan, List.getElem?_cons_zero, List.getElem?_cons_succ, Tok.toInt, Option.bind_some]
    rw [List.take_append_of_le_length hc.ge, List.take_of_length_le hc.le]
    have := scan_nums (coeffs.map rnd) (detToks rnd p 0 dets) (some coeffs.length) (some (coeffs.map fun z => Tok.num (rnd z)))
    rw [List.map_map] at this
    refine this.trans ?_
    cases dets with
    | nil => rfl
    | cons C dets => rw [detToks_cons]; rfl
  rw [readPhf, hs]
  simp only [Option.bind_eq_bind, Option.bind_some]
  rw [mapM_num, h, readDets_spec]
  simp only [Option.bind_some, List.map_map]
  rfl

/-! ## Hartree-Fock trials -/

theorem rows_flatten {r c : Nat} (C : Matrix (Fin r) (Fin c) α) : (rows C).flatten = (ravelF Cᵀ).map Tok.num := by
  rw [rows, ravelF, List.map_flatMap, List.flatMap_def]
  simp only [List.map_map]
  rfl

theorem rows_len {r c : Nat} (C : Matrix (Fin r) (Fin c) α) : ∀ x ∈ rows C, x.length = c := by
  intro x hx
  obtain ⟨i, _, rfl⟩ := List.mem_map.1 hx
  simp

theorem readText_rows {c : Nat} (skip : Nat) (lines : List (List (Tok α))) (L : List α) (h : ∀ x ∈ lines.drop skip, x.length = c)
    (hL : (lines.drop skip).flatten = L.map Tok.num) : readText skip lines = some L := by
  rw [readText, if_pos fun x hx y hy => (h x hx).trans (h y hy).symm, hL, mapM_num']

theorem reshape_ravel {n : Nat} (C : Matrix (Fin n) (Fin n) α) : reshape n (ravelF Cᵀ) = some C := by
  rw [reshape, if_pos (ravelF_length _)]
  congr 1
  ext i j
  rw [Matrix.of_apply, ravelF_get]
  rfl

/-- The orbitals of a file with nine lines before them. -/
theorem hf_orbs {n : Nat} (header : List (List (Tok α))) (h9 : header.length = 9) (hn : 0 < n) (C : Matrix (Fin n) (Fin n) α)
    (D : Option (Matrix (Fin n) (Fin n) α)) : (readText 9 (header ++ rows C ++ (D.map rows).getD [])).bind (hfOrbs n) = some (C, D) := by
  cases D with
  | none =>
    have : (header ++ rows C ++ []).drop 9 = rows C := by rw [List.append_nil, List.drop_left' h9]
    rw [show ((none : Option (Matrix (Fin n) (Fin n) α)).map rows).getD [] = [] from rfl,
      readText_rows 9 _ (ravelF Cᵀ) (c := n) (by rw [this]; exact rows_len C) (by rw [this]; exact rows_flatten C), Option.bind_some, hfOrbs,
      if_pos (ravelF_length _), reshape_ravel]
    rfl
  | some D =>
    have : (header ++ rows C ++ rows D).drop 9 = rows C ++ rows D := by rw [List.append_assoc, List.drop_left' h9]
    have hl := ravelF_length Cᵀ
    have hl' := ravelF_length Dᵀ
    rw [show ((some D).map rows).getD [] = rows D from rfl,
      readText_rows 9 _ (ravelF Cᵀ ++ ravelF Dᵀ) (c := n)
        (by rw [this]; intro x hx; rcases List.mem_append.1 hx with hx | hx; exacts [rows_len C x hx, rows_len D x hx])
        (by rw [this, List.flatten_append, rows_flatten, rows_flatten, List.map_append]), Option.bind_some, hfOrbs,
      if_neg (by rw [List.length_append, hl, hl']; have := Nat.mul_pos hn hn; omega), List.take_left' hl, List.drop_left' hl, reshape_ravel,
      reshape_ravel]
    rfl

/-- **C126** A Hartree-Fock trial from a file whose orbitals begin in the tenth line, row by row, has the lowest columns of the orbitals of
each spin. -/
theorem hartree_fock_file {n nu nd : Nat} (hu : nu ≤ n) (hd : nd ≤ n) (hn : 0 < n) (header : List (List (Tok α))) (h9 : header.length = 9)
    (C : Matrix (Fin n) (Fin n) α) (D : Option (Matrix (Fin n) (Fin n) α)) :
    ∃ psi, hartreeFock hu hd (header ++ rows C ++ (D.map rows).getD []) none = some psi ∧
      (∀ x k, psi x (Fin.castAdd nd k) = C x (Fin.castLE hu k)) ∧ ∀ x k, psi x (Fin.natAdd nu k) = (D.getD C) x (Fin.castLE hd k) := by
  refine ⟨Matrix.of fun x c => Fin.addCases (fun k => occ hu C x k) (fun k => occ hd (D.getD C) x k) c, ?_, fun x k => ?_, fun x k => ?_⟩
  · show (readText 9 (header ++ rows C ++ (D.map rows).getD [])).bind (fun data => (hfOrbs n data).bind fun o => hfPsi hu hd o none) = _
    rw [← Option.bind_assoc, hf_orbs header h9 hn C D]
    rfl
  · rw [Matrix.of_apply, Fin.addCases_left]; rfl
  · rw [Matrix.of_apply, Fin.addCases_right]; rfl

/-- **C126** The text of the routine for QMCPACK files has eight lines before the orbitals: reading it for a Hartree-Fock trial raises for
any number of orbitals if both spins have the same, and for two or more otherwise. -/
theorem dump_unreadable {n nu nd : Nat} (hu : nu ≤ n) (hd : nd ≤ n) (C : Matrix (Fin n) (Fin n) α) (D : Option (Matrix (Fin n) (Fin n) α))
    (hn : (if D.isSome then 2 else 1) ≤ n) (excite : Option (Fin (nu + nd) × Fin n)) : hartreeFock hu hd (dumpText C D) excite = none := by
  obtain ⟨n, rfl⟩ : ∃ k, n = k + 1 := ⟨n - 1, by split_ifs at hn <;> omega⟩
  have hr : ∀ M : Matrix (Fin (n + 1)) (Fin (n + 1)) α, ∃ L : List α, L.length = n * (n + 1) ∧ (∀ x ∈ (rows M).tail, x.length = n + 1) ∧
      (rows M).tail.flatten = L.map Tok.num := by
    intro M
    let N : Matrix (Fin n) (Fin (n + 1)) α := Matrix.of fun i j => M i.succ j
    have : (rows M).tail = rows N := by
      have : ∀ l : List (Fin (n + 1)), ((List.finRange (n + 1)).map fun i => l.map fun j => Tok.num (M i j)).tail =
          (List.finRange n).map fun i => l.map fun j => Tok.num (M i.succ j) := by
        intro l
        rw [List.finRange_succ, List.map_cons, List.tail_cons, List.map_map]
        rfl
      exact this _
    exact ⟨ravelF Nᵀ, ravelF_length _, by rw [this]; exact rows_len N, by rw [this]; exact rows_flatten N⟩
  have hdrop : (dumpText C D).drop 9 = (rows C).tail ++ (D.map rows).getD [] := by
    have : rows C = (rows C).head (by simp [rows, List.finRange_succ]) :: (rows C).tail := (List.cons_head_tail _).symm
    rw [dumpText, this]
    rfl
  obtain ⟨L, hL, hx, hf⟩ := hr C
  cases D with
  | none =>
    rw [show ((none : Option (Matrix (Fin (n + 1)) (Fin (n + 1)) α)).map rows).getD [] = [] from rfl, List.append_nil] at hdrop
    rw [hartreeFock, readText_rows 9 _ L (c := n + 1) (by rw [hdrop]; exact hx) (by rw [hdrop]; exact hf)]
    have h1 : L.length < (n + 1) * (n + 1) := by rw [hL]; nlinarith
    simp only [Option.bind_eq_bind, Option.bind_some, hfOrbs]
    rw [if_neg h1.ne, reshape, if_neg]
    · rfl
    · rw [List.length_take]
      omega
  | some D =>
    have h2 : 2 ≤ n + 1 := hn
    rw [show ((some D).map rows).getD [] = rows D from rfl] at hdrop
    rw [hartreeFock, readText_rows 9 _ (L ++ ravelF Dᵀ) (c := n + 1)
      (by rw [hdrop]; intro x hx'; rcases List.mem_append.1 hx' with h | h; exacts [hx x h, rows_len D x h])
      (by rw [hdrop, List.flatten_append, hf, rows_flatten, List.map_append])]
    have h1 : (L ++ ravelF Dᵀ).length = n * (n + 1) + (n + 1) * (n + 1) := by rw [List.length_append, hL, ravelF_length]
    simp only [Option.bind_eq_bind, Option.bind_some, hfOrbs]
    rw [if_neg (by rw [h1]; nlinarith)]
    have h3 : reshape (n + 1) ((L ++ ravelF Dᵀ).drop ((n + 1) * (n + 1))) = none := by
      rw [reshape, if_neg]
      rw [List.length_drop, h1, Nat.add_sub_cancel]
      nlinarith
    rw [h3]
    cases reshape (n + 1) ((L ++ ravelF Dᵀ).take ((n + 1) * (n + 1))) <;> rfl

/-- **C126** Excitations with orbitals for both spins raise. -/
theorem excite_uhf {n nu nd : Nat} (hu : nu ≤ n) (hd : nd ≤ n) (C D : Matrix (Fin n) (Fin n) α) (ia : Fin (nu + nd) × Fin n) :
    hfPsi hu hd (C, some D) (some ia) = none := rfl

/-- Columns of orthonormal orbitals. -/
theorem columns_overlap {n k : Nat} {C : Matrix (Fin n) (Fin n) ℂ} (hC : Cᴴ * C = 1) (f g : Fin k → Fin n) :
    (C.submatrix id f)ᴴ * C.submatrix id g = Matrix.of fun i j => if f i = g j then 1 else 0 := by
  rw [Matrix.conjTranspose_submatrix, ← Matrix.submatrix_mul _ _ _ _ _ Function.bijective_id, hC]
  ext i j
  rw [Matrix.submatrix_apply, Matrix.one_apply, Matrix.of_apply]

/-- **C126** An excitation of an up electron with common orbitals for both spins: if the new orbital is empty, the up determinant is
normalised and orthogonal to the one without excitation; if it is occupied by another up electron, the determinant vanishes. -/
theorem excite_rhf {n nu nd : Nat} (hu : nu ≤ n) (hd : nd ≤ n) {C : Matrix (Fin n) (Fin n) ℂ} (hC : Cᴴ * C = 1) (i : Fin nu) (a : Fin n) :
    ∃ psi, hfPsi hu hd (C, none) (some (Fin.castAdd nd i, a)) = some psi ∧
      (∀ x k, psi x (Fin.natAdd nu k) = C x (Fin.castLE hd k)) ∧
      (nu ≤ a.val → ((psi.submatrix id (Fin.castAdd nd))ᴴ * psi.submatrix id (Fin.castAdd nd)).det = 1 ∧
        ((occ hu C)ᴴ * psi.submatrix id (Fin.castAdd nd)).det = 0) ∧
      (a.val < nu → a.val ≠ i.val → ((psi.submatrix id (Fin.castAdd nd))ᴴ * psi.submatrix id (Fin.castAdd nd)).det = 0) := by
  obtain ⟨psi, hpsi⟩ : ∃ psi, (Matrix.of fun x c => if c = Fin.castAdd nd i then C x a else
      (Matrix.of fun x c => Fin.addCases (fun k => occ hu C x k) (fun k => occ hd C x k) c : Matrix (Fin n) (Fin (nu + nd)) ℂ) x c :
        Matrix (Fin n) (Fin (nu + nd)) ℂ) = psi := ⟨_, rfl⟩
  refine ⟨psi, congrArg some hpsi, fun x k => ?_, ?_⟩
  · rw [← hpsi, Matrix.of_apply, if_neg, Matrix.of_apply, Fin.addCases_right]
    · rfl
    · intro h
      have := congrArg Fin.val h
      simp only [Fin.val_natAdd, Fin.val_castAdd] at this
      have := i.2
      omega
  · let f : Fin nu → Fin n := fun k => if k = i then a else Fin.castLE hu k
    have hs : psi.submatrix id (Fin.castAdd nd) = C.submatrix id f := by
      subst hpsi
      ext x k
      simp only [Matrix.submatrix_apply, Matrix.of_apply, Fin.addCases_left, id, f, Fin.castAdd_inj]
      split_ifs <;> rfl
    rw [hs]
    refine ⟨fun ha => ⟨?_, ?_⟩, fun ha hai => ?_⟩
    · rw [columns_overlap hC]
      have : (Matrix.of fun j k => if f j = f k then (1 : ℂ) else 0) = 1 := by
        ext j k
        rw [Matrix.of_apply, Matrix.one_apply]
        have : f j = f k ↔ j = k := by
          refine ⟨fun h => ?_, fun h => by rw [h]⟩
          have hv := congrArg Fin.val h
          simp only [f] at hv
          have := j.2
          have := k.2
          split_ifs at hv with h1 h2 h2
          · rw [h1, h2]
          · simp at hv; omega
          · simp at hv; omega
          · simp at hv; exact Fin.ext hv
        simp only [this]
      rw [this, Matrix.det_one]
    · rw [occ, columns_overlap hC]
      refine Matrix.det_eq_zero_of_column_eq_zero i fun j => ?_
      rw [Matrix.of_apply, if_neg]
      intro h
      have hv := congrArg Fin.val h
      simp only [f, if_true, Fin.val_castLE] at hv
      have := j.2
      omega
    · rw [columns_overlap hC]
      refine Matrix.det_zero_of_column_eq (i := i) (j := ⟨a.val, ha⟩) (fun h => hai (congrArg Fin.val h).symm) fun j => ?_
      have h1 : f i = a := by simp only [f, if_true]
      have h2 : f ⟨a.val, ha⟩ = a := by
        simp only [f]
        rw [if_neg (fun h => hai (congrArg Fin.val h))]
        rfl
      rw [Matrix.of_apply, Matrix.of_apply, h1, h2]

end Verif.TrialFile
