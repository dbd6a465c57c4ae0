import Verif.Convert.Main
import Mathlib.Tactic.FinCases

/-!
# The conversion of an FCIDUMP file: a case, and where it goes wrong
-/

namespace Verif.Convert

open Verif.Files (FFile FRead readFcidump Quad RSt Line readLine readLines set1 set2 setAll assigns orbit)

open scoped ComplexOrder

/-- A sum of squares of vectors. -/
theorem posSemidef_of_vectors {N m : Nat} (M : Matrix (Fin N) (Fin N) ℂ) (c : Fin m → Fin N → ℂ)
    (h : ∀ a b, M a b = ∑ x, c x a * star (c x b)) : M.PosSemidef := by
  have h1 : M = ∑ x, Matrix.vecMulVec (c x) (star (c x)) := by
    ext a b
    rw [h, Matrix.sum_apply]
    rfl
  rw [h1]
  exact Matrix.posSemidef_sum _ fun x _ => Matrix.posSemidef_vecMulVec_self_star (c x)

/-- A positive matrix of integrals from vectors over pairs of orbitals. -/
theorem eriMatrix_posSemidef {n m : Nat} (h2 : Quad → ℂ) (L : Fin n → Fin n → Fin m → ℂ)
    (h : ∀ i k j l : Fin n, h2 (i, k, j, l) = ∑ x, L i k x * star (L l j x)) : (eriMatrix n h2).PosSemidef := by
  refine posSemidef_of_vectors _ (fun x a => L (finProdFinEquiv.symm a).1 (finProdFinEquiv.symm a).2 x) fun a b => ?_
  obtain ⟨⟨i, k⟩, rfl⟩ := finProdFinEquiv.surjective a
  obtain ⟨⟨l, j⟩, rfl⟩ := finProdFinEquiv.surjective b
  rw [eriMatrix_pair, h]
  simp only [Equiv.symm_apply_apply]

/-! ## A case -/

/-- Two orbitals: Coulomb integrals, an exchange integral, hopping and a core energy. -/
noncomputable def smallFile : FFile :=
  ⟨2, 2, 0, [.five 1 (1, 1, 1, 1), .five (1 / 4) (2, 1, 2, 1), .five (1 / 2) (2, 2, 1, 1), .five (5 / 4) (2, 2, 2, 2),
    .five (-1) (2, 1, 0, 0), .five 2 (0, 0, 0, 0)]⟩

noncomputable def smallL (i k : Fin 2) : Fin 3 → ℂ := ![![![1, 0, 0], ![0, 1 / 2, 0]], ![![0, 1 / 2, 0], ![1 / 2, 0, 1]]] i k

theorem star_two : (starRingEnd ℂ) 2 = 2 := by
  exact_mod_cast Complex.conj_ofReal 2

theorem small_read : ∃ r, readFcidump smallFile 8 = some r ∧ r.h1 0 1 = -1 ∧ r.ecore = 2 ∧ r.nelec = (1, 1) ∧
    ∀ i k j l : Fin 2, r.h2 (i, k, j, l) = ∑ x, smallL i k x * star (smallL l j x) := by
  refine ⟨⟨set1 (set1 (fun _ _ => 0) 1 0 ((-1 : ℝ) : ℂ)) 0 1 (star ((-1 : ℝ) : ℂ)), setAll (setAll (setAll (setAll (fun _ => 0)
    (assigns 8 (0, 0, 0, 0) ((1 : ℝ) : ℂ))) (assigns 8 (1, 0, 1, 0) ((1 / 4 : ℝ) : ℂ))) (assigns 8 (1, 1, 0, 0) ((1 / 2 : ℝ) : ℂ)))
    (assigns 8 (1, 1, 1, 1) ((5 / 4 : ℝ) : ℂ)), ((2 : ℝ) : ℂ), (1, 1)⟩, rfl, ?_, by simp, rfl, fun i k j l => ?_⟩
  · simp [set1]
  · simp only [setAll_eight _ _ _ (ofReal_star _), Files.orbit_eight]
    fin_cases i <;> fin_cases k <;> fin_cases j <;> fin_cases l <;> simp [smallL, Fin.sum_univ_three, Matrix.vecHead, Matrix.vecTail, star_two] <;> norm_num

/-- The hypotheses of `convert_real` are met, and the conversion succeeds. -/
theorem small_case : ∃ (amax : (Fin (2 * 2) → ℝ) → Fin (2 * 2)) (r : FRead) (file : HFile), (∀ (x : Fin (2 * 2) → ℝ) (i : Fin (2 * 2)), x i ≤ x (amax x)) ∧
    readFcidump smallFile 8 = some r ∧ (eriMatrix 2 r.h2).PosSemidef ∧ convert smallFile amax 8 (1 / 100) false = some file ∧
    (readDense file).hcore.at 0 1 = -1 ∧ (readDense file).enuc = 2 ∧ ‖hijkl (readDense file) 0 1 0 1 - 1 / 2‖ ≤ 1 / 100 := by
  obtain ⟨r, hr, h1, he, -, h2⟩ := small_read
  have hM := eriMatrix_posSemidef (n := 2) r.h2 smallL h2
  choose amax ham using fun x : Fin (2 * 2) → ℝ => Finite.exists_max x
  obtain ⟨file, hf⟩ := convert_succeeds smallFile (by norm_num [smallFile]) (by norm_num [smallFile]) amax ham 8 (1 / 100) (by norm_num) false
    r hr hM
  obtain ⟨-, a2, -, a4, a5⟩ := convert_real smallFile (by norm_num [smallFile]) (by simp [smallFile]) amax ham (1 / 100) (by norm_num) false r hr
    hM file hf
  refine ⟨amax, r, file, ham, hr, hM, hf, ?_, a2.trans he, ?_⟩
  · exact (a4 (0 : Fin 2) (1 : Fin 2)).trans h1
  · have h3 := a5 (0 : Fin 2) (1 : Fin 2) (0 : Fin 2) (1 : Fin 2)
    rw [h2] at h3
    have h4 : (∑ x, smallL 0 0 x * star (smallL 1 1 x)) = 1 / 2 := by
      simp [smallL, Fin.sum_univ_three, Matrix.vecHead, Matrix.vecTail, star_two]
    rw [h4] at h3
    exact h3

/-! ## Integrals without the symmetries of real orbitals -/

/-- Real integrals `(ik|jl) = S_ik S_jl` with `S` the second Pauli matrix: all have only the four symmetries of complex orbitals. -/
def pauliFile : FFile := ⟨2, 2, 0, [.five (-1) (1, 2, 1, 2), .five 1 (1, 2, 2, 1), .five 0 (0, 0, 0, 0)]⟩

noncomputable def pauliL (i k : Fin 2) : Fin 1 → ℂ := ![![![0], ![Complex.I]], ![![-Complex.I], ![0]]] i k

theorem pauli_read : ∃ r, readFcidump pauliFile 4 = some r ∧ (∀ i j, r.h1 i j = 0) ∧ (∀ q, star (r.h2 q) = r.h2 q) ∧
    ∀ i k j l : Fin 2, r.h2 (i, k, j, l) = ∑ x, pauliL i k x * star (pauliL l j x) := by
  refine ⟨⟨fun _ _ => 0, setAll (setAll (fun _ => 0) (assigns 4 (0, 1, 0, 1) ((-1 : ℝ) : ℂ))) (assigns 4 (0, 1, 1, 0) ((1 : ℝ) : ℂ)),
    ((0 : ℝ) : ℂ), (1, 1)⟩, rfl, fun _ _ => rfl, fun q => ?_, fun i k j l => ?_⟩
  · have hset : ∀ (h : Quad → ℂ) (p : Quad) (v : ℝ), (∀ q, star (h q) = h q) → ∀ q, star (set2 h p v q) = set2 h p v q := by
      intro h p v hh q
      simp only [set2]
      split_ifs
      · exact ofReal_star v
      · exact hh q
    have hall : ∀ (h : Quad → ℂ) (p : Quad) (v : ℝ), (∀ q, star (h q) = h q) → ∀ q, star (setAll h (assigns 4 p v) q) = setAll h (assigns 4 p v) q := by
      rintro h ⟨i, k, j, l⟩ v hh
      simp only [assigns, ofReal_star]
      exact hset _ _ _ (hset _ _ _ (hset _ _ _ (hset _ _ _ hh)))
    exact hall _ _ _ (hall _ _ _ fun _ => star_zero _) q
  · simp only [setAll, assigns, set2]
    fin_cases i <;> fin_cases k <;> fin_cases j <;> fin_cases l <;> simp [pauliL, set2]

/-- **C101** (finding): a run on the converted file sees an integral of the wrong sign, whatever the threshold below one. -/
theorem conjugate_missing (amax : (Fin (2 * 2) → ℝ) → Fin (2 * 2)) (ham : ∀ (x : Fin (2 * 2) → ℝ) (i : Fin (2 * 2)), x i ≤ x (amax x)) (thresh : ℝ) (ht : 0 ≤ thresh)
    (ht1 : thresh < 1) (wc : Bool) : ∃ r file, readFcidump pauliFile 4 = some r ∧ (eriMatrix 2 r.h2).PosSemidef ∧
      convert pauliFile amax 4 thresh wc = some file ∧ r.h2 (0, 1, 0, 1) = -1 ∧ 1 - thresh ≤ (hijkl (readDense file) 0 0 1 1).re := by
  obtain ⟨r, hr, h1, hs, h2⟩ := pauli_read
  have hM := eriMatrix_posSemidef (n := 2) r.h2 pauliL h2
  obtain ⟨file, hf⟩ := convert_succeeds pauliFile (by norm_num [pauliFile]) (by norm_num [pauliFile]) amax ham 4 thresh ht wc r hr hM
  refine ⟨r, file, hr, hM, hf, ?_, ?_⟩
  · have := h2 0 1 0 1
    simp [pauliL] at this
    exact this
  · obtain ⟨a1, -, -, -, -, a6⟩ := convert_hermitian pauliFile (by norm_num [pauliFile]) amax ham 4 thresh ht wc r hr hM
      (Or.inr ⟨fun i j => by rw [h1, star_zero], fun i k j l => hs _⟩) file hf
    obtain ⟨vs, hvs, b1, b2⟩ := convert_chol pauliFile (by norm_num [pauliFile]) amax 4 thresh wc r hr file hf
    have hreal := cholesky_real amax (eriMatrix 2 r.h2) (fun a b => hs _) thresh _ vs hvs
    have h3 := a6 (0 : Fin 2) (1 : Fin 2) (1 : Fin 2) (0 : Fin 2)
    have h4 : r.h2 (0, 1, 1, 0) = 1 := by
      have := h2 0 1 1 0
      simp [pauliL] at this
      exact this
    have h5 : hijkl (readDense file) 0 0 1 1 = ∑ x ∈ Finset.range (readDense file).chol.cols,
        (readDense file).chol.at (0 * (readDense file).nmo + 1) x * star ((readDense file).chol.at (0 * (readDense file).nmo + 1) x) := by
      rw [hijkl]
      refine Finset.sum_congr rfl fun x hx => ?_
      have hx' : x < vs.length := by rw [← b1]; exact Finset.mem_range.1 hx
      have h6 := b2 (1 : Fin (2 * 2)) ⟨x, hx'⟩
      have h7 : star ((readDense file).chol.at 1 x) = (readDense file).chol.at 1 x := by
        rw [show (readDense file).chol.at 1 x = _ from h6]
        split_ifs
        · exact hreal _ (List.getElem_mem _) _
        · exact ofReal_star _
      rw [Nat.zero_mul, Nat.zero_add, h7]
    have h8 : ‖hijkl (readDense file) 0 0 1 1 - 1‖ ≤ thresh := by
      rw [h5, ← h4]
      exact h3
    have h9 := (Complex.abs_re_le_norm _).trans h8
    rw [Complex.sub_re, Complex.one_re, abs_le] at h9
    linarith [h9.1]

/-! ## The imaginary part of the one-body matrix -/

/-- One imaginary hopping, no interaction. -/
def fluxFile : FFile := ⟨2, 2, 0, [.six 0 1 (1, 2, 0, 0), .six 0 0 (0, 0, 0, 0)]⟩

/-- **C101** (finding): the conversion asks only the two-body integrals whether the file is to be complex, so an imaginary one-body
element is dropped without a word. -/
theorem hcore_dropped (amax : (Fin (2 * 2) → ℝ) → Fin (2 * 2)) (ham : ∀ (x : Fin (2 * 2) → ℝ) (i : Fin (2 * 2)), x i ≤ x (amax x)) (thresh : ℝ) (ht : 0 ≤ thresh) :
    ∃ r file, readFcidump fluxFile 4 = some r ∧ convert fluxFile amax 4 thresh false = some file ∧ r.h1 0 1 = Complex.I ∧
      (readDense file).hcore.at 0 1 = 0 := by
  have hr : readFcidump fluxFile 4 = some ⟨set1 (set1 (fun _ _ => 0) 0 1 ⟨0, 1⟩) 1 0 (star ⟨0, 1⟩), fun _ => 0, ⟨0, 0⟩, (1, 1)⟩ := rfl
  obtain ⟨file, hf⟩ := convert_succeeds fluxFile (by norm_num [fluxFile]) (by norm_num [fluxFile]) amax ham 4 thresh ht false _ hr
    (by
      have h0 : eriMatrix fluxFile.norb (fun _ => 0) = 0 := by
        ext a b
        rfl
      rw [h0]
      exact Matrix.PosSemidef.zero)
  refine ⟨_, file, hr, hf, ?_, ?_⟩
  · simp [set1, Complex.ext_iff]
  · simp only [convert, hr, Option.bind_some] at hf
    rw [Option.map_eq_some_iff] at hf
    obtain ⟨vs, hvs, rfl⟩ := hf
    have hc : cplxChol fluxFile.norb (fun _ => 0) false = false := by
      simp [cplxChol]
    rw [hc]
    have h1 := (dense_real (n := fluxFile.norb) (by norm_num [fluxFile]) (fun i j => set1 (set1 (fun _ _ => 0) 0 1 ⟨0, 1⟩) 1 0 (star ⟨0, 1⟩) i j)
      (fun p (x : Fin vs.length) => vs[x] p) (1, 1) ⟨0, 0⟩).1 (0 : Fin 2) (1 : Fin 2)
    refine h1.trans ?_
    simp [set1]

end Verif.Convert
