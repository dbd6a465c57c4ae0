import Verif.UEG.Real
import Verif.Files.Sparse

/-!
# The Hamiltonian file of the electron gas

Model of `write_integrals` of `pauxy/systems/ueg.py` and of the generic system that is set up from the file
(`read_integrals`, pauxy/systems/generic.py 186-200, which calls `from_qmcpack_sparse`, pauxy/utils/io.py
129-174; for complex values this is the reader of `Verif.Files.Sparse`).
-/

namespace Verif.UEG

open Finset Matrix

/-- The matrix `2*chol_vecs.toarray()` handed over by `write_integrals`, ueg.py 430-433: row `p*nbasis + r`
is the pair `(p, r)`, the column is the momentum transfer. -/
noncomputable def cholTable (I : Inp) (a : Fin (nb I * nb I)) (x : Fin (qvecs I).length) : ℂ :=
  2 * (rho I (qvecs I)[x] (finProdFinEquiv.symm a).1 (finProdFinEquiv.symm a).2 : ℂ)

/-- `write_integrals`, ueg.py 430-433: one-body matrix `H1[0]`, no core energy, the cutoff `1e-16` of
`write_qmcpack_sparse`. -/
noncomputable def writeIntegrals (I : Inp) (nelec : Nat × Nat) : Files.HFile :=
  Files.writeSparse (fun i j : Fin (nb I) => if i = j then (energy I (bv I i) : ℂ) else 0) (cholTable I) nelec 0
    false (1 / 10 ^ 16)

/-- The Cholesky vectors of the generic system set up from the file: column `x` as a matrix, generic.py 170-171. -/
def fileVec {n m : Nat} (c : Fin (n * n) → Fin m → ℂ) (x : Fin m) : Matrix (Fin n) (Fin n) ℂ :=
  Matrix.of fun p r => c (finProdFinEquiv (p, r)) x

/-- All non-zero entries are above the cutoff of the file. -/
def AboveCutoff (I : Inp) : Prop :=
  ∀ q ∈ qvecs I, (1 : ℝ) / 10 ^ 16 < 2 * Real.sqrt (Real.pi / I.vol / (I.kfac ^ 2 * (nsq q : ℝ)))

theorem rho_diag (I : Inp) (hk : 0 < I.kfac) (ht : I.twist = 0) (q : Vec) (hq : q ∈ qvecs I) (p : Fin (nb I)) :
    rho I q p p = 0 := by
  unfold rho
  rw [Matrix.of_apply, if_neg]
  intro h
  have := (lookup_bv I (setupOk_untwisted I hk ht) _ _).mp h
  exact ((mem_qvecs I hk ht q).mp hq).1 (by simpa using this)

theorem rho_both (I : Inp) (hk : 0 < I.kfac) (ht : I.twist = 0) (q : Vec) (hq : q ∈ qvecs I) (p r : Fin (nb I)) :
    rho I q p r * rho I q r p = 0 := by
  unfold rho
  rw [Matrix.of_apply, Matrix.of_apply]
  by_cases h1 : lookup I (bv I r + q) = some p.val
  · by_cases h2 : lookup I (bv I p + q) = some r.val
    · exfalso
      have e1 := (lookup_bv I (setupOk_untwisted I hk ht) _ _).mp h1
      have e2 := (lookup_bv I (setupOk_untwisted I hk ht) _ _).mp h2
      refine ((mem_qvecs I hk ht q).mp hq).1 (neg_self ?_)
      have h3 : q + q = 0 := by
        have e3 : bv I r + q + q = bv I r := by rw [← e1] at e2; exact e2
        simpa [add_assoc] using e3
      exact neg_eq_of_add_eq_zero_left h3
    · rw [if_neg h2, mul_zero]
  · rw [if_neg h1, zero_mul]

/-- The file is read back without loss: one-body matrix, no core energy, electron numbers and vectors. -/
theorem file_roundtrip (I : Inp) (nelec : Nat × Nat) (hc : AboveCutoff I) :
    ∃ r : Files.HRead (writeIntegrals I nelec), Files.readSparse (writeIntegrals I nelec) = some r ∧
      r.hcore = Files.flat (nb I) (fun i j => if i = j then (energy I (bv I i) : ℂ) else 0) ∧ r.enuc = 0 ∧
      r.nelec = nelec ∧ ∀ (p s : Fin (nb I)) (x : Fin (qvecs I).length),
        fileVec (n := nb I) (m := (qvecs I).length) r.chol x p s = 2 * (rho I (qvecs I)[x] p s : ℂ) := by
  obtain ⟨r, h1, h2, h3, _, h5, h6, h7⟩ := Files.sparse_roundtrip
    (fun i j : Fin (nb I) => if i = j then (energy I (bv I i) : ℂ) else 0) (cholTable I) nelec 0 (1 / 10 ^ 16)
  refine ⟨r, h1, h2, h3, h5, fun p s x => ?_⟩
  have hv : cholTable I (finProdFinEquiv (p, s)) x = 2 * (rho I (qvecs I)[x] p s : ℂ) := by
    unfold cholTable; rw [Equiv.symm_apply_apply]
  show r.chol (finProdFinEquiv (p, s)) x = _
  by_cases h : (1 : ℝ) / 10 ^ 16 < ‖cholTable I (finProdFinEquiv (p, s)) x‖
  · exact (h6 _ _ h).trans hv
  · refine (h7 _ _ h).trans ?_
    rw [hv] at h
    by_cases hl : lookup I (bv I s + (qvecs I)[x]) = some p.val
    · exfalso
      apply h
      unfold rho
      rw [Matrix.of_apply, if_pos hl, norm_mul, Complex.norm_ofNat, Complex.norm_real, Real.norm_eq_abs,
        abs_of_nonneg (Real.sqrt_nonneg _)]
      exact hc _ (List.getElem_mem _)
    · unfold rho
      rw [Matrix.of_apply, if_neg hl]; simp

/-- **C118 (what the file holds)**: with the conjugate of the second vector, as in the format the file is
written for, the vectors give the Coulomb integrals `(pr|qs)`. -/
theorem file_coulomb (I : Inp) (hk : 0 < I.kfac) (hv : 0 < I.vol) (ht : I.twist = 0) (nelec : Nat × Nat)
    (hc : AboveCutoff I) : ∃ r : Files.HRead (writeIntegrals I nelec),
      Files.readSparse (writeIntegrals I nelec) = some r ∧
      r.hcore = Files.flat (nb I) (fun i j => if i = j then (energy I (bv I i) : ℂ) else 0) ∧
      ∀ p u q s : Fin (nb I), ∑ x, fileVec (n := nb I) (m := (qvecs I).length) r.chol x p u *
        star (fileVec (n := nb I) (m := (qvecs I).length) r.chol x s q) = (hijkl I p q u s : ℂ) := by
  obtain ⟨r, h1, h2, _, _, h5⟩ := file_roundtrip I nelec hc
  refine ⟨r, h1, h2, fun p u q s => ?_⟩
  simp only [h5]
  rw [← eri4_eq I hk hv ht, eri4, ← List.sum_map_mul_left]
  rw [list_sum_ofReal, ← Fin.sum_univ_fun_getElem]
  refine sum_congr rfl fun x _ => ?_
  rw [star_mul', Complex.star_def, Complex.conj_ofReal, map_ofNat]
  push_cast
  simp only [Fin.getElem_fin]
  ring

/-- The two-body energy of a determinant of plane waves in a generic run set up from the file. -/
theorem file_generic (I : Inp) (hk : 0 < I.kfac) (ht : I.twist = 0) (nelec : Nat × Nat)
    (hc : AboveCutoff I) (r : Files.HRead (writeIntegrals I nelec))
    (hr : Files.readSparse (writeIntegrals I nelec) = some r) (a b : Finset (Fin (nb I)))
    (h1 : Fin 2 → Matrix (Fin (nb I)) (Fin (nb I)) ℂ) (ecore : ℂ) :
    (Energy.localChol h1 (fileVec (n := nb I) (m := (qvecs I).length) r.chol)
      ![planeWaves I a, planeWaves I b] ecore).2.2 = 0 := by
  obtain ⟨r', h1', _, _, _, h5⟩ := file_roundtrip I nelec hc
  rw [hr] at h1'
  cases h1'
  set L := fileVec (n := nb I) (m := (qvecs I).length) r.chol with hL
  have hX : ∀ (c : Finset (Fin (nb I))) x, Energy.dot2 (L x) (planeWaves I c) = 0 := by
    intro c x
    unfold Energy.dot2
    refine sum_eq_zero fun p _ => sum_eq_zero fun u _ => ?_
    by_cases h : p = u
    · subst h
      rw [h5, rho_diag I hk ht (qvecs I)[x] (List.getElem_mem _)]; simp
    · unfold planeWaves
      rw [Matrix.diagonal_apply_ne _ h, mul_zero]
  have hT : ∀ (c : Finset (Fin (nb I))) (x : Fin (qvecs I).length) (l k : Fin (nb I)),
      ∑ i, planeWaves I c i l * L x i k = (if l ∈ c then 1 else 0) * L x l k := by
    intro c x l k
    rw [sum_eq_single l]
    · unfold planeWaves; rw [Matrix.diagonal_apply_eq]
    · intro i _ hi
      unfold planeWaves
      rw [Matrix.diagonal_apply_ne _ hi, zero_mul]
    · intro h; exact absurd (mem_univ _) h
  have hexx : ∀ c : Finset (Fin (nb I)), ∑ l, ∑ k, ∑ x, (∑ i, planeWaves I c i l * L x i k) *
      (∑ i, planeWaves I c i k * L x i l) = 0 := by
    intro c
    refine sum_eq_zero fun l _ => sum_eq_zero fun k _ => sum_eq_zero fun x _ => ?_
    rw [hT, hT, h5, h5]
    have := rho_both I hk ht (qvecs I)[x] (List.getElem_mem _) l k
    have h6 : (rho I (qvecs I)[x] l k : ℂ) * (rho I (qvecs I)[x] k l : ℂ) = 0 := by
      rw [← Complex.ofReal_mul, this]; simp
    linear_combination 4 * (if l ∈ c then 1 else 0) * (if k ∈ c then 1 else 0) * h6
  unfold Energy.localChol
  dsimp only
  simp only [Matrix.cons_val_zero, Matrix.cons_val_one, hX, hexx]
  simp

/-- **C118 (finding)**: a generic run set up from the file written for the electron gas loses the exchange energy of
every determinant of plane waves: it has no two-body energy, while the electron gas has a negative one as soon
as two electrons have the same spin. -/
theorem file_wrong (I : Inp) (hk : 0 < I.kfac) (hv : 0 < I.vol) (ht : I.twist = 0) (nelec : Nat × Nat)
    (hc : AboveCutoff I) (a b : Finset (Fin (nb I))) (p q : Fin (nb I)) (hp : p ∈ a) (hq : q ∈ a) (hpq : p ≠ q) :
    ∃ r : Files.HRead (writeIntegrals I nelec), Files.readSparse (writeIntegrals I nelec) = some r ∧
      (Energy.localChol (kin I) (fileVec (n := nb I) (m := (qvecs I).length) r.chol)
        ![planeWaves I a, planeWaves I b] r.enuc).2.2 = 0 ∧
      (localUEG I (nb I) ![planeWaves I a, planeWaves I b]).2.2.re < 0 := by
  obtain ⟨r, h1, _⟩ := file_roundtrip I nelec hc
  refine ⟨r, h1, file_generic I hk ht nelec hc r h1 a b _ _, ?_⟩
  rw [localUEG_thermal I hk ht, planeWaves_generic]
  have hnn : ∀ i j : Fin (nb I), 0 ≤ hijkl I i j j i := by
    intro i j
    rw [hijkl_eq]
    have := Real.pi_pos
    have h2 : (0 : ℝ) ≤ nsq (bv I j - bv I i) := by exact_mod_cast nsq_nonneg _
    split_ifs
    · unfold vq; positivity
    · exact le_rfl
  have hpos : 0 < hijkl I p q q p := by
    rw [hijkl_eq, if_pos ⟨Ne.symm hpq, rfl⟩]
    have : 0 < nsq (bv I q - bv I p) := by
      refine lt_of_le_of_ne (nsq_nonneg _) fun h0 => hpq ?_
      exact ((bv_inj I).mp (sub_eq_zero.mp (nsq_eq_zero h0.symm))).symm
    have h5 : (0 : ℝ) < nsq (bv I q - bv I p) := by exact_mod_cast this
    have := Real.pi_pos
    unfold vq
    positivity
  have hA : 0 < ∑ i ∈ a, ∑ j ∈ a, hijkl I i j j i := by
    refine sum_pos' (fun i _ => sum_nonneg fun j _ => hnn i j) ⟨p, hp, ?_⟩
    exact sum_pos' (fun j _ => hnn p j) ⟨q, hq, hpos⟩
  have hB : 0 ≤ ∑ i ∈ b, ∑ j ∈ b, hijkl I i j j i := sum_nonneg fun i _ => sum_nonneg fun j _ => hnn i j
  have he : -(1 / 2 : ℂ) * (∑ p ∈ a, ∑ q ∈ a, (hijkl I p q q p : ℂ) + ∑ p ∈ b, ∑ q ∈ b, (hijkl I p q q p : ℂ)) =
      ((-(1 / 2) * (∑ p ∈ a, ∑ q ∈ a, hijkl I p q q p + ∑ p ∈ b, ∑ q ∈ b, hijkl I p q q p) : ℝ) : ℂ) := by
    push_cast; ring
  rw [he, Complex.ofReal_re]
  linarith

/-- A gas whose file loses nothing, with two plane waves to occupy. -/
theorem file_case : ∃ I : Inp, 0 < I.kfac ∧ 0 < I.vol ∧ I.twist = 0 ∧ AboveCutoff I ∧ ∃ p q : Fin (nb I), p ≠ q := by
  have ht : (⟨1 / 2, 1, 1, 0⟩ : Inp).twist = 0 := rfl
  refine ⟨⟨1 / 2, 1, 1, 0⟩, by norm_num, by norm_num, ht, ?_, ?_⟩
  · intro q hq
    obtain ⟨h0, h1⟩ := (mem_qvecs _ (by norm_num) ht q).mp hq
    have h2 : nsq q ≤ 4 := by
      have : (nsq q : ℝ) ≤ 4 := by
        have h3 : (1 / 2 : ℝ) * (nsq q : ℝ) ≤ 4 * (1 / 2) := h1
        linarith
      exact_mod_cast this
    have h3 : 0 < nsq q := lt_of_le_of_ne (nsq_nonneg q) fun h => h0 (nsq_eq_zero h.symm)
    have h4 : (0 : ℝ) < nsq q := by exact_mod_cast h3
    have h5 : (nsq q : ℝ) ≤ 4 := by exact_mod_cast h2
    have hs : (1 / 2 : ℝ) ≤ Real.sqrt (Real.pi / 1 / (1 ^ 2 * (nsq q : ℝ))) := by
      apply Real.le_sqrt_of_sq_le
      have := Real.two_le_pi
      rw [le_div_iff₀ (by linarith)]
      nlinarith
    have : (1 : ℝ) / 10 ^ 16 < 1 := by norm_num
    show (1 : ℝ) / 10 ^ 16 < 2 * Real.sqrt (Real.pi / 1 / (1 ^ 2 * (nsq q : ℝ)))
    linarith
  · obtain ⟨a, ha⟩ := exists_bv ⟨1 / 2, 1, 1, 0⟩ (1, 0, 0) (by norm_num [nsq])
    obtain ⟨b, hb⟩ := exists_bv ⟨1 / 2, 1, 1, 0⟩ 0 (by rw [nsq_zero]; norm_num)
    refine ⟨a, b, fun h => ?_⟩
    rw [h, hb] at ha
    exact absurd (congrArg Prod.fst ha) (by norm_num)

end Verif.UEG
