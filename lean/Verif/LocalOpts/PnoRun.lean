import Verif.LocalOpts.Pno

/-!
# C116: runs with pair natural orbitals
-/

namespace Verif.LocalOpts

open Matrix Finset Energy

variable {M na nb : Nat}

/-- The two-body energy of half-rotated Green's functions is that of the Green's functions. -/
theorem e2Half_full {nchol : Nat} (h1 : Fin 2 → Matrix (Fin M) (Fin M) ℂ)
    (L : Fin nchol → Matrix (Fin M) (Fin M) ℂ) (ecore : ℂ)
    (A : Matrix (Fin M) (Fin na) ℂ) (B : Matrix (Fin M) (Fin nb) ℂ)
    (a : Matrix (Fin na) (Fin M) ℂ) (b : Matrix (Fin nb) (Fin M) ℂ) :
    e2Half (Energy.halfRotate A L) (Energy.halfRotate B L) a b =
      (localChol h1 L ![A.map star * a, B.map star * b] ecore).2.2 := by
  rw [← localCholOpt_eq h1 L ![A.map star * a, B.map star * b] ecore A B a b rfl rfl]
  rfl

/-- **C116**: in a run with pair natural orbitals the energy of a walker is the full local energy,
plus a shift that is the same for all walkers (the two-body energy of the walker's first Green's
function minus that of the trial orbitals taken as half-rotated Green's function), plus an error of at
most the threshold times a bound from the lengths of the rows. -/
theorem runEnergy_pno (svd : SVD M) (hsvd : SVDSpec svd) (o : Opts) (hst : o.stochastic = false)
    (hp : o.pno = true) (hx : o.exact = true) (hc : o.control = true) (ht : 0 ≤ o.thresh)
    (h1 : Fin 2 → Matrix (Fin M) (Fin M) ℂ) (ecore : ℂ) (nchol size : Nat) (hs : 0 < size)
    (order : List (Nat × Nat)) (hall : ∀ r < size, (r, 0) ∈ order) (chol : Nat → Nat → Nat → ℂ)
    (psi : Nat → Nat → Nat → ℂ) (θ : Fin 3 → Nat → Nat → Bool)
    (φ φ' : Matrix (Fin M) (Fin na) ℂ) (χ χ' : Matrix (Fin M) (Fin nb) ℂ) :
    let A := orbA M na psi
    let B := orbB M na nb psi
    let E := fun G : Fin 2 → Matrix (Fin M) (Fin M) ℂ => localChol h1 (cholMat M nchol chol) G ecore
    let now := E ![(Slater.gabMod A φ').1, (Slater.gabMod B χ').1]
    let shift := (E ![(Slater.gabMod A φ).1, (Slater.gabMod B χ).1]).2.2 -
      (E ![A.map star * Aᵀ, B.map star * Bᵀ]).2.2
    ∃ δ : ℂ, runEnergy svd o false h1 ecore nchol size order chol psi θ φ φ' χ χ' =
        some (now.1 + shift + δ, now.2.1, now.2.2 + shift + δ) ∧
      ‖δ‖ ≤ o.thresh * (room (Slater.gabMod A φ').2.1 (Slater.gabMod B χ').2.1 + room Aᵀ Bᵀ) := by
  intro A B E now shift
  obtain ⟨t, htr, hr, -, hu, he0⟩ := setupTrial_one svd o na nb nchol size hs order hall chol psi
  obtain ⟨e0, het, -⟩ := he0 hc
  obtain ⟨e1, he1, hval⟩ := twoBody_stored h1 (fun _ => 0) ecore
    (green A B φ χ).2 nchol size hs order hall chol psi
  simp only [hx, hp, Bool.and_self, if_true] at hu
  have first : ∀ (G : Fin 2 → Matrix (Fin M) (Fin M) ℂ) (g : Half M na nb) θ rc eri (c : Ref M na nb),
      localEnergy o h1 G ecore g θ rc eri (some c) t.uvt = pnoEnergy h1 G ecore g (some c) t.uvt := by
    intro G g θ rc eri c
    simp [localEnergy, hst, hp, hx, hc]
  -- the energy of the walker
  set L := cholMat M nchol chol
  set g := (green A B φ' χ').2
  set Vaa : Fin na → Fin na → Matrix (Fin M) (Fin M) ℂ := fun i j => Matrix.of fun p q => halfEri A A L i p j q
  set Vbb : Fin nb → Fin nb → Matrix (Fin M) (Fin M) ℂ := fun i j => Matrix.of fun p q => halfEri B B L i p j q
  set Vab : Fin na → Fin nb → Matrix (Fin M) (Fin M) ℂ := fun i j => Matrix.of fun p q => halfEri A B L i p j q
  have haa : ∀ i j : Fin na, pairMatrix M nchol chol (psi 0) 0 0 i j = Vaa i j := by
    intro i j
    ext p q
    simp only [pairMatrix, vipjq, Vaa, halfEri, A, L, orbA, cholMat, Matrix.of_apply, Nat.zero_add]
  have hbb : ∀ i j : Fin nb, pairMatrix M nchol chol (psi 0) na na i j = Vbb i j := by
    intro i j
    ext p q
    simp only [pairMatrix, vipjq, Vbb, halfEri, B, L, orbB, cholMat, Matrix.of_apply]
  have hab : ∀ (i : Fin na) (j : Fin nb), pairMatrix M nchol chol (psi 0) 0 na i j = Vab i j := by
    intro i j
    ext p q
    simp only [pairMatrix, vipjq, Vab, halfEri, A, B, L, orbA, orbB, cholMat, Matrix.of_apply,
      Nat.zero_add]
  have uaa := same_error svd hsvd ht Vaa g.a Aᵀ
  have ubb := same_error svd hsvd ht Vbb g.b Bᵀ
  have uab := mixed_error svd hsvd ht Vab g.a Aᵀ g.b Bᵀ
  set Saa := (((pairsSame na).zip ((pairsSame na).map fun x =>
    truncate o.thresh (svd (Vaa x.1 x.2)))).map (pairTerm g.a Aᵀ)).sum
  set Sbb := (((pairsSame nb).zip ((pairsSame nb).map fun x =>
    truncate o.thresh (svd (Vbb x.1 x.2)))).map (pairTerm g.b Bᵀ)).sum
  set Sab := (((pairsMixed na nb).zip ((pairsMixed na nb).map fun x =>
    truncate o.thresh (svd (Vab x.1 x.2)))).map (mixedTerm g.a Aᵀ g.b Bᵀ)).sum
  have pg := e2Half_pairs A B L g.a g.b
  have p0 := e2Half_pairs A B L Aᵀ Bᵀ
  have fnow : now.2.2 = e2Half (Energy.halfRotate A L) (Energy.halfRotate B L) g.a g.b :=
    (e2Half_full h1 L ecore A B g.a g.b).symm
  have f0 : (E ![A.map star * Aᵀ, B.map star * Bᵀ]).2.2 =
      e2Half (Energy.halfRotate A L) (Energy.halfRotate B L) Aᵀ Bᵀ :=
    (e2Half_full h1 L ecore A B Aᵀ Bᵀ).symm
  have fi : (E ![(Slater.gabMod A φ).1, (Slater.gabMod B χ).1]).2.2 =
      (1 / 2 : ℂ) * (e1.1 - e1.2.1 - e1.2.2) := by
    rw [hval]
    exact (e2Half_full h1 L ecore A B (green A B φ χ).2.a (green A B φ χ).2.b).symm
  have value : runEnergy svd o false h1 ecore nchol size order chol psi θ φ φ' χ χ' =
      pnoEnergy h1 (green A B φ' χ').1 ecore g (some ⟨A, B, e1⟩) t.uvt := by
    have some1 : ∀ (G : Fin 2 → Matrix (Fin M) (Fin M) ℂ) (g : Half M na nb) (c : Ref M na nb),
        ∃ e, pnoEnergy h1 G ecore g (some c) t.uvt = some e := by
      intro G g c
      rw [hu]
      exact ⟨_, rfl⟩
    obtain ⟨x1, hx1⟩ := some1 (green A B A B).1 (green A B A B).2 ⟨A, B, e0⟩
    obtain ⟨x2, hx2⟩ := some1 (green A B φ χ).1 (green A B φ χ).2 ⟨A, B, e1⟩
    have hA : orbA M na psi = A := rfl
    have hB : orbB M na nb psi = B := rfl
    simp only [runEnergy, htr, Option.bind_some, trialEnergy, het, Option.map_some, first, hA, hB, hx1,
      newWalker, hc, if_true, walkerEnergy, Bool.false_eq_true, if_false]
    rw [hr, he1]
    simp only [Option.map_some, Option.bind_some, first, hx2]
    rfl
  rw [value, hu]
  have e2 : pnoEnergy h1 (green A B φ' χ').1 ecore g (some ⟨A, B, e1⟩)
      (some (makeUVT svd na nb nchol o.thresh chol (psi 0))) =
      some (now.2.1 - ecore + ((1 / 2 : ℂ) * (e1.1 - e1.2.1 - e1.2.2) + Saa + Sbb + Sab) + ecore,
        now.2.1, (1 / 2 : ℂ) * (e1.1 - e1.2.1 - e1.2.2) + Saa + Sbb + Sab) := by
    have n1 : now.2.1 = dot2 (h1 0) ((green A B φ' χ').1 0) + dot2 (h1 1) ((green A B φ' χ').1 1) +
      ecore := rfl
    rw [n1, add_sub_cancel_right]
    simp only [pnoEnergy, makeUVT, haa, hbb, hab]
    rfl
  rw [e2]
  have n0 : now.1 = now.2.1 - ecore + now.2.2 + ecore := by
    have n1 : now.2.1 = dot2 (h1 0) ((green A B φ' χ').1 0) + dot2 (h1 1) ((green A B φ' χ').1 1) +
      ecore := rfl
    rw [n1, add_sub_cancel_right]
    rfl
  refine ⟨(1 / 2 : ℂ) * (e1.1 - e1.2.1 - e1.2.2) + Saa + Sbb + Sab - now.2.2 - shift, ?_, ?_⟩
  · congr 2
    · rw [n0]; ring
    · congr 1; ring
  · have split : (1 / 2 : ℂ) * (e1.1 - e1.2.1 - e1.2.2) + Saa + Sbb + Sab - now.2.2 - shift =
        (Saa - ((∑ i, ∑ j, if i ≤ j then (if i = j then (1 / 2 : ℂ) else 1) *
          (quad (Vaa i j) (g.a i) (g.a j) - quad (Vaa i j) (g.a j) (g.a i)) else 0) -
         (∑ i, ∑ j, if i ≤ j then (if i = j then (1 / 2 : ℂ) else 1) *
          (quad (Vaa i j) (Aᵀ i) (Aᵀ j) - quad (Vaa i j) (Aᵀ j) (Aᵀ i)) else 0))) +
        (Sbb - ((∑ i, ∑ j, if i ≤ j then (if i = j then (1 / 2 : ℂ) else 1) *
          (quad (Vbb i j) (g.b i) (g.b j) - quad (Vbb i j) (g.b j) (g.b i)) else 0) -
         (∑ i, ∑ j, if i ≤ j then (if i = j then (1 / 2 : ℂ) else 1) *
          (quad (Vbb i j) (Bᵀ i) (Bᵀ j) - quad (Vbb i j) (Bᵀ j) (Bᵀ i)) else 0))) +
        (Sab - ((∑ i, ∑ j, quad (Vab i j) (g.a i) (g.b j)) -
          ∑ i, ∑ j, quad (Vab i j) (Aᵀ i) (Bᵀ j))) := by
      show _ - now.2.2 - ((E ![(Slater.gabMod A φ).1, (Slater.gabMod B χ).1]).2.2 -
        (E ![A.map star * Aᵀ, B.map star * Bᵀ]).2.2) = _
      rw [fnow, fi, f0, pg, p0]
      ring
    rw [split]
    refine (norm_add_le _ _).trans ((add_le_add ((norm_add_le _ _).trans (add_le_add uaa ubb)) uab).trans
      (le_of_eq ?_))
    simp only [room]
    have ga : g.a = (Slater.gabMod A φ').2.1 := rfl
    have gb : g.b = (Slater.gabMod B χ').2.1 := rfl
    rw [ga, gb]
    ring

/-- **C116**: for orthonormal trial orbitals and walkers that start from them there is no shift: the
energy is the full one up to the threshold, and exactly the full one for threshold zero. -/
theorem runEnergy_pno_start (svd : SVD M) (hsvd : SVDSpec svd) (o : Opts) (hst : o.stochastic = false)
    (hp : o.pno = true) (hx : o.exact = true) (hc : o.control = true) (ht : 0 ≤ o.thresh)
    (h1 : Fin 2 → Matrix (Fin M) (Fin M) ℂ) (ecore : ℂ) (nchol size : Nat) (hs : 0 < size)
    (order : List (Nat × Nat)) (hall : ∀ r < size, (r, 0) ∈ order) (chol : Nat → Nat → Nat → ℂ)
    (psi : Nat → Nat → Nat → ℂ) (θ : Fin 3 → Nat → Nat → Bool)
    (φ' : Matrix (Fin M) (Fin na) ℂ) (χ' : Matrix (Fin M) (Fin nb) ℂ)
    (hA : (orbA M na psi)ᴴ * orbA M na psi = 1) (hB : (orbB M na nb psi)ᴴ * orbB M na nb psi = 1) :
    let A := orbA M na psi
    let B := orbB M na nb psi
    let now := localChol h1 (cholMat M nchol chol)
      ![(Slater.gabMod A φ').1, (Slater.gabMod B χ').1] ecore
    ∃ δ : ℂ, runEnergy svd o false h1 ecore nchol size order chol psi θ A φ' B χ' =
        some (now.1 + δ, now.2.1, now.2.2 + δ) ∧
      ‖δ‖ ≤ o.thresh * (room (Slater.gabMod A φ').2.1 (Slater.gabMod B χ').2.1 + room Aᵀ Bᵀ) := by
  intro A B now
  obtain ⟨δ, h, hδ⟩ := runEnergy_pno svd hsvd o hst hp hx hc ht h1 ecore nchol size hs order hall chol
    psi θ A φ' B χ'
  have self : ∀ {k : Nat} (C : Matrix (Fin M) (Fin k) ℂ), Cᴴ * C = 1 →
      (Slater.gabMod C C).1 = C.map star * Cᵀ := by
    intro k C hC
    have : Cᵀ * C.map star = 1 := by
      have h2 : Cᵀ * C.map star = (Cᴴ * C)ᵀ := by rw [transpose_mul]; rfl
      rw [h2, hC, transpose_one]
    simp only [Slater.gabMod, this, inv_one, Matrix.one_mul]
  refine ⟨δ, ?_, hδ⟩
  rw [h]
  have sA : (Slater.gabMod (orbA M na psi) A).1 = (orbA M na psi).map star * (orbA M na psi)ᵀ :=
    self _ hA
  have sB : (Slater.gabMod (orbB M na nb psi) B).1 =
      (orbB M na nb psi).map star * (orbB M na nb psi)ᵀ := self _ hB
  simp only [sA, sB, sub_self, add_zero]
  rfl

end Verif.LocalOpts
