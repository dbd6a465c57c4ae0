import Verif.CI.Bridge
import Verif.CI.Expansion
import Verif.MultiDet.Run
import Verif.Energy.Var

/-!
# Trial states given as CI expansions (C86)
-/

namespace Verif.CI.Bridge

open Finset Matrix
open Verif.Step (slater unit hamOp spin Anti Sym prodState orbs ovl2 Gen Lowest)
open Verif.MultiDet (bra Trial)

variable {nx nb nu nd n : Nat}

/-! ## Statements -/

/-- The system object of `ci.py` for integrals `g`: `H1[0]`, and `hijkl` of systems/generic.py 168-171. -/
noncomputable def sysOf (g : Gen nx nb) (nu nd : Nat) : System ℂ := ⟨nb, nu, nd, g.ecore, ext (g.h1 0), eri g.chol⟩

/-- Occupations of `nu` and `nd` of `nb` orbitals, each in increasing order. -/
structure Sorted (nb nu nd : Nat) (o : List Nat × List Nat) : Prop where
  up : o.1.Pairwise (· < ·)
  dn : o.2.Pairwise (· < ·)
  nup : o.1.length = nu
  ndn : o.2.length = nd
  bup : ∀ x ∈ o.1, x < nb
  bdn : ∀ x ∈ o.2, x < nb

/-- Real symmetric integrals, the same for both spins (Cholesky vectors need not be real, only what they give). -/
structure RealSymm (g : Gen nx nb) : Prop where
  spin : g.h1 1 = g.h1 0
  h1 : (g.h1 0)ᵀ = g.h1 0
  chol : ∀ x, (g.chol x)ᵀ = g.chol x
  rh1 : (g.h1 0)ᴴ = g.h1 0
  reri : ∀ p q r s, star (eri g.chol p q r s) = eri g.chol p q r s
  recore : star g.ecore = g.ecore

/-- Every determinant occurs exactly once. -/
structure Complete (nb nu nd : Nat) (E : Expansion n) : Prop where
  sorted : ∀ i, Sorted nb nu nd (E.occs i)
  inj : Function.Injective E.occs
  all : ∀ o, Sorted nb nu nd o → ∃ i, E.occs i = o

/-- `⟨Ψ|H|Ψ⟩` for a multi-determinant state, from determinants of overlap matrices. -/
noncomputable def energyOf (g : Gen nx nb) (T : Trial n nb nu nd) : ℂ := ∑ i, ∑ j, star (T.coeffs i) * T.coeffs j *
  Energy.hamil g.h1 g.chol g.ecore (Slater.up (T.psi i)) (Slater.up (T.psi j)) (Slater.dn (T.psi i)) (Slater.dn (T.psi j))

/-- `⟨Ψ|Ψ⟩` -/
noncomputable def normOf (T : Trial n nb nu nd) : ℂ := ∑ i, ∑ j, star (T.coeffs i) * T.coeffs j * ovl2 (T.psi i) (T.psi j)

/-! ## Determinants -/

/-- The orbitals of the electrons. -/
def Sorted.orb {o : List Nat × List Nat} (h : Sorted nb nu nd o) : Fin nu ⊕ Fin nd → Fin nb :=
  Sum.elim (fun a => ⟨o.1[(a : Nat)]'(h.nup ▸ a.2), h.bup _ (List.getElem_mem _)⟩)
    fun a => ⟨o.2[(a : Nat)]'(h.ndn ▸ a.2), h.bdn _ (List.getElem_mem _)⟩

theorem Sorted.inc {o : List Nat × List Nat} (h : Sorted nb nu nd o) : Inc h.orb := by
  constructor
  · intro a b hab
    exact Fin.lt_def.2 (List.pairwise_iff_getElem.1 h.up _ _ _ _ hab)
  · intro a b hab
    exact Fin.lt_def.2 (List.pairwise_iff_getElem.1 h.dn _ _ _ _ hab)

theorem Sorted.det {o : List Nat × List Nat} (h : Sorted nb nu nd o) : detOf nb nu nd o = unit h.orb := by
  have e1 : columns nb nu o.1 = Matrix.of fun p a => if p = h.orb (Sum.inl a) then 1 else 0 := by
    ext p a
    simp only [columns, Matrix.of_apply, Sorted.orb, Sum.elim_inl, Fin.ext_iff]
    rw [List.getD_eq_getElem?_getD, List.getElem?_eq_getElem (h.nup ▸ a.2), Option.getD_some]
  have e2 : columns nb nd o.2 = Matrix.of fun p a => if p = h.orb (Sum.inr a) then 1 else 0 := by
    ext p a
    simp only [columns, Matrix.of_apply, Sorted.orb, Sum.elim_inr, Fin.ext_iff]
    rw [List.getD_eq_getElem?_getD, List.getElem?_eq_getElem (h.ndn ▸ a.2), Option.getD_some]
  rw [detOf, e1, e2, unit]

theorem Sorted.pairwise {o : List Nat × List Nat} (h : Sorted nb nu nd o) :
    (o.1 ++ o.2.map (· + nb)).Pairwise (· < ·) := by
  rw [List.pairwise_append]
  refine ⟨h.up, ?_, ?_⟩
  · rw [List.pairwise_map]
    exact h.dn.imp fun h => by omega
  · intro x hx y hy
    obtain ⟨z, -, rfl⟩ := List.mem_map.1 hy
    have := h.bup x hx
    omega

theorem Sorted.spinOccs {o : List Nat × List Nat} (h : Sorted nb nu nd o) : spinOccs nb o = o.1 ++ o.2.map (· + nb) := by
  rw [CI.spinOccs]
  exact List.mergeSort_of_pairwise (h.pairwise.imp fun h => by simpa using h.le)

theorem Sorted.isDet {o : List Nat × List Nat} (h : Sorted nb nu nd o) : Det nb (CI.spinOccs nb o) := by
  rw [h.spinOccs]
  refine ⟨h.pairwise, fun x hx => ?_⟩
  rcases List.mem_append.1 hx with hx | hx
  · have := h.bup x hx; omega
  · obtain ⟨z, hz, rfl⟩ := List.mem_map.1 hx
    have := h.bdn z hz
    omega

theorem Sorted.occ {o : List Nat × List Nat} (h : Sorted nb nu nd o) : occ h.orb = (CI.spinOccs nb o).toFinset := by
  rw [h.spinOccs]
  ext x
  simp only [Bridge.occ, mem_image, mem_univ, true_and, List.mem_toFinset, List.mem_append, List.mem_map]
  constructor
  · rintro ⟨a | a, rfl⟩
    · exact Or.inl (List.getElem_mem _)
    · exact Or.inr ⟨_, List.getElem_mem _, rfl⟩
  · rintro (hx | ⟨y, hy, rfl⟩)
    · obtain ⟨i, hi, rfl⟩ := List.getElem_of_mem hx
      exact ⟨Sum.inl ⟨i, h.nup ▸ hi⟩, rfl⟩
    · obtain ⟨i, hi, rfl⟩ := List.getElem_of_mem hy
      exact ⟨Sum.inr ⟨i, h.ndn ▸ hi⟩, rfl⟩

theorem Sorted.spins {o o' : List Nat × List Nat} (h : Sorted nb nu nd o) (h' : Sorted nb nu nd o') :
    SameSpins nb (CI.spinOccs nb o) (CI.spinOccs nb o') := by
  have key : ∀ {o : List Nat × List Nat}, Sorted nb nu nd o → (CI.spinOccs nb o).length = nu + nd ∧
      ((CI.spinOccs nb o).toFinset.filter (· < nb)).card = nu := by
    intro o h
    constructor
    · rw [h.spinOccs, List.length_append, List.length_map, h.nup, h.ndn]
    · have e : (CI.spinOccs nb o).toFinset.filter (· < nb) = o.1.toFinset := by
        rw [h.spinOccs]
        ext x
        simp only [mem_filter, List.mem_toFinset, List.mem_append, List.mem_map]
        constructor
        · rintro ⟨hx | ⟨y, hy, rfl⟩, hlt⟩
          · exact hx
          · omega
        · intro hx; exact ⟨Or.inl hx, h.bup x hx⟩
      rw [e, List.toFinset_card_of_nodup (h.up.imp fun h => Nat.ne_of_lt h), h.nup]
  exact ⟨by rw [(key h).1, (key h').1], by rw [(key h).2, (key h').2]⟩

theorem Sorted.length {o : List Nat × List Nat} (h : Sorted nb nu nd o) : (CI.spinOccs nb o).length = nu + nd := by
  rw [h.spinOccs, List.length_append, List.length_map, h.nup, h.ndn]

theorem Sorted.orb_inj {o o' : List Nat × List Nat} (h : Sorted nb nu nd o) (h' : Sorted nb nu nd o')
    (he : h.orb = h'.orb) : o = o' := by
  refine Prod.ext ?_ ?_
  · refine List.ext_getElem (h.nup.trans h'.nup.symm) fun i h1 h2 => ?_
    have := congrArg Fin.val (congrFun he (Sum.inl ⟨i, h.nup ▸ h1⟩))
    exact this
  · refine List.ext_getElem (h.ndn.trans h'.ndn.symm) fun i h1 h2 => ?_
    have := congrArg Fin.val (congrFun he (Sum.inr ⟨i, h.ndn ▸ h1⟩))
    exact this

/-- Every increasing choice of orbitals comes from occupations. -/
theorem exists_occs {f : Fin nu ⊕ Fin nd → Fin nb} (hf : Inc f) : ∃ o, ∃ h : Sorted nb nu nd o, h.orb = f := by
  have h : Sorted nb nu nd (List.ofFn fun a => (f (Sum.inl a) : Nat), List.ofFn fun a => (f (Sum.inr a) : Nat)) := by
    refine ⟨?_, ?_, by simp, by simp, ?_, ?_⟩
    · rw [List.pairwise_ofFn]; exact fun i j hij => hf.1 hij
    · rw [List.pairwise_ofFn]; exact fun i j hij => hf.2 hij
    · intro x hx
      obtain ⟨i, rfl⟩ := (List.mem_ofFn' _ _).1 hx
      exact (f _).2
    · intro x hx
      obtain ⟨i, rfl⟩ := (List.mem_ofFn' _ _).1 hx
      exact (f _).2
  refine ⟨_, h, ?_⟩
  funext a
  rcases a with a | a <;> exact Fin.ext (by simp [Sorted.orb])

theorem prodState_unit (f : Fin nu ⊕ Fin nd → Fin nb) : prodState (orbs (unit f)) = Pi.single f 1 := by
  funext g
  have e : ∀ a, orbs (unit f) a (g a) = if g a = f a then 1 else 0 := by
    intro a
    rcases a with a | a <;> simp [orbs, unit, Slater.up_join, Slater.dn_join]
  rw [prodState]
  simp only [e, prod_boole, mem_univ, true_implies, Pi.single_apply, funext_iff]

theorem dot_unit (α : (Fin nu ⊕ Fin nd → Fin nb) → ℂ) (f : Fin nu ⊕ Fin nd → Fin nb) :
    α ⬝ᵥ prodState (orbs (unit f)) = α f := by
  rw [prodState_unit, dotProduct_single, mul_one]

/-! ## Matrix elements -/

theorem eri_exchange (L : Fin nx → Matrix (Fin nb) (Fin nb) ℂ) : Exchange (eri L) := fun p q r s =>
  sum_congr rfl fun _ _ => mul_comm _ _

theorem ext_transpose (X : Matrix (Fin nb) (Fin nb) ℂ) (p q : Nat) : ext Xᵀ p q = ext X q p := by
  unfold ext
  by_cases h : p < nb ∧ q < nb
  · rw [dif_pos h, dif_pos h.symm]; rfl
  · rw [dif_neg h, dif_neg fun hc => h hc.symm]

theorem ext_conj (X : Matrix (Fin nb) (Fin nb) ℂ) (p q : Nat) : ext Xᴴ p q = star (ext X q p) := by
  unfold ext
  by_cases h : p < nb ∧ q < nb
  · rw [dif_pos h, dif_pos h.symm]; rfl
  · rw [dif_neg h, dif_neg fun hc => h hc.symm, star_zero]

theorem eri_star {L : Fin nx → Matrix (Fin nb) (Fin nb) ℂ} (hL : ∀ x, (L x)ᴴ = L x) (p q r s : Nat) :
    star (eri L p q r s) = eri L r s p q := by
  rw [eri, eri, star_sum]
  refine sum_congr rfl fun x _ => ?_
  rw [star_mul', ← ext_conj, ← ext_conj, hL]

theorem eri_symm {L : Fin nx → Matrix (Fin nb) (Fin nb) ℂ} (hL : ∀ x, (L x)ᵀ = L x) (p q r s : Nat) :
    eri L p q r s = eri L r s p q := by
  unfold eri
  refine sum_congr rfl fun x _ => ?_
  conv_lhs => rw [← hL x, ext_transpose, ext_transpose]

theorem star_ham (m : Nat) (e : ℂ) (h : Nat → Nat → ℂ) (V : Nat → Nat → Nat → Nat → ℂ) (T S : Finset Nat) :
    star (ham m e h V T S) = ham m (star e) (fun p q => star (h p q)) (fun p q r s => star (V p q r s)) T S := by
  have hi : ∀ z : ℤ, star (z : ℂ) = z := fun z => by simp
  have h2 : star (1 / 2 : ℂ) = 1 / 2 := by simp
  unfold ham oneBody twoBody
  simp only [star_add, star_mul', star_sum, hi, h2]
  congr 2
  · refine sum_congr rfl fun p _ => sum_congr rfl fun q _ => ?_
    rw [h1, h1, apply_ite star, star_zero]
  · refine sum_congr rfl fun r _ => sum_congr rfl fun s _ => sum_congr rfl fun p _ => sum_congr rfl fun q _ => ?_
    rw [v2, v2, apply_ite star, star_zero]

/-- Matrix elements of determinants of occupations. -/
theorem hamil_fock (g : Gen nx nb) (hs : g.h1 1 = g.h1 0) {o o' : List Nat × List Nat} (h : Sorted nb nu nd o)
    (h' : Sorted nb nu nd o') :
    Energy.hamil g.h1 g.chol g.ecore (Slater.up (detOf nb nu nd o)) (Slater.up (detOf nb nu nd o'))
      (Slater.dn (detOf nb nu nd o)) (Slater.dn (detOf nb nu nd o')) =
      ham nb g.ecore (ext (g.h1 0)) (eri g.chol) (CI.spinOccs nb o).toFinset (CI.spinOccs nb o').toFinset := by
  rw [← Step.hamOp_elem, h.det, h'.det, Matrix.dotProduct_mulVec, dot_unit, hamOp_fock hs g.chol g.ecore h.inc h'.inc,
    h.occ, h'.occ]

/-- **C86 (Slater–Condon rules and determinants of orbitals)**: for real symmetric integrals the element that `get_hmatel`
computes from occupations is the matrix element of the Hamiltonian between the determinants of orbitals that a walker or
trial state holds. -/
theorem hmatel_hamil {g : Gen nx nb} (hg : RealSymm g) {o o' : List Nat × List Nat} (h : Sorted nb nu nd o)
    (h' : Sorted nb nu nd o') : (getHmatel (sysOf g nu nd) (CI.spinOccs nb o) (CI.spinOccs nb o')).1 =
      Energy.hamil g.h1 g.chol g.ecore (Slater.up (detOf nb nu nd o)) (Slater.up (detOf nb nu nd o'))
        (Slater.dn (detOf nb nu nd o)) (Slater.dn (detOf nb nu nd o')) := by
  rw [hamil_fock g hg.spin h h']
  refine CI.hmatel (sysOf g nu nd) (eri_exchange _) (fun p q r s => ?_) (fun p q => ?_) h.isDet h'.isDet (h.spins h')
    h.length
  · exact eri_symm hg.chol p q r s
  · show ext (g.h1 0) p q = ext (g.h1 0) q p
    conv_lhs => rw [← hg.h1, ext_transpose]

theorem hmatel_transposed {g : Gen nx nb} (hs : g.h1 1 = g.h1 0) {o o' : List Nat × List Nat} (h : Sorted nb nu nd o)
    (h' : Sorted nb nu nd o') : (getHmatel (sysOf g nu nd) (CI.spinOccs nb o) (CI.spinOccs nb o')).1 =
      Energy.hamil g.h1 g.chol g.ecore (Slater.up (detOf nb nu nd o')) (Slater.up (detOf nb nu nd o))
        (Slater.dn (detOf nb nu nd o')) (Slater.dn (detOf nb nu nd o)) := by
  rw [hamil_fock g hs h' h]
  exact (hmatel_parts (sysOf g nu nd) (eri_exchange _) h.isDet h'.isDet (h.spins h') h.length).1

theorem hamil_star {g : Gen nx nb} (hs : g.h1 1 = g.h1 0) (hh : (g.h1 0)ᴴ = g.h1 0)
    (hV : ∀ p q r s, star (eri g.chol p q r s) = eri g.chol r s p q)
    (he : star g.ecore = g.ecore) {o o' : List Nat × List Nat} (h : Sorted nb nu nd o) (h' : Sorted nb nu nd o') :
    star (Energy.hamil g.h1 g.chol g.ecore (Slater.up (detOf nb nu nd o)) (Slater.up (detOf nb nu nd o'))
        (Slater.dn (detOf nb nu nd o)) (Slater.dn (detOf nb nu nd o'))) =
      Energy.hamil g.h1 g.chol g.ecore (Slater.up (detOf nb nu nd o')) (Slater.up (detOf nb nu nd o))
        (Slater.dn (detOf nb nu nd o')) (Slater.dn (detOf nb nu nd o)) := by
  rw [hamil_fock g hs h h', hamil_fock g hs h' h, star_ham, ham_transpose, he]
  congr 1
  · funext p q
    rw [← ext_conj, hh]
  · funext p q r s
    rw [hV]

/-- **C86 (matrix of `recompute_ci`)**: for Hermitian integrals and increasing occupations the matrix is the transpose of
the Hamiltonian's in the determinants of the trial state. -/
theorem recompute_transposed {g : Gen nx nb} (hs : g.h1 1 = g.h1 0) (hh : (g.h1 0)ᴴ = g.h1 0)
    (hV : ∀ p q r s, star (eri g.chol p q r s) = eri g.chol r s p q) (he : star g.ecore = g.ecore) (E : Expansion n)
    (hE : ∀ i, Sorted nb nu nd (E.occs i)) (i j : Fin n) : recomputeMatrix (sysOf g nu nd) E i j =
      Energy.hamil g.h1 g.chol g.ecore (Slater.up ((E.trial nb nu nd).psi j)) (Slater.up ((E.trial nb nu nd).psi i))
        (Slater.dn ((E.trial nb nu nd).psi j)) (Slater.dn ((E.trial nb nu nd).psi i)) := by
  show (if i < j then _ else if j < i then _ else _) = _
  split_ifs with h1 h2
  · exact hmatel_transposed hs (hE i) (hE j)
  · exact (congrArg star (hmatel_transposed hs (hE j) (hE i))).trans (hamil_star hs hh hV he (hE i) (hE j))
  · have hij : i = j := le_antisymm (not_lt.1 h2) (not_lt.1 h1)
    subst hij
    have e1 := hmatel_transposed hs (hE i) (hE i)
    have e2 := hamil_star hs hh hV he (hE i) (hE i)
    show (((getHmatel (sysOf g nu nd) (CI.spinOccs nb (E.occs i)) (CI.spinOccs nb (E.occs i))).1.re : ℝ) : ℂ) = _
    rw [e1]
    exact Complex.conj_eq_iff_re.1 e2

/-- … for real symmetric integrals it is the matrix of the Hamiltonian. -/
theorem recompute_matrix {g : Gen nx nb} (hg : RealSymm g) (E : Expansion n) (hE : ∀ i, Sorted nb nu nd (E.occs i))
    (i j : Fin n) : recomputeMatrix (sysOf g nu nd) E i j =
      Energy.hamil g.h1 g.chol g.ecore (Slater.up ((E.trial nb nu nd).psi i)) (Slater.up ((E.trial nb nu nd).psi j))
        (Slater.dn ((E.trial nb nu nd).psi i)) (Slater.dn ((E.trial nb nu nd).psi j)) := by
  rw [recompute_transposed hg.spin hg.rh1 (fun p q r s => (hg.reri p q r s).trans (eri_symm hg.chol p q r s)) hg.recore E hE]
  exact (hmatel_transposed hg.spin (hE i) (hE j)).symm.trans (hmatel_hamil hg (hE i) (hE j))

/-! ## Recomputed coefficients -/

theorem ovl2_unit {o o' : List Nat × List Nat} (h : Sorted nb nu nd o) (h' : Sorted nb nu nd o') :
    ovl2 (detOf nb nu nd o) (detOf nb nu nd o') = if o = o' then 1 else 0 := by
  rw [Step.ovl2_eq, h.det, h'.det, dot_unit, unit_ortho h.inc h'.inc]
  exact if_congr ⟨fun he => h.orb_inj h' he, fun he => by subst he; rfl⟩ rfl rfl

theorem normOf_eq (E : Expansion n) (hE : ∀ i, Sorted nb nu nd (E.occs i)) (hi : Function.Injective E.occs) :
    normOf (E.trial nb nu nd) = star E.coeffs ⬝ᵥ E.coeffs := by
  rw [normOf, dotProduct]
  refine sum_congr rfl fun i _ => ?_
  rw [Finset.sum_eq_single i]
  · show _ * _ * ovl2 (detOf nb nu nd (E.occs i)) (detOf nb nu nd (E.occs i)) = _
    rw [ovl2_unit (hE i) (hE i), if_pos rfl, mul_one]
    rfl
  · intro j _ hj
    show _ * _ * ovl2 (detOf nb nu nd (E.occs i)) (detOf nb nu nd (E.occs j)) = _
    rw [ovl2_unit (hE i) (hE j), if_neg (fun h => hj (hi h).symm), mul_zero]
  · intro h; exact absurd (mem_univ i) h

theorem energyOf_eq {g : Gen nx nb} (hg : RealSymm g) (E : Expansion n) (hE : ∀ i, Sorted nb nu nd (E.occs i)) :
    energyOf g (E.trial nb nu nd) = star E.coeffs ⬝ᵥ (recomputeMatrix (sysOf g nu nd) E *ᵥ E.coeffs) := by
  rw [energyOf, dotProduct]
  refine sum_congr rfl fun i _ => ?_
  rw [Matrix.mulVec, dotProduct, mul_sum]
  refine sum_congr rfl fun j _ => ?_
  rw [recompute_matrix hg E hE]
  show star (E.coeffs i) * E.coeffs j * _ = star (E.coeffs i) * (_ * E.coeffs j)
  ring

/-- The quadratic form of the lowest eigenvector is lowest. -/
theorem eigh_lowest {M : Matrix (Fin (n + 1)) (Fin (n + 1)) ℂ} {e : Fin (n + 1) → ℝ}
    {ev : Matrix (Fin (n + 1)) (Fin (n + 1)) ℂ} (h : Eigh M e ev) (c : Fin (n + 1) → ℂ) :
    e 0 * (star c ⬝ᵥ c).re ≤ (star c ⬝ᵥ (M *ᵥ c)).re := by
  have hu' : ev * evᴴ = 1 := mul_eq_one_comm.1 h.unitary
  set y := evᴴ *ᵥ c with hy
  have hc : c = ev *ᵥ y := by rw [hy, Matrix.mulVec_mulVec, hu', Matrix.one_mulVec]
  have h1 : star c ⬝ᵥ c = ∑ k, ((Complex.normSq (y k) : ℝ) : ℂ) := by
    rw [hc, Matrix.star_mulVec, ← Matrix.dotProduct_mulVec, Matrix.mulVec_mulVec, h.unitary, Matrix.one_mulVec, dotProduct]
    exact sum_congr rfl fun k _ => by rw [Pi.star_apply, Complex.normSq_eq_conj_mul_self]; rfl
  have h2 : star c ⬝ᵥ (M *ᵥ c) = ∑ k, ((e k * Complex.normSq (y k) : ℝ) : ℂ) := by
    rw [hc, Matrix.star_mulVec, Matrix.mulVec_mulVec, h.eigen, ← Matrix.dotProduct_mulVec, Matrix.mulVec_mulVec,
      ← Matrix.mul_assoc, h.unitary, Matrix.one_mul, dotProduct]
    refine sum_congr rfl fun k _ => ?_
    rw [Matrix.mulVec_diagonal, Pi.star_apply, Complex.ofReal_mul, Complex.normSq_eq_conj_mul_self]
    show star (y k) * _ = _ * (star (y k) * _)
    ring
  rw [h1, h2, ← Complex.ofReal_sum, ← Complex.ofReal_sum, Complex.ofReal_re, Complex.ofReal_re, mul_sum]
  exact sum_le_sum fun k _ => mul_le_mul_of_nonneg_right (h.sorted (Fin.zero_le k)) (Complex.normSq_nonneg _)

/-- **C86 (recomputed coefficients)**: for real symmetric integrals and increasing, distinct occupations the trial state
with recomputed coefficients is normalised and its energy is the lowest eigenvalue, which no other choice of coefficients
goes below. -/
theorem recompute_variational {g : Gen nx nb} (hg : RealSymm g) (E : Expansion (n + 1))
    (hE : ∀ i, Sorted nb nu nd (E.occs i)) (hi : Function.Injective E.occs) {e : Fin (n + 1) → ℝ}
    {ev : Matrix (Fin (n + 1)) (Fin (n + 1)) ℂ} (h : Eigh (recomputeMatrix (sysOf g nu nd) E) e ev) :
    normOf ((E.recompute ev).trial nb nu nd) = 1 ∧ energyOf g ((E.recompute ev).trial nb nu nd) = e 0 ∧
      ∀ c : Fin (n + 1) → ℂ, e 0 * (normOf (Expansion.trial { E with coeffs := c } nb nu nd)).re ≤
        (energyOf g (Expansion.trial { E with coeffs := c } nb nu nd)).re := by
  have h0 : star (fun i => ev i 0) ⬝ᵥ (fun i => ev i 0) = 1 := by
    have := congrFun (congrFun h.unitary 0) 0
    rw [Matrix.one_apply_eq] at this
    rw [← this]
    rfl
  have hM : recomputeMatrix (sysOf g nu nd) E *ᵥ (fun i => ev i 0) = (e 0 : ℂ) • fun i => ev i 0 := by
    funext i
    have := congrFun (congrFun h.eigen i) 0
    rw [Matrix.mul_diagonal, Matrix.mul_apply] at this
    rw [Matrix.mulVec, dotProduct, this, Pi.smul_apply, smul_eq_mul, mul_comm]
  refine ⟨?_, ?_, fun c => ?_⟩
  · rw [normOf_eq _ (show ∀ i, Sorted nb nu nd ((E.recompute ev).occs i) from hE) hi]
    exact h0
  · rw [energyOf_eq hg _ (show ∀ i, Sorted nb nu nd ((E.recompute ev).occs i) from hE)]
    show star (fun i => ev i 0) ⬝ᵥ (recomputeMatrix (sysOf g nu nd) E *ᵥ fun i => ev i 0) = _
    rw [hM, dotProduct_smul, h0, smul_eq_mul, mul_one]
  · rw [normOf_eq _ (show ∀ i, Sorted nb nu nd (({ E with coeffs := c } : Expansion (n + 1)).occs i) from hE) hi,
      energyOf_eq hg _ (show ∀ i, Sorted nb nu nd (({ E with coeffs := c } : Expansion (n + 1)).occs i) from hE)]
    exact eigh_lowest h c

/-- The energy that `calculate_energy` stores for an expansion, multi_slater.py 150-155. -/
noncomputable def reported (g : Gen nx nb) (nu nd : Nat) (E : Expansion n) : ℂ :=
  Energy.varOrthoDet E.coeffs fun i j =>
    (getHmatel (sysOf g nu nd) (CI.spinOccs nb (E.occs i)) (CI.spinOccs nb (E.occs j))).1

/-- **C86 (reported energy)**: its real part (all that is printed) is `⟨Ψ|H|Ψ⟩ / ⟨Ψ|Ψ⟩`. -/
theorem reported_energy {g : Gen nx nb} (hg : RealSymm g) (E : Expansion n) (hE : ∀ i, Sorted nb nu nd (E.occs i))
    (hi : Function.Injective E.occs) :
    (reported g nu nd E).re = (energyOf g (E.trial nb nu nd) / normOf (E.trial nb nu nd)).re := by
  have hm : ∀ i j, (getHmatel (sysOf g nu nd) (CI.spinOccs nb (E.occs i)) (CI.spinOccs nb (E.occs j))).1 =
      recomputeMatrix (sysOf g nu nd) E i j := fun i j => by
    rw [recompute_matrix hg E hE]
    exact hmatel_hamil hg (hE i) (hE j)
  have hH : ∀ i j, recomputeMatrix (sysOf g nu nd) E j i = star (recomputeMatrix (sysOf g nu nd) E i j) := by
    intro i j
    simp only [recomputeMatrix, Matrix.of_apply]
    rcases lt_trichotomy i j with h | h | h
    · rw [if_neg (not_lt.2 h.le), if_pos h, if_pos h]
    · subst h
      rw [if_neg (lt_irrefl _), if_neg (lt_irrefl _)]
      exact (Complex.conj_ofReal _).symm
    · rw [if_pos h, if_neg (not_lt.2 h.le), if_pos h, star_star]
  rw [reported]
  simp only [hm]
  rw [(Energy.varOrthoDet_re_partial _ _ hH).1]
  unfold Energy.rayleigh
  rw [Energy.sum_delta, normOf_eq E hE hi, energyOf_eq hg E hE]
  congr 2
  rw [dotProduct]
  refine sum_congr rfl fun i _ => ?_
  rw [Matrix.mulVec, dotProduct, mul_sum]
  refine sum_congr rfl fun j _ => ?_
  rw [Pi.star_apply]
  ring

/-- After `recompute_ci` it is the lowest eigenvalue. -/
theorem reported_recomputed {g : Gen nx nb} (hg : RealSymm g) (E : Expansion (n + 1))
    (hE : ∀ i, Sorted nb nu nd (E.occs i)) (hi : Function.Injective E.occs) {e : Fin (n + 1) → ℝ}
    {ev : Matrix (Fin (n + 1)) (Fin (n + 1)) ℂ} (h : Eigh (recomputeMatrix (sysOf g nu nd) E) e ev) :
    (reported g nu nd (E.recompute ev)).re = e 0 := by
  obtain ⟨h1, h2, -⟩ := recompute_variational hg E hE hi h
  rw [reported_energy hg (E.recompute ev) hE hi, h1, h2, div_one, Complex.ofReal_re]

/-! ## All determinants -/

theorem mem_fciOccs (sys : System ℂ) (o : List Nat × List Nat) :
    o ∈ fciOccs sys ↔ Sorted sys.nbasis sys.nup sys.ndown o := by
  unfold fciOccs
  simp only [List.mem_flatMap, List.mem_map, mem_combinations]
  constructor
  · rintro ⟨a, ⟨ha, hla⟩, b, ⟨hb, hlb⟩, rfl⟩
    exact ⟨List.Pairwise.sublist ha List.pairwise_lt_range, List.Pairwise.sublist hb List.pairwise_lt_range, hla, hlb,
      fun x hx => List.mem_range.1 (ha.subset hx), fun x hx => List.mem_range.1 (hb.subset hx)⟩
  · intro h
    exact ⟨o.1, ⟨sublist_range h.up h.bup, h.nup⟩, o.2, ⟨sublist_range h.dn h.bdn, h.ndn⟩, rfl⟩

theorem fciDets_eq (sys : System ℂ) : fciDets sys = (fciOccs sys).map fun o => o.1 ++ o.2.map (· + sys.nbasis) := by
  simp only [fciDets, fciOccs, List.map_flatMap, List.map_map, Function.comp_def]

theorem nodup_fciOccs (sys : System ℂ) : (fciOccs sys).Nodup := by
  have h := nodup_fciDets sys
  rw [fciDets_eq] at h
  exact List.Nodup.of_map _ h

/-- The occupations of `simple_fci` are complete. -/
theorem fci_complete (g : Gen nx nb) (c : Fin (fciOccs (sysOf g nu nd)).length → ℂ) :
    Complete nb nu nd (fciExpansion (sysOf g nu nd) c) where
  sorted i := (mem_fciOccs (sysOf g nu nd) _).1 (List.get_mem _ i)
  inj := List.nodup_iff_injective_get.1 (nodup_fciOccs _)
  all o ho := by
    obtain ⟨i, hi⟩ := List.get_of_mem ((mem_fciOccs (sysOf g nu nd) o).2 ho)
    exact ⟨i, hi⟩

/-- The matrix that `simple_fci` diagonalises. -/
noncomputable def fciMat (g : Gen nx nb) (nu nd : Nat) :
    Matrix (Fin (fciOccs (sysOf g nu nd)).length) (Fin (fciOccs (sysOf g nu nd)).length) ℂ :=
  Matrix.of fun i j => fciMatrix (sysOf g nu nd) (fciDets (sysOf g nu nd)) i j

theorem fciMat_elem {g : Gen nx nb} (hg : RealSymm g) (c : Fin (fciOccs (sysOf g nu nd)).length → ℂ)
    (i j : Fin (fciOccs (sysOf g nu nd)).length) : fciMat g nu nd i j =
      Energy.hamil g.h1 g.chol g.ecore (Slater.up (((fciExpansion (sysOf g nu nd) c).trial nb nu nd).psi i))
        (Slater.up (((fciExpansion (sysOf g nu nd) c).trial nb nu nd).psi j))
        (Slater.dn (((fciExpansion (sysOf g nu nd) c).trial nb nu nd).psi i))
        (Slater.dn (((fciExpansion (sysOf g nu nd) c).trial nb nu nd).psi j)) := by
  have hS := (fci_complete g c).sorted
  have hd : ∀ k : Fin (fciOccs (sysOf g nu nd)).length, (fciDets (sysOf g nu nd)).getD k [] =
      CI.spinOccs nb ((fciExpansion (sysOf g nu nd) c).occs k) := by
    intro k
    rw [(hS k).spinOccs, fciDets_eq, List.getD_eq_getElem?_getD, List.getElem?_map, List.getElem?_eq_getElem k.2]
    rfl
  show fciMatrix _ _ (i : Nat) (j : Nat) = _
  rw [fciMatrix, hd, hd]
  split_ifs with h
  · exact hmatel_hamil hg (hS i) (hS j)
  · exact hmatel_transposed hg.spin (hS j) (hS i)

open Classical in
/-- In a complete expansion antisymmetric functionals are sums of its determinants. -/
theorem complete_expand {E : Expansion n} (hE : Complete nb nu nd E) {α : (Fin nu ⊕ Fin nd → Fin nb) → ℂ}
    (hα : Anti spin α) : α = ∑ i, (α ⬝ᵥ prodState (orbs ((E.trial nb nu nd).psi i))) • slater ((E.trial nb nu nd).psi i) := by
  conv_lhs => rw [anti_expand hα]
  symm
  refine Finset.sum_bij (fun i _ => (hE.sorted i).orb) (fun i _ => mem_filter.2 ⟨mem_univ _, (hE.sorted i).inc⟩) ?_ ?_ ?_
  · intro i _ j _ h
    exact hE.inj ((hE.sorted i).orb_inj (hE.sorted j) h)
  · intro f hf
    obtain ⟨o, ho, rfl⟩ := exists_occs (mem_filter.1 hf).2
    obtain ⟨i, hi⟩ := hE.all o ho
    subst hi
    exact ⟨i, mem_univ i, rfl⟩
  · intro i _
    show (α ⬝ᵥ prodState (orbs (detOf nb nu nd (E.occs i)))) • slater (detOf nb nu nd (E.occs i)) = _
    rw [(hE.sorted i).det, dot_unit]

theorem complete_row {g : Gen nx nb} (hL : ∀ x, (g.chol x)ᵀ = g.chol x) {E : Expansion n} (hE : Complete nb nu nd E)
    (A : Slater.Wfn nb nu nd) : slater A ᵥ* hamOp g.h1 g.chol g.ecore spin =
      ∑ j, Energy.hamil g.h1 g.chol g.ecore (Slater.up A) (Slater.up ((E.trial nb nu nd).psi j)) (Slater.dn A)
        (Slater.dn ((E.trial nb nu nd).psi j)) • slater ((E.trial nb nu nd).psi j) := by
  conv_lhs => rw [complete_expand hE ((Step.slater_anti A).vecMul (MultiDet.hamOp_sym g hL))]
  refine sum_congr rfl fun j _ => ?_
  rw [← Matrix.dotProduct_mulVec, Step.hamOp_elem]

/-- **C86 (full CI trial state)**: an eigenvector of the matrix of `simple_fci` gives a trial state that is an eigenstate of
the Hamiltonian of the electrons. -/
theorem fci_eigenstate {g : Gen nx nb} (hg : RealSymm g) {c : Fin (fciOccs (sysOf g nu nd)).length → ℂ} {E : ℝ}
    (hc : fciMat g nu nd *ᵥ c = (E : ℂ) • c) :
    bra ((fciExpansion (sysOf g nu nd) c).trial nb nu nd) ᵥ* hamOp g.h1 g.chol g.ecore spin =
      (E : ℂ) • bra ((fciExpansion (sysOf g nu nd) c).trial nb nu nd) := by
  have hC := fci_complete (nu := nu) (nd := nd) g c
  set T := (fciExpansion (sysOf g nu nd) c).trial nb nu nd with hT
  have e1 : ∀ i, slater (T.psi i) ᵥ* hamOp g.h1 g.chol g.ecore spin = ∑ j, fciMat g nu nd i j • slater (T.psi j) := by
    intro i
    rw [complete_row hg.chol hC]
    exact sum_congr rfl fun j _ => by rw [fciMat_elem hg c]
  have e2 : ∀ i j, star (fciMat g nu nd i j) = fciMat g nu nd j i := by
    intro i j
    rw [fciMat_elem hg c, fciMat_elem hg c]
    exact hamil_star hg.spin hg.rh1 (fun p q r s => (hg.reri p q r s).trans (eri_symm hg.chol p q r s)) hg.recore (hC.sorted i) (hC.sorted j)
  have e3 : ∀ j, ∑ i, star (T.coeffs i) * fciMat g nu nd i j = E * star (T.coeffs j) := by
    intro j
    have := congrArg star (congrFun hc j)
    rw [Matrix.mulVec, dotProduct, star_sum, Pi.smul_apply, smul_eq_mul, star_mul'] at this
    have hE : star (E : ℂ) = E := Complex.conj_ofReal E
    rw [hE] at this
    rw [show T.coeffs j = c j from rfl, ← this]
    refine sum_congr rfl fun i _ => ?_
    rw [star_mul', e2, mul_comm]
    rfl
  rw [bra, Matrix.sum_vecMul]
  simp only [Matrix.smul_vecMul, e1, smul_sum, smul_smul]
  rw [sum_comm]
  refine sum_congr rfl fun j _ => ?_
  rw [← sum_smul, e3]

/-- **C86 (zero variance)**: with an eigenvector of the matrix of `simple_fci` as trial state, the local energy of every
walker that no determinant is orthogonal to is the eigenvalue. -/
theorem fci_zero_variance {g : Gen nx nb} (hg : RealSymm g) {c : Fin (fciOccs (sysOf g nu nd)).length → ℂ} {E : ℝ}
    (hc : fciMat g nu nd *ᵥ c = (E : ℂ) • c) (w : MultiDet.Wk (fciOccs (sysOf g nu nd)).length nb nu nd)
    (hp : ∀ i, MultiDet.Pass (((fciExpansion (sysOf g nu nd) c).trial nb nu nd).psi i) w.phi)
    (h0 : bra ((fciExpansion (sysOf g nu nd) c).trial nb nu nd) ⬝ᵥ MultiDet.ket w ≠ 0) :
    MultiDet.localEnergy ((fciExpansion (sysOf g nu nd) c).trial nb nu nd)
      (fun G => (Energy.localChol g.h1 g.chol G g.ecore).1)
      (MultiDet.greensFunction ((fciExpansion (sysOf g nu nd) c).trial nb nu nd) w).1 = E :=
  MultiDet.zero_variance rfl (MultiDet.local_generic g) (fci_eigenstate hg hc) w hp h0

/-- **C86 (projected energies)**: the energy that free projection converges to is an eigenvalue of the matrix of
`simple_fci`, whatever the trial state. -/
theorem fci_projects {g : Gen nx nb} (hg : RealSymm g) (hR : ∀ x, (g.chol x)ᴴ = g.chol x) (mf : Fin nx → ℂ) (qr : Slater.QR nb) (hqr : Slater.QRSpec qr)
    (T : Trial n nb nu nd) (e : ℂ) (w : MultiDet.Wk n nb nu nd) (hw : (w.weight : ℂ) * w.phase ≠ 0)
    (hot : w.ot = bra T ⬝ᵥ MultiDet.ket w) (hO : bra T ⬝ᵥ MultiDet.ket w ≠ 0) (hu : Slater.FullRank (Slater.up w.phi))
    (hd : Slater.FullRank (Slater.dn w.phi)) : ∃ E0 : ℝ,
      (∃ v, v ≠ 0 ∧ fciMat g nu nd *ᵥ v = (E0 : ℂ) • v) ∧
      MultiDet.ProjectsRun (fun dt xi v => MultiDet.propagateFree 6 dt (g.tables dt mf) T e xi v)
        (MultiDet.orthogonalise qr true) T (hamOp g.h1 g.chol g.ecore spin) w E0 := by
  have hh : ∀ s, (g.h1 s)ᴴ = g.h1 s := by
    intro s
    fin_cases s
    · exact hg.rh1
    · show (g.h1 1)ᴴ = g.h1 1
      rw [hg.spin]; exact hg.rh1
  obtain ⟨E0, ⟨S, u, hev, -, -, hS, h0⟩, hP⟩ := MultiDet.generic_projects g hh hg.chol hR hg.recore mf qr hqr T e w
    hw hot hO hu hd
  refine ⟨E0, ⟨fun i => slater (((fciExpansion (sysOf g nu nd) 0).trial nb nu nd).psi i) ⬝ᵥ u E0, ?_, ?_⟩, hP⟩
  · intro hz
    apply h0
    rw [complete_expand (fci_complete (nu := nu) (nd := nd) g 0) (MultiDet.bra_anti T), sum_dotProduct]
    refine sum_eq_zero fun i _ => ?_
    rw [smul_dotProduct, show slater _ ⬝ᵥ u E0 = _ from congrFun hz i]
    simp
  · funext i
    have h1 := complete_row hg.chol (fci_complete (nu := nu) (nd := nd) g 0)
      (((fciExpansion (sysOf g nu nd) 0).trial nb nu nd).psi i)
    have h2 := congrArg (fun v => v ⬝ᵥ u E0) h1
    rw [← Matrix.dotProduct_mulVec, hev E0 hS, dotProduct_smul, sum_dotProduct] at h2
    rw [Pi.smul_apply, h2, Matrix.mulVec, dotProduct]
    refine sum_congr rfl fun j _ => ?_
    rw [fciMat_elem hg 0, smul_dotProduct, smul_eq_mul]

/-- **C86 (projection with a full CI trial state)**: with an eigenvector as trial state free projection gives its
eigenvalue. -/
theorem fci_trial_projects {g : Gen nx nb} (hg : RealSymm g) (hR : ∀ x, (g.chol x)ᴴ = g.chol x) {c : Fin (fciOccs (sysOf g nu nd)).length → ℂ} {E : ℝ}
    (hc : fciMat g nu nd *ᵥ c = (E : ℂ) • c) (mf : Fin nx → ℂ) (qr : Slater.QR nb) (hqr : Slater.QRSpec qr) (e : ℂ)
    (w : MultiDet.Wk (fciOccs (sysOf g nu nd)).length nb nu nd) (hw : (w.weight : ℂ) * w.phase ≠ 0)
    (hot : w.ot = bra ((fciExpansion (sysOf g nu nd) c).trial nb nu nd) ⬝ᵥ MultiDet.ket w)
    (hO : bra ((fciExpansion (sysOf g nu nd) c).trial nb nu nd) ⬝ᵥ MultiDet.ket w ≠ 0)
    (hu : Slater.FullRank (Slater.up w.phi)) (hd : Slater.FullRank (Slater.dn w.phi)) :
    MultiDet.ProjectsRun (fun dt xi v => MultiDet.propagateFree 6 dt (g.tables dt mf)
        ((fciExpansion (sysOf g nu nd) c).trial nb nu nd) e xi v)
      (MultiDet.orthogonalise qr true) ((fciExpansion (sysOf g nu nd) c).trial nb nu nd)
      (hamOp g.h1 g.chol g.ecore spin) w E := by
  have hh : ∀ s, (g.h1 s)ᴴ = g.h1 s := by
    intro s
    fin_cases s
    · exact hg.rh1
    · show (g.h1 1)ᴴ = g.h1 1
      rw [hg.spin]; exact hg.rh1
  obtain ⟨E0, ⟨S, u, hev, -, -, hS, h0⟩, hP⟩ := MultiDet.generic_projects g hh hg.chol hR hg.recore mf qr hqr
    ((fciExpansion (sysOf g nu nd) c).trial nb nu nd) e w hw hot hO hu hd
  have h1 := congrArg (fun v => v ⬝ᵥ u E0) (fci_eigenstate (nu := nu) (nd := nd) hg hc)
  rw [← Matrix.dotProduct_mulVec, hev E0 hS, dotProduct_smul, smul_dotProduct, smul_eq_mul, smul_eq_mul] at h1
  have h2 : (E0 : ℂ) = E := mul_right_cancel₀ h0 h1
  rw [← Complex.ofReal_injective h2]
  exact hP

end Verif.CI.Bridge
