import Verif.Energy.Wick

/-!
# Generalised Hartree-Fock walkers and trials of the Hubbard model

Model of `pauxy/walkers/multi_ghf.py` (85-204), `pauxy/estimators/greens_function.py` (194-281), `pauxy/estimators/hubbard.py` (117-176) and the
parts of `pauxy/propagation/hubbard.py` and `pauxy/propagation/operations.py` for these walkers.  A determinant has a row for every spin
orbital, `nbasis` rows for up and then `nbasis` rows for down; every column may mix the spins.
-/

namespace Verif.Ghf

open Matrix Finset
open Verif.Slater (QR linReortho)

variable {m n d : Nat}

/-- `2 * nbasis` rows, `ne` columns. -/
abbrev Det (m n : Nat) := Matrix (Fin (m + m)) (Fin n) ℂ

abbrev Big (m : Nat) := Matrix (Fin (m + m)) (Fin (m + m)) ℂ

/-- Row of spin up at site `x`. -/
def up (x : Fin m) : Fin (m + m) := Fin.castAdd m x

/-- Row of spin down at site `x`. -/
def dn (x : Fin m) : Fin (m + m) := Fin.natAdd m x

/-- `trial.psi` and `trial.coeffs`; the coefficients are stored conjugated (multi_ghf.py 112-113). -/
structure Trial (m n d : Nat) where
  psi : Fin d → Det m n
  coeffs : Fin d → ℂ

/-- Attributes of `MultiGHFWalker` that are used below. -/
structure Wk (m n d : Nat) where
  phi : Det m n
  inv : Fin d → Matrix (Fin n) (Fin n) ℂ
  ots : Fin d → ℂ
  weights : Fin d → ℂ
  ot : ℂ
  Gi : Fin d → Big m

/-- `inverse_overlap`, multi_ghf.py 85-97, and `update_inverse_overlap`, 186-204, which computes the same. -/
noncomputable def inverseOverlap (t : Trial m n d) (w : Wk m n d) : Wk m n d :=
  { w with inv := fun k => ((t.psi k)ᴴ * w.phi)⁻¹ }

/-- What `calc_otrial` stores, multi_ghf.py 114-116. -/
noncomputable def storeOverlaps (t : Trial m n d) (w : Wk m n d) : Wk m n d :=
  { w with ots := fun k => 1 / (w.inv k).det, weights := fun k => t.coeffs k * (1 / (w.inv k).det) }

/-- What `calc_otrial` returns, multi_ghf.py 117. -/
noncomputable def calcOtrial (t : Trial m n d) (w : Wk m n d) : ℂ := ∑ k, (storeOverlaps t w).weights k

/-- `greens_function`, multi_ghf.py 169-182, the components. -/
noncomputable def greens (t : Trial m n d) (w : Wk m n d) : Wk m n d :=
  { w with Gi := fun k => (w.phi * w.inv k * (t.psi k)ᴴ)ᵀ }

/-- `self.G`, multi_ghf.py 183-184. -/
noncomputable def contracted (w : Wk m n d) : Big m := (1 / ∑ k, w.weights k) • ∑ k, w.weights k • w.Gi k

/-- `system.Text`, systems/hubbard.py 90. -/
def text (T : Fin 2 → Matrix (Fin m) (Fin m) ℂ) : Big m := (fromBlocks (T 0) 0 0 (T 1)).submatrix finSumFinEquiv.symm finSumFinEquiv.symm

/-- Kinetic part of `local_energy_hubbard_ghf`, estimators/hubbard.py 134. -/
noncomputable def kinEnergy (T : Big m) (Gi : Fin d → Big m) (weights : Fin d → ℂ) (denom : ℂ) : ℂ :=
  (∑ k, ∑ a, ∑ b, weights k * Gi k a b * T a b) / denom

/-- Potential part of `local_energy_hubbard_ghf`, estimators/hubbard.py 137-142. -/
noncomputable def potEnergy (U : ℂ) (Gi : Fin d → Big m) (weights : Fin d → ℂ) (denom : ℂ) : ℂ :=
  U * (∑ k, ∑ x : Fin m, weights k *
    (Gi k (up x) (up x) * Gi k (dn x) (dn x) - Gi k (dn x) (up x) * Gi k (up x) (dn x))) / denom

/-- `local_energy_hubbard_ghf`, estimators/hubbard.py 117-143. -/
noncomputable def localEnergy (T : Big m) (U : ℂ) (Gi : Fin d → Big m) (weights : Fin d → ℂ) (denom : ℂ) : ℂ × ℂ × ℂ :=
  (kinEnergy T Gi weights denom + potEnergy U Gi weights denom, kinEnergy T Gi weights denom, potEnergy U Gi weights denom)

/-- `gab_multi_ghf`, greens_function.py 194-227. -/
noncomputable def gabMultiGhf (A : Fin d → Det m n) (B : Det m n) : (Fin d → Big m) × (Fin d → ℂ) :=
  (fun k => B * (((A k)ᴴ * B)⁻¹ * (A k)ᴴ), fun k => 1 / (((A k)ᴴ * B)⁻¹).det)

/-- The arrays `GAB` and `weights` that `gab_multi_det_full` fills, greens_function.py 272-278. -/
noncomputable def gabFull {e : Nat} (A : Fin d → Det m n) (B : Fin e → Det m n) (ca : Fin d → ℂ) (cb : Fin e → ℂ) :
    (Fin d → Fin e → Big m) × (Fin d → Fin e → ℂ) :=
  (fun i j => B j * ((A i)ᴴ * B j)⁻¹ * (A i)ᴴ, fun i j => ca i * star (cb j) / (((A i)ᴴ * B j)⁻¹).det)

/-- What `gab_multi_det_full` returns, greens_function.py 279-281. -/
noncomputable def gabFullSum {e : Nat} (A : Fin d → Det m n) (B : Fin e → Det m n) (ca : Fin d → ℂ) (cb : Fin e → ℂ) : Big m :=
  (1 / ∑ i, ∑ j, (gabFull A B ca cb).2 i j) • ∑ i, ∑ j, (gabFull A B ca cb).2 i j • (gabFull A B ca cb).1 i j

/-- `local_energy_hubbard_ghf_full`, estimators/hubbard.py 145-176, the total energy. -/
noncomputable def localEnergyFull {e : Nat} (T : Big m) (U : ℂ) (G : Fin d → Fin e → Big m) (weights : Fin d → Fin e → ℂ) : ℂ :=
  (∑ i, ∑ j, ∑ a, ∑ b, weights i j * G i j a b * T a b) / (∑ i, ∑ j, weights i j) +
    U * (∑ i, ∑ j, ∑ x : Fin m, weights i j *
      (G i j (up x) (up x) * G i j (dn x) (dn x) - G i j (dn x) (up x) * G i j (up x) (dn x))) / (∑ i, ∑ j, weights i j)

/-! ## Propagation -/

/-- `walker.R` of `calculate_overlap_ratio_multi_ghf`, propagation/hubbard.py 497-508; `delta[xi][spin]`. -/
noncomputable def ratios (delta : Fin 2 → Fin 2 → ℂ) (w : Wk m n d) (i : Fin m) (k : Fin d) (xi : Fin 2) : ℂ :=
  (1 + delta xi 0 * w.Gi k (up i) (up i)) * (1 + delta xi 1 * w.Gi k (dn i) (dn i)) -
    delta xi 0 * w.Gi k (up i) (dn i) * delta xi 1 * w.Gi k (dn i) (up i)

/-- `calculate_overlap_ratio_multi_ghf`, propagation/hubbard.py 509-510. -/
noncomputable def probs (t : Trial m n d) (delta : Fin 2 → Fin 2 → ℂ) (w : Wk m n d) (i : Fin m) (xi : Fin 2) : ℂ :=
  1 / 2 * ((∑ k, t.coeffs k * ratios delta w i k xi * w.ots k) / w.ot)

/-- `update_overlap`, multi_ghf.py 133-135. -/
noncomputable def updateOverlap (t : Trial m n d) (R : Fin d → Fin 2 → ℂ) (p : Fin 2 → ℂ) (xi : Fin 2) (w : Wk m n d) : Wk m n d :=
  { w with ots := fun k => R k xi * w.ots k, weights := fun k => t.coeffs k * (R k xi * w.ots k), ot := 2 * w.ot * p xi }

/-- The change of the rows of site `i`, propagation/hubbard.py 210-213: the columns of the up electrons in the row of spin up, the
others in the row of spin down. -/
noncomputable def move (nup : Nat) (dl : Fin 2 → ℂ) (i : Fin m) (phi : Det m n) : Det m n :=
  Matrix.of fun r c => if r = up i ∧ c.val < nup then phi r c + phi r c * dl 0
    else if r = dn i ∧ nup ≤ c.val then phi r c + phi r c * dl 1 else phi r c

/-- What `two_body_single_site` (propagation/hubbard.py 190-217) does at site `i` if field `xi` is chosen, without the weight and with
`aux_wfac = 1`. -/
noncomputable def site (t : Trial m n d) (nup : Nat) (delta : Fin 2 → Fin 2 → ℂ) (i : Fin m) (xi : Fin 2) (w : Wk m n d) : Wk m n d :=
  let w1 := greens t w
  inverseOverlap t (updateOverlap t (ratios delta w1 i) (probs t delta w1 i) xi { w1 with phi := move nup (delta xi) i w1.phi })

/-- `kinetic_ghf`, operations.py 119-137. -/
noncomputable def kinetic (nup : Nat) (bt2 : Matrix (Fin m) (Fin m) ℂ) (phi : Det m n) : Det m n :=
  Matrix.of fun r c => Fin.addCases (fun x => if c.val < nup then ∑ y, bt2 x y * phi (up y) c else phi r c)
    (fun x => if nup ≤ c.val then ∑ y, bt2 x y * phi (dn y) c else phi r c) r

/-- The matrices of the fields of a step, propagation/hubbard.py 624-626. -/
noncomputable def fieldMatrix (auxf : Fin 2 → Fin 2 → ℂ) (config : Fin m → Fin 2) : Big m :=
  diagonal fun r => Fin.addCases (fun x => auxf (config x) 0) (fun x => auxf (config x) 1) r

/-- `construct_propagator_matrix_ghf`, propagation/hubbard.py 603-632, not conjugated. -/
noncomputable def propMatrix (auxf : Fin 2 → Fin 2 → ℂ) (bt2 : Big m) (config : Fin m → Fin 2) : Big m :=
  bt2 * fieldMatrix auxf config * bt2

/-- Loop of `back_propagate_single_ghf` (propagation/hubbard.py 785-794) and `back_propagate_ghf` (699-711) for one determinant of the trial
and its weight: iteration `i` applies the next matrix, latest first, and reorthogonalises if `i ≠ 0` and `nstblz` divides `i`. -/
noncomputable def backLoop (qr : QR (m + m)) (nstblz : Nat) : Nat → List (Big m) → Det m n × ℂ → Det m n × ℂ
  | _, [], s => s
  | i, B :: l, s =>
    let phi1 := Bᴴ * s.1
    backLoop qr nstblz (i + 1) l
      (if i ≠ 0 ∧ i % nstblz = 0 then ((linReortho qr phi1).1, s.2 * star (linReortho qr phi1).2) else (phi1, s.2))

/-- Back propagation of all determinants of a trial from weights one, with the matrices of the steps in the order of the steps. -/
noncomputable def backPropagate (qr : QR (m + m)) (nstblz : Nat) (Bs : List (Big m)) (psi : Fin d → Det m n) (k : Fin d) : Det m n × ℂ :=
  backLoop qr nstblz 0 Bs.reverse (psi k, 1)

end Verif.Ghf
