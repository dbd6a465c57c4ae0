import Verif.Ekt.Operators
import Verif.Energy.Model

/-!
# Generalised Fock matrices of the extended Koopmans theorem

Model of `pauxy/estimators/ekt.py` and of its use in `pauxy/estimators/back_propagation.py`.  numpy arrays are matrices; `rdm1a[i,j]`
is the expectation value of `c_i^+ c_j`.
-/

namespace Verif.Ekt

open Matrix
open Verif.LangFirsov (amp hop)
open Verif.Energy (dot2)

variable {n k l nx : Nat}

/-! ## The code -/

/-- `Xchol`: `numpy.tensordot(X, cholvec, axes=([0],[0]))`, ekt.py 91-101 (and 52-58). -/
noncomputable def contract (L : Fin nx → Matrix (Fin n) (Fin n) ℂ) (rdm : Matrix (Fin n) (Fin n) ℂ)
    (vec : Fin nx → Matrix (Fin n) (Fin n) ℂ) : Matrix (Fin n) (Fin n) ℂ := ∑ x, dot2 (L x) rdm • vec x

/-- `gen_fock_1h`, ekt.py 76-129. -/
noncomputable def genFock1h (h1 : Matrix (Fin n) (Fin n) ℂ) (L : Fin nx → Matrix (Fin n) (Fin n) ℂ)
    (rdm1a rdm1b : Matrix (Fin n) (Fin n) ℂ) : Matrix (Fin n) (Fin n) ℂ × Matrix (Fin n) (Fin n) ℂ :=
  let Xachol := contract L rdm1a L
  let Xbchol := contract L rdm1b L
  let Ja := -(rdm1a * Xacholᵀ) + -(rdm1a * Xbcholᵀ)
  let Jb := -(rdm1b * Xacholᵀ) + -(rdm1b * Xbcholᵀ)
  let T := fun (rdm : Matrix (Fin n) (Fin n) ℂ) x i p => ∑ k, L x i k * rdm p k
  let K := fun rdm => Matrix.of fun p q => ∑ x, ∑ i, T rdm x i p * T rdm x q i
  let F1a := -(rdm1a * h1ᵀ)
  let F1b := -(rdm1b * h1ᵀ)
  (F1a + Ja + K rdm1a, F1b + Jb + K rdm1b)

/-- `gen_fock_1p`, ekt.py 131-187. -/
noncomputable def genFock1p (h1 : Matrix (Fin n) (Fin n) ℂ) (L : Fin nx → Matrix (Fin n) (Fin n) ℂ)
    (rdm1a rdm1b : Matrix (Fin n) (Fin n) ℂ) : Matrix (Fin n) (Fin n) ℂ × Matrix (Fin n) (Fin n) ℂ :=
  let Xachol := contract L rdm1a L
  let Xbchol := contract L rdm1b L
  let Ja := -(rdm1aᵀ * Xachol) + -(rdm1aᵀ * Xbchol) + (Xachol + Xbchol)
  let Jb := -(rdm1bᵀ * Xbchol) + -(rdm1bᵀ * Xachol) + (Xachol + Xbchol)
  let T := fun (rdm : Matrix (Fin n) (Fin n) ℂ) x l p => ∑ j, L x j l * rdm j p
  let K := fun rdm => Matrix.of fun p q => ∑ x, ∑ l, T rdm x l p * T rdm x q l
  let K1 := fun rdm => Matrix.of fun p q => ∑ x, ∑ l, L x p l * T rdm x q l
  let F1a := (1 - rdm1a)ᵀ * h1
  let F1b := (1 - rdm1b)ᵀ * h1
  (F1a + Ja + (K rdm1a - K1 rdm1a), F1b + Jb + (K rdm1b - K1 rdm1b))

/-- `ekt_1h_fock_opt`, ekt.py 46-74. -/
noncomputable def fock1hOpt (h1 : Matrix (Fin n) (Fin n) ℂ) (L : Fin nx → Matrix (Fin n) (Fin n) ℂ)
    (rdm1a rdm1b : Matrix (Fin n) (Fin n) ℂ) : Matrix (Fin n) (Fin n) ℂ :=
  let Xachol := contract L rdm1a fun x => (L x)ᵀ
  let Xbchol := contract L rdm1b fun x => (L x)ᵀ
  let J := -(2 : ℂ) • (rdm1a * Xbcholᵀ) - rdm1a * Xacholᵀ - rdm1b * Xbcholᵀ
  let K := ∑ x, (rdm1a * (L x)ᵀ * rdm1a * (L x)ᵀᵀ + rdm1a * (L x)ᵀ * rdm1b * (L x)ᵀᵀ)
  let gamma : Matrix (Fin n) (Fin n) ℂ := rdm1a + rdm1b
  let neg := -gamma
  neg * h1ᵀ + J + K

/-- `ekt_1p_fock_opt`, ekt.py 10-42. -/
noncomputable def fock1pOpt (h1 : Matrix (Fin n) (Fin n) ℂ) (L : Fin nx → Matrix (Fin n) (Fin n) ℂ)
    (rdm1a rdm1b : Matrix (Fin n) (Fin n) ℂ) : Matrix (Fin n) (Fin n) ℂ :=
  let gamma := 1 - rdm1aᵀ + 1 - rdm1bᵀ
  let rdm1 := rdm1a + rdm1b
  let Xachol := contract L rdm1a fun x => (L x)ᵀ
  let Xbchol := contract L rdm1b fun x => (L x)ᵀ
  let J := (2 : ℂ) • (Xachol + Xbchol) - (2 : ℂ) • (rdm1aᵀ * Xbchol) - rdm1aᵀ * Xachol - rdm1bᵀ * Xbchol
  let K := ∑ x, (-(L x * rdm1ᵀ * (L x)ᵀ) + rdm1aᵀ * L x * rdm1aᵀ * (L x)ᵀ + rdm1bᵀ * L x * rdm1bᵀ * (L x)ᵀ)
  gamma * h1 + J + K

/-- The assertions of both functions, ekt.py 12-13 and 48-49, on the shape of the array. -/
def shapeOk (shape : List Nat) (nmo : Nat) : Bool :=
  match shape with
  | [_, b, c] => b * c == nmo * nmo
  | _ => false

/-- The shape of the array that the estimator passes, back_propagation.py 177-185: the vectors of an electron gas are reshaped, those
of a molecule (systems/generic.py 126 and 144: one row for each pair of orbitals) are not. -/
def passedShape (ueg : Bool) (nbasis nchol : Nat) : List Nat := if ueg then [nchol, nbasis, nbasis] else [nbasis * nbasis, nchol]

/-- Where the estimates of a walker go, back_propagation.py 200-218: first place and length of the density matrix, the two-body density
matrix and the two Fock matrices, in an array that begins with `nreg` estimates and the weight. -/
def writeFock (nreg g t f : Nat) (two : Bool) : (Nat × Nat) × (Nat × Nat) :=
  let start := nreg + 1
  let fin := start + g
  let fin := if two then fin + t else fin
  ((fin, f), (fin + f, f))

/-- Where the Fock matrices are read for the output, back_propagation.py 308-322. -/
def readFock (nreg g t f : Nat) (one two : Bool) : (Nat × Nat) × (Nat × Nat) :=
  let start := nreg + 1
  let start := if one then start + g else start
  let start := if two then start + t else start
  ((start, f), (start + f, f))

/-! ## What the matrices should be -/

/-- A function of the orbitals of `k` electrons of one spin and `l` of the other. -/
abbrev State (n k l : Nat) := (Fin k → Fin n) → (Fin l → Fin n) → ℂ

/-- Every electron of one spin moves with every electron of the other. -/
noncomputable def across (v : Fin n → Fin n → Fin n → Fin n → ℂ) (Ψ : State n k l) : State n k l := fun x z =>
  ∑ a, ∑ b, ∑ i, ∑ j, v (x a) i (z b) j * Ψ (Function.update x a i) (Function.update z b j)

/-- The Hamiltonian with one-body elements `h` and integrals `v i k j l` (chemists' notation). -/
noncomputable def ham (h : Matrix (Fin n) (Fin n) ℂ) (v : Fin n → Fin n → Fin n → Fin n → ℂ) (Ψ : State n k l) : State n k l :=
  fun x z => hop h (fun y => Ψ y z) x + hop h (Ψ x) z + 1 / 2 * (pairs v (fun y => Ψ y z) x + pairs v (Ψ x) z) + across v Ψ x z

/-- An electron of the first spin leaves; nothing is left without electrons. -/
def leave : {k : Nat} → Fin n → State n k l → State n (k - 1) l
  | 0, _, _ => fun _ _ => 0
  | _ + 1, q, Ψ => fun x z => ann q (fun y => Ψ y z) x

/-- An electron of the first spin is added. -/
def join (q : Fin n) (Ψ : State n k l) : State n (k + 1) l := fun x z => cre q (fun y => Ψ y z) x

/-- Product of two determinants. -/
noncomputable def dets (A : Matrix (Fin n) (Fin k) ℂ) (A' : Matrix (Fin n) (Fin l) ℂ) : State n k l := fun x z => amp A x * amp A' z

/-- Scalar product of antisymmetric functions. -/
noncomputable def braket (Φ Ψ : State n k l) : ℂ := (∑ x, ∑ z, star (Φ x z) * Ψ x z) / (k.factorial * l.factorial)

/-- `< c_p^+ [H, c_q] >` between two states, for the first spin. -/
noncomputable def hole (h : Matrix (Fin n) (Fin n) ℂ) (v : Fin n → Fin n → Fin n → Fin n → ℂ) (Φ Ψ : State n k l) :
    Matrix (Fin n) (Fin n) ℂ := Matrix.of fun p q =>
  braket (leave p Φ) (fun x z => ham h v (leave q Ψ) x z - leave q (ham h v Ψ) x z) / braket Φ Ψ

/-- `< c_p [H, c_q^+] >` between two states, for the first spin. -/
noncomputable def particle (h : Matrix (Fin n) (Fin n) ℂ) (v : Fin n → Fin n → Fin n → Fin n → ℂ) (Φ Ψ : State n k l) :
    Matrix (Fin n) (Fin n) ℂ := Matrix.of fun p q =>
  braket (join p Φ) (fun x z => ham h v (join q Ψ) x z - join q (ham h v Ψ) x z) / braket Φ Ψ

end Verif.Ekt
