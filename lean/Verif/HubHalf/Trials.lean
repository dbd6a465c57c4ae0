import Verif.HubHalf.Props
import Verif.Lattice.Props
import Verif.Uhf.Aufbau

/-!
# Lattices and trial wave functions of half-filled Hubbard models: C132
-/

namespace Verif.HubHalf

open Matrix Finset
open Verif.Slater
open Verif.Hirsch
open Verif.HubRun (par freeElectron)
open Verif.Step (Hub)
open Verif.Uhf (Eig Eigh cols)
open Verif.Lattice (kinetic kinetic_chain kinetic_rect kinetic_hermitian ring1 bphase site)

variable {nb nu nd n : Nat}

theorem ring1_parity {m : Nat} {p : ℂ} (hm : p = 0 ∨ m % 2 = 0) {x y : Nat} (hx : x < m) (hy : y < m) (h : x % 2 = y % 2) : ring1 m p x y = 0 := by
  rw [ring1, if_neg (by omega), if_neg (by omega)]
  obtain rfl | hm := hm
  · simp
  · rw [if_neg (by omega), if_neg (by omega)]
    simp

theorem bphase_open {ks : Option (List ℝ)} {d m : Nat} {pbc : Bool} (h : pbc = true → m % 2 = 0) : bphase ks d pbc = 0 ∨ m % 2 = 0 := by
  cases pbc
  · exact Or.inl rfl
  · exact Or.inr (h rfl)

/-- The sublattice of a site. -/
def even (nx ny : Nat) (i : Fin (ny * nx)) : Bool := ((finProdFinEquiv.symm i).1.val + (finProdFinEquiv.symm i).2.val) % 2 == 0

/-- **C132** A rectangular lattice with twisted, periodic or open boundaries is bipartite if its periodic directions have even length. -/
theorem rect_bipartite (t U : ℝ) (sy : Bool) {nx ny : Nat} (hx : 2 ≤ nx) (hy : 2 ≤ ny) (ks : Option (List ℝ)) {xpbc ypbc : Bool}
    (ex : xpbc = true → nx % 2 = 0) (ey : ypbc = true → ny % 2 = 0) :
    Bipartite (even nx ny) (⟨fun _ => kinetic t nx ny ks xpbc ypbc, U, sy⟩ : Hub (ny * nx)) := by
  refine ⟨kinetic_hermitian t nx ny ks xpbc ypbc, rfl, fun i j h => ?_⟩
  obtain ⟨⟨y, x⟩, rfl⟩ := finProdFinEquiv.surjective i
  obtain ⟨⟨y', x'⟩, rfl⟩ := finProdFinEquiv.surjective j
  rw [even, even, Equiv.symm_apply_apply, Equiv.symm_apply_apply] at h
  have hp : (y.val + x.val) % 2 = (y'.val + x'.val) % 2 := by
    have h' : ((y.val + x.val) % 2 == 0) = ((y'.val + x'.val) % 2 == 0) := h
    rw [Bool.eq_iff_iff, beq_iff_eq, beq_iff_eq] at h'
    omega
  show kinetic t nx ny ks xpbc ypbc (site x y) (site x' y') = 0
  rw [kinetic_rect t nx ny hx hy]
  have e1 : (if y = y' then ring1 nx (bphase ks 0 xpbc) x x' else 0) = 0 := by
    split_ifs with hyy
    · subst hyy
      exact ring1_parity (bphase_open ex) x.isLt x'.isLt (by omega)
    · rfl
  have e2 : (if x = x' then ring1 ny (bphase ks 1 ypbc) y y' else 0) = 0 := by
    split_ifs with hxx
    · subst hxx
      exact ring1_parity (bphase_open ey) y.isLt y'.isLt (by omega)
    · rfl
  rw [e1, e2, add_zero, mul_zero]

/-- **C132** So are chains, if open or of even length. -/
theorem chain_bipartite (t U : ℝ) (sy : Bool) {nx : Nat} (hx : 2 ≤ nx) (ks : Option (List ℝ)) {xpbc ypbc : Bool} (ex : xpbc = true → nx % 2 = 0) :
    Bipartite (fun i => i.val % 2 == 0) (HubRun.chain t U sy nx ks xpbc ypbc) := by
  refine ⟨kinetic_hermitian t nx 1 ks xpbc ypbc, rfl, fun i j h => ?_⟩
  have hp : i.val % 2 = j.val % 2 := by
    have h' : (i.val % 2 == 0) = (j.val % 2 == 0) := h
    rw [Bool.eq_iff_iff, beq_iff_eq, beq_iff_eq] at h'
    omega
  have hi := i.isLt
  have hj := j.isLt
  show kinetic t nx 1 ks xpbc ypbc i j = 0
  rw [kinetic_chain t nx hx, ring1_parity (bphase_open ex) (by omega) (by omega) hp, mul_zero]

/-- **C132** The trial wave function of free electrons qualifies if all occupied orbitals have negative energy. -/
theorem free_trial {A : Fin nb → Bool} {hub : Hub nb} (hb : Bipartite A hub) {eig : Eig nb} (hE : Eigh eig) (hu : nu ≤ nb) (hd : nd ≤ nb)
    (nu0 : ∀ a : Fin nu, (eig (hub.h1 0)).1 (Fin.castLE hu a) < 0) (nd0 : ∀ a : Fin nd, (eig (hub.h1 0)).1 (Fin.castLE hd a) < 0) :
    Trial A (freeElectron eig hub.h1 hu hd : Wfn nb nu nd) := by
  obtain ⟨-, h1, h2⟩ := hE (hub.h1 0) hb.herm
  have eu : up (freeElectron eig hub.h1 hu hd : Wfn nb nu nd) = cols hu (eig (hub.h1 0)).2 := up_join _ _
  have ed : dn (freeElectron eig hub.h1 hu hd : Wfn nb nu nd) = cols hd (eig (hub.h1 0)).2 := by
    rw [← hb.same]
    exact dn_join _ _
  refine ⟨?_, ?_, ?_⟩
  · rw [eu, ed]
    generalize eig (hub.h1 0) = dv at h1 h2 nu0 nd0
    obtain ⟨d, V⟩ := dv
    have hs : sgn A * hub.h1 0 = -(hub.h1 0 * sgn A) := by
      have := congrArg (· * sgn A) hb.anti
      simp only [Matrix.mul_assoc, sgn_sq, Matrix.mul_one, Matrix.neg_mul] at this
      exact this
    have hl : Vᴴ * hub.h1 0 = (diagonal fun a => (d a : ℂ)) * Vᴴ := by
      have := congrArg conjTranspose h2
      rw [Matrix.conjTranspose_mul, Matrix.conjTranspose_mul, hb.herm, Matrix.diagonal_conjTranspose] at this
      rw [this]
      congr 2
      funext a
      exact Complex.conj_ofReal _
    have hx : (Vᴴ * (sgn A * V)) * (diagonal fun a => (d a : ℂ)) = -((diagonal fun a => (d a : ℂ)) * (Vᴴ * (sgn A * V))) := by
      rw [Matrix.mul_assoc, Matrix.mul_assoc, ← h2, ← Matrix.mul_assoc (sgn A), hs, Matrix.neg_mul, Matrix.mul_neg, ← Matrix.mul_assoc _ Vᴴ, ← hl]
      simp only [Matrix.mul_assoc]
    ext a b
    show (Vᴴ * (sgn A * V)) (Fin.castLE hu a) (Fin.castLE hd b) = 0
    have h3 := congrFun (congrFun hx (Fin.castLE hu a)) (Fin.castLE hd b)
    rw [Matrix.mul_diagonal, Matrix.neg_apply, Matrix.diagonal_mul] at h3
    have h4 : (Vᴴ * (sgn A * V)) (Fin.castLE hu a) (Fin.castLE hd b) * ((d (Fin.castLE hu a) + d (Fin.castLE hd b) : ℝ) : ℂ) = 0 := by
      push_cast
      linear_combination h3
    refine (mul_eq_zero.1 h4).resolve_right ?_
    have := add_neg (nu0 a) (nd0 b)
    exact_mod_cast this.ne
  · rw [eu, FullRank, Uhf.cols_orth hE hu hb.herm, Matrix.det_one]
    exact one_ne_zero
  · rw [ed, FullRank, Uhf.cols_orth hE hd hb.herm, Matrix.det_one]
    exact one_ne_zero

end Verif.HubHalf
