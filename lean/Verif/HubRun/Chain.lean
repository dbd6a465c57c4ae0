import Verif.HubRun.Ground
import Verif.Fields.Perron
import Verif.Uhf.Findings
import Verif.Slater.Exist

/-!
# Runs of Hubbard chains from the trial wave functions of the code: C120

The chain is the Hubbard system with `ny = 1` (`pauxy/systems/hubbard.py` 47-104, hopping matrix `Lattice.kinetic`), the trial wave
functions are those of `free_electron.py` and `uhf.py`, which `trial_wavefunction/utils.py` 87-111 hands over as one determinant; walkers
start from it (`multi_slater.py` 75-78, `walkers/walker.py` 29, `walkers/single_det.py` 61-64).
-/

namespace Verif.HubRun

open Matrix Finset Filter Topology
open Verif.Slater
open Verif.Hirsch
open Verif.Step (Hub spin hubOp)
open Verif.Fields (PosMin Hops Ground)
open Verif.Lattice (kinetic kinetic_chain kinetic_hermitian bphase ring1)
open Verif.Uhf (Eig Eigh cols Inp Orbs Random build diagonalise)

/-- `FreeElectron`, trial_wavefunction/free_electron.py 21-22, 27-28, 57-58: the lowest eigenvectors of the hopping matrices. -/
def freeElectron {nb nu nd : Nat} (eig : Eig nb) (T : Fin 2 → Matrix (Fin nb) (Fin nb) ℂ) (hu : nu ≤ nb) (hd : nd ≤ nb) : Wfn nb nu nd :=
  join (cols hu (eig (T 0)).2) (cols hd (eig (T 1)).2)

/-- A new walker, walkers/walker.py 25-54 and walkers/single_det.py 61-64, for a trial of one determinant. -/
noncomputable def start {nb nu nd : Nat} (psi : Wfn nb nu nd) : Wk nb nu nd :=
  { phi := psi, invUp := ((up psi)ᴴ * up psi)⁻¹, invDn := ((dn psi)ᴴ * dn psi)⁻¹, ot := overlap psi psi, ovlp := overlap psi psi, weight := 1,
    phase := 1, logShift := 0, detRShift := 0, detR := 1, logDetR := 0 }

/-- The Hubbard system on a chain. -/
noncomputable def chain (t U : ℝ) (symmetric : Bool) (nx : Nat) (ks : Option (List ℝ)) (xpbc ypbc : Bool) : Hub (1 * nx) :=
  ⟨fun _ => kinetic t nx 1 ks xpbc ypbc, U, symmetric⟩

/-- What is shown of a run that starts from the trial wave function. -/
def Exact {nb nu nd : Nat} (h : Hub nb) (psi : Wfn nb nu nd) (qr : QR nb) : Prop :=
  ∃ E0 : ℝ, Ground (hubOp h.h1 h.U (spin : Fin nu ⊕ Fin nd → Fin 2)) E0 ∧ ∃ lim : ℝ → ℂ,
    (∀ β, 0 ≤ β → ∀ l : Nat → List (Option ℝ), (∀ N, steps (l N) = N + 1) →
      Tendsto (fun N => runEnergy h (β / (N + 1 : Nat)) psi qr (l N) (start psi)) atTop (𝓝 (lim β))) ∧
    Tendsto lim atTop (𝓝 (E0 : ℂ))

theorem exact_of_signFree {nb nu nd : Nat} (h : Hub nb) (hU : 0 ≤ h.U) (hT : ∀ s, (h.h1 s)ᴴ = h.h1 s) (h0 : Hops (h.h1 0) nu)
    (h1 : Hops (h.h1 1) nd) (hnu : nu ≤ nb) (hnd : nd ≤ nb) {c c' : ℂ} {psi : Wfn nb nu nd} (hψ : SignFree c c' psi) {qr : QR nb}
    (hqr : QRSpec qr) : Exact h psi qr :=
  sign_free_run h hU hT h0 h1 hnu hnd hψ hqr (w := start psi) hψ (by simp [start]) rfl one_ne_zero

/-! ## The hopping matrix of the chain -/

theorem chain_herm (t U : ℝ) (sy : Bool) (nx : Nat) (ks : Option (List ℝ)) (xpbc ypbc : Bool) (s : Fin 2) :
    ((chain t U sy nx ks xpbc ypbc).h1 s)ᴴ = (chain t U sy nx ks xpbc ypbc).h1 s := kinetic_hermitian t nx 1 ks xpbc ypbc

theorem chain_neighbour (t : ℝ) (ht : 0 < t) (nx : Nat) (hn : 2 ≤ nx) (ks : Option (List ℝ)) (xpbc ypbc : Bool)
    (hp : bphase ks 0 xpbc = 0 ∨ bphase ks 0 xpbc = 1) (i j : Fin (1 * nx)) (h : j.val + 1 = i.val) :
    (kinetic t nx 1 ks xpbc ypbc i j).re < 0 := by
  rw [kinetic_chain t nx hn, ring1]
  have h1 : ¬ (j.val = i.val + 1) := by omega
  have h2 : ¬ (i.val = 0 ∧ j.val + 1 = nx) := by omega
  rw [if_neg h1, if_pos h.symm, if_neg h2, zero_add, add_zero, ← Complex.ofReal_neg, Complex.re_ofReal_mul, Complex.add_re, Complex.one_re]
  have h3 : 0 ≤ (if j.val = 0 ∧ i.val + 1 = nx then star (bphase ks 0 xpbc) else 0 : ℂ).re := by
    split_ifs
    · rcases hp with h | h <;> rw [h] <;> simp
    · simp
  nlinarith

/-- A matrix with the hops of the chain and any real potential. -/
theorem potential_neighbour {m : Nat} {T : Matrix (Fin m) (Fin m) ℂ} (h : ∀ i j : Fin m, j.val + 1 = i.val → (T i j).re < 0) (d : Fin m → ℝ) :
    ∀ i j : Fin m, j.val + 1 = i.val → ((T + diagonal fun i => (d i : ℂ)) i j).re < 0 := by
  intro i j hij
  have hne : i ≠ j := fun e => by rw [e] at hij; omega
  rw [Matrix.add_apply, Matrix.diagonal_apply_ne _ hne, add_zero]
  exact h i j hij

theorem potential_herm {m : Nat} {T : Matrix (Fin m) (Fin m) ℂ} (h : T.IsHermitian) (d : Fin m → ℝ) :
    (T + diagonal fun i => (d i : ℂ)).IsHermitian := by
  refine h.add ?_
  rw [Matrix.IsHermitian, diagonal_conjTranspose]
  congr 1
  funext i
  exact Complex.conj_ofReal _

/-! ## The trial wave functions -/

section

variable {nx nu nd : Nat}

/-- Hops that keep amplitudes positive, for the numbers of electrons of both spins. -/
structure Fit (h : Hub (1 * nx)) (nu nd : Nat) : Prop where
  up : Hops (h.h1 0) nu
  dn : Hops (h.h1 1) nd
  neighbour : ∀ s (i j : Fin (1 * nx)), j.val + 1 = i.val → (h.h1 s i j).re < 0

/-- Chains with open ends: any numbers of electrons. -/
theorem fit_open {t : ℝ} (ht : 0 < t) (U : ℝ) (sy : Bool) (hn : 2 ≤ nx) (ks : Option (List ℝ)) (ypbc : Bool) (nu nd : Nat) :
    Fit (chain t U sy nx ks false ypbc) nu nd :=
  ⟨Fields.hops_open t ht.le nx hn ks ypbc nu, Fields.hops_open t ht.le nx hn ks ypbc nd,
    fun _ => chain_neighbour t ht nx hn ks false ypbc (Or.inl rfl)⟩

/-- Rings without twist: odd numbers of electrons of both spins. -/
theorem fit_ring {t : ℝ} (ht : 0 < t) (U : ℝ) (sy : Bool) (hn : 2 ≤ nx) (ypbc : Bool) (hu : Odd nu) (hd : Odd nd) :
    Fit (chain t U sy nx none true ypbc) nu nd :=
  ⟨Fields.hops_closed t ht.le nx hn ypbc hu, Fields.hops_closed t ht.le nx hn ypbc hd,
    fun _ => chain_neighbour t ht nx hn none true ypbc (Or.inr rfl)⟩

theorem fit_orbitals {h : Hub (1 * nx)} (hf : Fit h nu nd) (hT : ∀ s, (h.h1 s)ᴴ = h.h1 s) {eig : Eig (1 * nx)} (he : Eigh eig)
    (hu : nu ≤ 1 * nx) (hd : nd ≤ 1 * nx) (d d' : Fin (1 * nx) → ℝ) :
    ∃ c c', SignFree c c' (join (cols hu (eig (h.h1 0 + diagonal fun i => (d i : ℂ))).2) (cols hd (eig (h.h1 1 + diagonal fun i => (d' i : ℂ))).2)) := by
  obtain ⟨c, hc⟩ := Fields.lowest_chain (potential_herm (hT 0) d) (hf.up.potential d) (potential_neighbour (hf.neighbour 0) d) he hu
  obtain ⟨c', hc'⟩ := Fields.lowest_chain (potential_herm (hT 1) d') (hf.dn.potential d') (potential_neighbour (hf.neighbour 1) d') he hd
  exact ⟨c, c', by rw [up_join]; exact hc, by rw [dn_join]; exact hc'⟩

/-- The free-electron trial has no nodes, whichever phases and degenerate eigenvectors the eigensolver returns. -/
theorem freeElectron_signFree {h : Hub (1 * nx)} (hf : Fit h nu nd) (hT : ∀ s, (h.h1 s)ᴴ = h.h1 s) {eig : Eig (1 * nx)} (he : Eigh eig)
    (hu : nu ≤ 1 * nx) (hd : nd ≤ 1 * nx) : ∃ c c', SignFree c c' (freeElectron eig h.h1 hu hd) := by
  have := fit_orbitals hf hT he hu hd (fun _ => 0) (fun _ => 0)
  simpa [freeElectron] using this

/-- Every UHF trial has no nodes. -/
theorem uhf_signFree {I : Inp (1 * nx) nu nd} {h : Hub (1 * nx)} (hI : I.T = h.h1) (hf : Fit h nu nd) (hT : ∀ s, (h.h1 s)ᴴ = h.h1 s)
    {eig : Eig (1 * nx)} (he : Eigh eig) (hd : 0 ≤ I.deps) {Rs : List (Random (1 * nx))} {o : Orbs (1 * nx) nu nd} {emin etrial : ℝ}
    (hb : build I eig Rs = some (o, emin, etrial)) : ∃ c c', SignFree c c' (join o.up o.dn) := by
  obtain ⟨R, -, hc, ho, -⟩ := Uhf.build_spec hd hb
  obtain ⟨n, -, -, -, h1, -⟩ := Uhf.attempt_spec R hc
  rw [← ho, h1]
  have := fit_orbitals hf hT he I.hu I.hd (fun i => I.ueff * n 1 i) (fun i => I.ueff * n 0 i)
  rw [← hI] at this
  exact this

/-- **C120** Hubbard chains with open ends, any numbers of electrons, repulsive interaction, free-electron trial. -/
theorem open_chain_free {t U : ℝ} (ht : 0 < t) (hU : 0 ≤ U) (sy : Bool) (hn : 2 ≤ nx) (ks : Option (List ℝ)) (ypbc : Bool)
    (hu : nu ≤ 1 * nx) (hd : nd ≤ 1 * nx) {eig : Eig (1 * nx)} (he : Eigh eig) {qr : QR (1 * nx)} (hqr : QRSpec qr) :
    Exact (chain t U sy nx ks false ypbc) (freeElectron eig (chain t U sy nx ks false ypbc).h1 hu hd) qr := by
  have hf := fit_open ht U sy hn ks ypbc nu nd
  have hT := chain_herm t U sy nx ks false ypbc
  obtain ⟨c, c', hψ⟩ := freeElectron_signFree hf hT he hu hd
  exact exact_of_signFree _ hU hT hf.up hf.dn hu hd hψ hqr

/-- **C120** Hubbard rings with odd numbers of electrons of both spins. -/
theorem ring_free {t U : ℝ} (ht : 0 < t) (hU : 0 ≤ U) (sy : Bool) (hn : 2 ≤ nx) (ypbc : Bool) (ou : Odd nu) (od : Odd nd)
    (hu : nu ≤ 1 * nx) (hd : nd ≤ 1 * nx) {eig : Eig (1 * nx)} (he : Eigh eig) {qr : QR (1 * nx)} (hqr : QRSpec qr) :
    Exact (chain t U sy nx none true ypbc) (freeElectron eig (chain t U sy nx none true ypbc).h1 hu hd) qr := by
  have hf := fit_ring ht U sy hn ypbc ou od
  have hT := chain_herm t U sy nx none true ypbc
  obtain ⟨c, c', hψ⟩ := freeElectron_signFree hf hT he hu hd
  exact exact_of_signFree _ hU hT hf.up hf.dn hu hd hψ hqr

/-- **C120** The same with a UHF trial, whichever solution the search finds. -/
theorem open_chain_uhf {t U : ℝ} (ht : 0 < t) (hU : 0 ≤ U) (sy : Bool) (hn : 2 ≤ nx) (ks : Option (List ℝ)) (ypbc : Bool)
    {I : Inp (1 * nx) nu nd} (hI : I.T = (chain t U sy nx ks false ypbc).h1) {eig : Eig (1 * nx)} (he : Eigh eig) (hd : 0 ≤ I.deps)
    {Rs : List (Random (1 * nx))} {o : Orbs (1 * nx) nu nd} {emin etrial : ℝ} (hb : build I eig Rs = some (o, emin, etrial))
    {qr : QR (1 * nx)} (hqr : QRSpec qr) : Exact (chain t U sy nx ks false ypbc) (join o.up o.dn) qr := by
  have hf := fit_open ht U sy hn ks ypbc nu nd
  have hT := chain_herm t U sy nx ks false ypbc
  obtain ⟨c, c', hψ⟩ := uhf_signFree hI hf hT he hd hb
  exact exact_of_signFree _ hU hT hf.up hf.dn I.hu I.hd hψ hqr

/-- **C120** The same with a UHF trial on a ring. -/
theorem ring_uhf {t U : ℝ} (ht : 0 < t) (hU : 0 ≤ U) (sy : Bool) (hn : 2 ≤ nx) (ypbc : Bool) (ou : Odd nu) (od : Odd nd)
    {I : Inp (1 * nx) nu nd} (hI : I.T = (chain t U sy nx none true ypbc).h1) {eig : Eig (1 * nx)} (he : Eigh eig) (hd : 0 ≤ I.deps)
    {Rs : List (Random (1 * nx))} {o : Orbs (1 * nx) nu nd} {emin etrial : ℝ} (hb : build I eig Rs = some (o, emin, etrial))
    {qr : QR (1 * nx)} (hqr : QRSpec qr) : Exact (chain t U sy nx none true ypbc) (join o.up o.dn) qr := by
  have hf := fit_ring ht U sy hn ypbc ou od
  have hT := chain_herm t U sy nx none true ypbc
  obtain ⟨c, c', hψ⟩ := uhf_signFree hI hf hT he hd hb
  exact exact_of_signFree _ hU hT hf.up hf.dn I.hu I.hd hψ hqr

end

/-- **C120** Case: six sites, three electrons with spin up and two with spin down, U = 4; eigensolver and QR exist. -/
theorem chain_case : ∃ (eig : Eig (1 * 6)) (qr : QR (1 * 6)), Eigh eig ∧ QRSpec qr ∧
    Exact (chain 1 4 false 6 none false true) (freeElectron eig (chain 1 4 false 6 none false true).h1 (by norm_num : 3 ≤ 1 * 6)
      (by norm_num : 2 ≤ 1 * 6)) qr := by
  obtain ⟨eig, he⟩ := Uhf.eigh_exists (1 * 6)
  exact ⟨eig, someQR _, he, someQR_spec _, open_chain_free one_pos (by norm_num) false (by norm_num) none true _ _ he (someQR_spec _)⟩

end Verif.HubRun
