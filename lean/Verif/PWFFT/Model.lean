import Verif.PWFFT.Fourier
import Verif.UEG.Model
import Verif.Slater.Model
import Verif.Weights.Model

/-!
# Plane waves with Fourier transforms

Model of `pauxy/systems/pw_fft.py`, `pauxy/estimators/pw_fft.py`, `exchange_greens_function_fft`
(`pauxy/estimators/ueg_kernels.pyx` 77-133) and `pauxy/propagation/pw.py`.  Numbers of the system (`ecut`, `kfac`, `vol`, twist)
are those of `UEG.Inp`.  Exact arithmetic; `next_fast_len` is the parameter `fast`, random fields are arguments.
-/

namespace Verif.PWFFT

open Finset
open Verif.UEG (Vec nsq Inp nmax irange energy)

/-! ## System -/

/-- `kall`, systems/pw_fft.py 201-205 with `fill_up_range` (20-24): all vectors with components from `-M` to `M`. -/
def kall (M : Nat) : List Vec :=
  (irange M).flatMap fun i => (irange M).flatMap fun j => (irange M).map fun k => (i, j, k)

open Classical in
/-- `Gmap` of `sp_energies`, systems/pw_fft.py 207-208: the positions of the vectors in the sphere. -/
noncomputable def gmapOf (M : Nat) (e : ℝ) : List Nat :=
  (List.range (kall M).length).filter fun p => (1 / 2 : ℝ) * (nsq ((kall M).getD p 0) : ℝ) ≤ e

/-- `sp_energies`, systems/pw_fft.py 178-217: `Gmap` and `kval`.  `squeeze` turns a single position into a number, after
which the sum over the second axis fails (line 214). -/
noncomputable def spEnergies (M : Nat) (e : ℝ) : Option (List Nat × List Vec) :=
  if (gmapOf M e).length = 1 then none else some (gmapOf M e, (gmapOf M e).map fun p => (kall M).getD p 0)

/-- `self.nmax`, systems/pw_fft.py 199. -/
noncomputable def M (I : Inp) : Nat := (nmax I.ecut).toNat

/-- `self.gmap` -/
noncomputable def gmap (I : Inp) : List Nat := gmapOf (M I) I.ecut

/-- `self.qmap` -/
noncomputable def qmap (I : Inp) : List Nat := gmapOf (2 * M I) (4 * I.ecut)

/-- The entries of `self.mesh`, systems/pw_fft.py 112. -/
noncomputable def mesh (I : Inp) : Nat := M I * 2 + 1

/-- The entries of `self.qmesh`, systems/pw_fft.py 129. -/
noncomputable def qmesh (I : Inp) : Nat := 2 * M I * 2 + 1

/-- `self.nbasis` -/
noncomputable abbrev nb (I : Inp) : Nat := (gmap I).length

/-- `self.nchol` -/
noncomputable abbrev nq (I : Inp) : Nat := (qmap I).length

/-- `self.basis[a]`, systems/pw_fft.py 211. -/
noncomputable def pv (I : Inp) (a : Fin (nb I)) : Vec := (kall (M I)).getD (gmap I)[a] 0

/-- `self.qvecs[q]` -/
noncomputable def qv (I : Inp) (q : Fin (nq I)) : Vec := (kall (2 * M I)).getD (qmap I)[q] 0

/-- `self.basis` -/
noncomputable def basis (I : Inp) : List Vec := (gmap I).map fun p => (kall (M I)).getD p 0

/-- `create_lookup_table`, systems/pw_fft.py 238-245; the index of a vector (258-261) is that of `UEG.mapIx`. -/
noncomputable def table (I : Inp) (mx : ℤ) : List Nat :=
  ((basis I).zipIdx).foldl (fun t ki => t.set (UEG.mapIx I ki.1).toNat ki.2) (List.replicate (mx + 1).toNat 0)

/-- `lookup_basis`, systems/pw_fft.py 247-256, with `imax_sq` from line 115; a negative index counts from the end. -/
noncomputable def lookup (I : Inp) (v : Vec) : Option Nat :=
  match ((basis I).map nsq).max?, ((basis I).map (UEG.mapIx I)).max? with
  | some l, some mx =>
    if nsq v ≤ l then
      let t := table I mx
      let ix := UEG.mapIx I v
      if ix < 0 then t[(t.length + ix).toNat]?
      else if (t.length : ℤ) ≤ ix then none else t[ix.toNat]?
    else none
  | _, _ => none

/-- The constructor gets past both calls of `sp_energies` (systems/pw_fft.py 111, 128), the maximum of line 115, and the
assertion of lines 117-118. -/
noncomputable def Constructs (I : Inp) : Prop :=
  (spEnergies (M I) I.ecut).isSome ∧ gmap I ≠ [] ∧ (spEnergies (2 * M I) (4 * I.ecut)).isSome ∧
    ∀ i v, (basis I)[i]? = some v → lookup I v = some i

open Classical in
/-- `sort_basis`, systems/pw_fft.py 155: a stable sort by kinetic energy. -/
noncomputable def sortBasis (I : Inp) : List (Fin (nb I)) :=
  (List.finRange (nb I)).mergeSort fun a b => decide (energy I (pv I a) ≤ energy I (pv I b))

/-- The plane wave of column `i` of either half of `self.trial`, systems/pw_fft.py 157-163; outside the list there is no column. -/
noncomputable def trialCol (I : Inp) (i : Nat) : Option (Fin (nb I)) := (sortBasis I)[i]?

open Classical in
/-- `vq(kfac*q)`, ueg_kernels.pyx 11-17. -/
noncomputable def vq (I : Inp) (q : Vec) : ℝ :=
  if I.kfac ^ 2 * (nsq q : ℝ) < 1e-10 then 0 else 4 * Real.pi / (I.kfac ^ 2 * (nsq q : ℝ))

/-- The diagonal of `h1e_mod`: `mod_one_body`, ueg_kernels.pyx 19-40. -/
noncomputable def modOneBody (I : Inp) (i : Fin (nb I)) : ℝ :=
  energy I (pv I i) - ∑ j, if i ≠ j then 1 / (2 * I.vol) * vq I (pv I i - pv I j) else 0

/-- `hijkl`, systems/pw_fft.py 369-390; integer vectors, so that the tolerances are exact tests. -/
noncomputable def hijkl (I : Inp) (i j k l : Fin (nb I)) : ℝ :=
  let q1 := pv I k - pv I i
  let q2 := pv I j - pv I l
  if 0 < nsq q1 ∧ nsq (q1 - q2) = 0 then 1 / I.vol * vq I q1 else 0

/-! ## Arrays -/

/-- `c = zeros(...); c[g] = v`. -/
def scatter (g : List Nat) (v : Fin g.length → ℂ) : Nat → ℂ :=
  (List.finRange g.length).foldl (fun c a => Function.update c g[a] (v a)) fun _ => 0

/-- `f[g]` -/
def gather (g : List Nat) (f : Nat → ℂ) (i : Fin g.length) : ℂ := f g[i]

/-- `f[::-1]` or `numpy.flip(f)` of a flat array of length `L`. -/
def flip (L : Nat) (f : Nat → ℂ) (p : Nat) : ℂ := f (L - 1 - p)

/-- The same for a vector of coefficients. -/
def rev {n : Nat} (v : Fin n → ℂ) (a : Fin n) : ℂ := v a.rev

/-! ## Energy -/

/-- `lQ_i_cube[system.qmap]` of estimators/pw_fft.py 65-76 (and `lQ_ji` of ueg_kernels.pyx 109-118). -/
noncomputable def lpmq (fast : Nat → Nat) (I : Inp) (ct gh : Fin (nb I) → ℂ) : Fin (nq I) → ℂ :=
  gather (qmap I) (flip (qmesh I * qmesh I * qmesh I)
    (convolve fast (scatter (gmap I) ct) (scatter (gmap I) (rev gh)) (mesh I)))

/-- `lQ_i_cube[system.qmap]` of estimators/pw_fft.py 80-91 (and `lQ_ij` of ueg_kernels.pyx 120-129). -/
noncomputable def lkpq (fast : Nat → Nat) (I : Inp) (ct gh : Fin (nb I) → ℂ) : Fin (nq I) → ℂ :=
  gather (qmap I) (flip (qmesh I * qmesh I * qmesh I)
    (convolve fast (scatter (gmap I) gh) (scatter (gmap I) (rev ct)) (mesh I)))

/-- `CTdagger[s][i,:]` for the columns of the trial, estimators/pw_fft.py 42-43. -/
def ctd {n k : Nat} (psi : Matrix (Fin n) (Fin k) ℂ) (i : Fin k) (p : Fin n) : ℂ := star (psi p i)

/-- `local_energy_pw_fft`, estimators/pw_fft.py 18-115 with `exchange_greens_function_fft`, ueg_kernels.pyx 77-133 (diagonal one-body part). -/
noncomputable def localPW (fast : Nat → Nat) (I : Inp) {nocc : Fin 2 → Nat}
    (psi : ∀ s, Matrix (Fin (nb I)) (Fin (nocc s)) ℂ) (Gh : ∀ s, Matrix (Fin (nocc s)) (Fin (nb I)) ℂ)
    (G : Fin 2 → Matrix (Fin (nb I)) (Fin (nb I)) ℂ) : ℂ × ℂ × ℂ :=
  let ke := ∑ s, ∑ i, (energy I (pv I i) : ℂ) * G s i i
  let gp := fun s q => ∑ i, lpmq fast I (ctd (psi s) i) (Gh s i) q
  let gk := fun s q => ∑ i, lkpq fast I (ctd (psi s) i) (Gh s i) q
  let gx := fun s q => ∑ i, ∑ j, lpmq fast I (ctd (psi s) j) (Gh s i) q * lkpq fast I (ctd (psi s) i) (Gh s j) q
  let dotv := fun (f : Fin (nq I) → ℂ) => 1 / (2 * (I.vol : ℂ)) * ∑ q, (vq I (qv I q) : ℂ) * f q
  let essa := dotv fun q => gk 0 q * gp 0 q - gx 0 q
  let essb := dotv fun q => gk 1 q * gp 1 q - gx 1 q
  let eos := dotv (fun q => gk 0 q * gp 1 q) + dotv (fun q => gk 1 q * gp 0 q)
  let pe := essa + essb + eos
  (ke + pe, ke, pe)

/-! ## Propagation -/

/-- `vqfactor`, propagation/pw.py 123. -/
noncomputable def vqfactor (dt : ℝ) (I : Inp) (q : Fin (nq I)) : ℝ :=
  Real.sqrt dt * Real.sqrt (1 / (4 * I.vol)) * Real.sqrt (vq I (qv I q))

open Classical in
/-- One order of the expansion for one column of `Vphi_grid`, propagation/pw.py 135-149. -/
noncomputable def applyV (fast : Nat → Nat) (I : Inp) (xp xm : Nat → ℂ) (g : Nat → ℂ) (n : Nat) : Nat → ℂ :=
  let L := mesh I * mesh I * mesh I
  let l1 := convolveValid fast xp g (qmesh I) (mesh I)
  let l2 := flip L (convolveValid fast xp (flip L g) (qmesh I) (mesh I))
  let l3 := convolveValid fast xm g (qmesh I) (mesh I)
  let l4 := flip L (convolveValid fast xm (flip L g) (qmesh I) (mesh I))
  fun p => if p ∈ gmap I then (Complex.I * (l1 p + l2 p) - (l3 p - l4 p)) / (n : ℂ) else 0

/-- The loop over orders for one column, propagation/pw.py 131-153. -/
noncomputable def expV (fast : Nat → Nat) (I : Inp) (nmax : Nat) (xp xm : Nat → ℂ) (v : Fin (nb I) → ℂ) : Fin (nb I) → ℂ :=
  ((List.range nmax).foldl (fun (s : (Nat → ℂ) × (Fin (nb I) → ℂ)) n =>
    let g := applyV fast I xp xm s.1 (n + 1)
    (g, fun a => s.2 a + gather (gmap I) g a)) (scatter (gmap I) v, v)).2

variable {nu nd : Nat}

/-- `apply_two_body_propagator`, propagation/pw.py 76-155, with the fields `xi` and the force bias `fb` before rescaling. -/
noncomputable def twoBody (fast : Nat → Nat) (nmax : Nat) (dt : ℝ) (I : Inp) (xi : Fin (nq I + nq I) → ℝ)
    (fb : Fin (nq I + nq I) → ℂ) (phi : Slater.Wfn (nb I) nu nd) :
    Slater.Wfn (nb I) nu nd × ℂ × ℂ × (Fin (nq I + nq I) → ℂ) :=
  let xbar := fun i => Weights.rescale (fb i)
  let xs := Weights.xshifted xi xbar
  let xp := scatter (qmap I) fun q => xs (Fin.castAdd (nq I) q) * vqfactor dt I q
  let xm := scatter (qmap I) fun q => xs (Fin.natAdd (nq I) q) * vqfactor dt I q
  (fun a i => expV fast I nmax xp xm (fun b => phi b i) a, Weights.cmf dt (fun _ => 0) xi xbar, Weights.cfb xi xbar, xs)

/-- `lQ_i1`, propagation/pw.py 310. -/
noncomputable def lq1 (fast : Nat → Nat) (I : Inp) (ct gh : Fin (nb I) → ℂ) : Fin (nq I) → ℂ :=
  gather (qmap I) (flip (qmesh I * qmesh I * qmesh I) (convolve fast (scatter (gmap I) gh)
    (flip (mesh I * mesh I * mesh I) (scatter (gmap I) ct)) (mesh I)))

/-- `lQ_i2`, propagation/pw.py 312. -/
noncomputable def lq2 (fast : Nat → Nat) (I : Inp) (ct gh : Fin (nb I) → ℂ) : Fin (nq I) → ℂ :=
  gather (qmap I) (flip (qmesh I * qmesh I * qmesh I) (convolve fast (scatter (gmap I) ct)
    (flip (mesh I * mesh I * mesh I) (scatter (gmap I) gh)) (mesh I)))

/-- `construct_force_bias_fft`, propagation/pw.py 273-320. -/
noncomputable def forceBias (fast : Nat → Nat) (dt : ℝ) (I : Inp) (psi : Slater.Wfn (nb I) nu nd)
    (G : Slater.GF (nb I) nu nd) : Fin (nq I + nq I) → ℂ :=
  let s1 := fun q => ∑ i, lq1 fast I (ctd (Slater.up psi) i) (G.gmodUp i) q + ∑ i, lq1 fast I (ctd (Slater.dn psi) i) (G.gmodDn i) q
  let s2 := fun q => ∑ i, lq2 fast I (ctd (Slater.up psi) i) (G.gmodUp i) q + ∑ i, lq2 fast I (ctd (Slater.dn psi) i) (G.gmodDn i) q
  let fac := fun q => ((Real.sqrt (1 / (4 * I.vol)) * Real.sqrt (vq I (qv I q)) : ℝ) : ℂ)
  Fin.addCases (fun q => -(Real.sqrt dt : ℂ) * ((s1 q + s2 q) * Complex.I * fac q))
    (fun q => -(Real.sqrt dt : ℂ) * ((-s1 q + s2 q) * fac q))

/-- `BH1` and `kinetic_real` for a diagonal one-body Hamiltonian, propagation/pw.py 251-268 and propagation/operations.py 45-49. -/
noncomputable def kinetic (dt : ℝ) (I : Inp) (phi : Slater.Wfn (nb I) nu nd) : Slater.Wfn (nb I) nu nd :=
  fun a i => Complex.exp (-(1 / 2) * dt * (modOneBody I a : ℂ)) * phi a i

/-- What `PW` reads and writes of a walker besides what `SingleDetWalker` holds: the stored Green's function. -/
structure Walker (nb nu nd : Nat) where
  w : Slater.Wk nb nu nd
  G : Slater.GF nb nu nd
  hyb : ℂ

/-- `propagate_walker_free`, propagation/pw.py 157-183. -/
noncomputable def free (fast : Nat → Nat) (nmax : Nat) (dt : ℝ) (I : Inp) (psi : Slater.Wfn (nb I) nu nd) (eshift : ℂ)
    (xi : Fin (nq I + nq I) → ℝ) (k : Walker (nb I) nu nd) : Walker (nb I) nu nd :=
  let r := twoBody fast nmax dt I xi (fun _ => 0) (kinetic dt I k.w.phi)
  let w1 := Slater.inverseOverlap psi { k.w with phi := kinetic dt I r.1 }
  let z := Complex.exp (r.2.1 + dt * eshift)
  { k with
    w := { w1 with
           ot := Slater.calcOtrial w1
           weight := k.w.weight * ‖z‖
           phase := k.w.phase * Complex.exp (Complex.I * (Complex.arg z : ℂ)) }
    G := Slater.greensFunction psi w1 }

open Classical in
/-- `apply_bound`, propagation/pw.py 185-192. -/
noncomputable def bound (dt : ℝ) (e : ℂ) (eshift : ℝ) : ℂ :=
  if eshift + Weights.ebound dt < e.re then (eshift + Weights.ebound dt : ℝ) + Complex.I * e.im
  else if e.re < eshift - Weights.ebound dt then (eshift - Weights.ebound dt : ℝ) + Complex.I * e.im
  else e

/-- `propagate_walker_phaseless`, propagation/pw.py 194-249, without the branch for an infinite magnitude. -/
noncomputable def phaseless (fast : Nat → Nat) (nmax : Nat) (dt : ℝ) (I : Inp) (psi : Slater.Wfn (nb I) nu nd) (eshift : ℝ)
    (xi : Fin (nq I + nq I) → ℝ) (k : Walker (nb I) nu nd) : Walker (nb I) nu nd :=
  let r := twoBody fast nmax dt I xi (forceBias fast dt I psi k.G) (kinetic dt I k.w.phi)
  let w1 := Slater.inverseOverlap psi { k.w with phi := kinetic dt I r.1 }
  let otNew := Slater.calcOtrial w1
  let h := bound dt (-(Complex.log (otNew / k.w.ot) + r.2.2.1 + r.2.1) / dt) eshift
  let imp := Complex.exp (-(dt : ℂ) * (1 / 2 * (h + k.hyb) - eshift))
  let cosine := max 0 (Real.cos (-(dt : ℂ) * h - r.2.2.1).im)
  { w := { w1 with ot := otNew, weight := k.w.weight * (‖imp‖ * cosine) }
    G := Slater.greensFunction psi w1
    hyb := h }

end Verif.PWFFT
