import Verif.TrialRho.Props

/-!
# The mean-field trial density matrix
-/

namespace Verif.TrialRho

open Matrix Finset Verif.Grand Verif.ChemPot
open Verif.Thermal (Mat oneRdmStable oneRdmStable_eq IsQRP)
open Verif.Step (Sym spin hubOp hubOp_sym hubOp_herm)

variable {m : Nat}

/-- What the constructor needs: a Fock matrix that is Hermitian for Hermitian density matrices. -/
structure MInp.Ok (I : MInp m) : Prop extends toInp : I.toInp.Ok where
  fock : ∀ P : Fin 2 → Mat m, (∀ s, (P s).IsHermitian) → ∀ s, (I.fock P s).IsHermitian

theorem rdmMu_eq {I : Inp m} (ok : I.Ok) {o : Out m} (h : OneBody I o) (mu : ℝ) {K : Fin 2 → Mat m} (hK : ∀ s, (K s).IsHermitian) :
    rdmMu I (o.stackSize * I.dt) o.numBins mu K = rdm0 I.betaEff mu K := by
  have hs := build_sizes ok h
  funext s
  rw [rdmMu]
  have := rdm_stable ok.qrp (o.stackSize * I.dt) mu hK hs.2.2.1 s
  rw [hs.2.2.2.2.2, expo] at this
  rw [← this]

  try rfl

theorem rdmOld_eq {I : Inp m} (ok : I.Ok) {o : Out m} (h : OneBody I o) (mu sign : ℝ) {K : Fin 2 → Mat m} (hK : ∀ s, (K s).IsHermitian)
    (s : Fin 2) : oneRdmStable I.qrp (computeRho (expH (o.stackSize * I.dt) K s) mu (o.stackSize * I.dt) sign) o.numBins =
      rdm0 I.betaEff (sign * mu) K s := by
  have hs := build_sizes ok h
  rw [computeRho_expH, rdm_stable ok.qrp _ _ hK hs.2.2.1, hs.2.2.2.2.2]

/-! ## The inner loop -/

/-- The density matrices of the inner loop, in terms of the ensembles: each is mixed from the density matrix of the ensemble of the Fock
Hamiltonian of the last one and the last one. -/
noncomputable def scfIter (I : MInp m) (β mu : ℝ) (P : Fin 2 → Mat m) : Nat → Fin 2 → Mat m
  | 0 => rdm0 β mu (I.fock P)
  | k + 1 => fun s => ((1 - I.alpha : ℝ) : ℂ) • rdm0 β mu (I.fock (scfIter I β mu P k)) s + (I.alpha : ℂ) • scfIter I β mu P k s

/-- How far a density matrix is from the one of the ensemble of its Fock Hamiltonian. -/
noncomputable def residual (I : MInp m) (β mu : ℝ) (P : Fin 2 → Mat m) : ℝ := normF fun s => rdm0 β mu (I.fock P) s - P s

theorem mix_herm {A B : Mat m} (hA : A.IsHermitian) (hB : B.IsHermitian) (a b : ℝ) : ((a : ℂ) • A + (b : ℂ) • B).IsHermitian :=
  (herm_smul hA a).add (herm_smul hB b)

theorem scfIter_herm {I : MInp m} (ok : I.Ok) (β mu : ℝ) {P : Fin 2 → Mat m} (hP : ∀ s, (P s).IsHermitian) :
    ∀ k s, (scfIter I β mu P k s).IsHermitian
  | 0, s => rdm0_herm β mu (ok.fock P hP) s
  | k + 1, s => mix_herm (rdm0_herm β mu (ok.fock _ fun s => scfIter_herm ok β mu hP k s) s) (scfIter_herm ok β mu hP k s) _ _

theorem normF_smul {κ : Type} [Fintype κ] (c : ℂ) (A : κ → Mat m) : normF (fun k => c • A k) = ‖c‖ * normF A := by
  rw [normF, normF, ← Real.sqrt_sq (norm_nonneg c), ← Real.sqrt_mul (sq_nonneg _), mul_sum]
  congr 1
  refine sum_congr rfl fun k _ => ?_
  rw [mul_sum]
  refine sum_congr rfl fun i _ => ?_
  rw [mul_sum]
  refine sum_congr rfl fun j _ => ?_
  rw [Matrix.smul_apply, smul_eq_mul, norm_mul, mul_pow]

theorem change_eq (I : MInp m) (β mu : ℝ) (P : Fin 2 → Mat m) :
    normF (fun s => ((1 - I.alpha : ℝ) : ℂ) • rdm0 β mu (I.fock P) s + (I.alpha : ℂ) • P s - P s) = |1 - I.alpha| * residual I β mu P := by
  rw [residual, ← Real.norm_eq_abs, ← Complex.norm_real, ← normF_smul]
  congr 1
  funext s
  push_cast
  module

theorem scfLoop_eq {I : MInp m} (ok : I.Ok) {o : Out m} (h : OneBody I.toInp o) (mu : ℝ) {P : Fin 2 → Mat m} (hP : ∀ s, (P s).IsHermitian) :
    ∀ (n k : Nat) (H0 : Fin 2 → Mat m), 0 < n → ∃ j < n,
      scfLoop I (o.stackSize * I.dt) o.numBins mu n H0 (scfIter I I.betaEff mu P k) = I.fock (scfIter I I.betaEff mu P (k + j)) ∧
      (∀ i < j, I.deps ≤ |1 - I.alpha| * residual I I.betaEff mu (scfIter I I.betaEff mu P (k + i))) ∧
      (|1 - I.alpha| * residual I I.betaEff mu (scfIter I I.betaEff mu P (k + j)) < I.deps ∨ j + 1 = n)
  | 0, _, _, h0 => absurd h0 (lt_irrefl _)
  | n + 1, k, H0, _ => by
    classical
    have hh := ok.fock _ fun s => scfIter_herm ok I.betaEff mu hP k s
    have hm : mixed I (o.stackSize * I.dt) o.numBins mu (scfIter I I.betaEff mu P k) = scfIter I I.betaEff mu P (k + 1) := by
      funext s
      rw [mixed, rdmMu_eq ok.toInp h mu hh, scfIter]
    have hc : normF (fun s => scfIter I I.betaEff mu P (k + 1) s - scfIter I I.betaEff mu P k s) =
        |1 - I.alpha| * residual I I.betaEff mu (scfIter I I.betaEff mu P k) := change_eq I I.betaEff mu _
    rw [scfLoop]
    simp only [hm, hc]
    by_cases hlt : |1 - I.alpha| * residual I I.betaEff mu (scfIter I I.betaEff mu P k) < I.deps
    · rw [if_pos hlt]
      exact ⟨0, by omega, rfl, by simp, Or.inl hlt⟩
    · rw [if_neg hlt]
      rcases Nat.eq_zero_or_pos n with rfl | hn
      · exact ⟨0, by omega, rfl, by simp, Or.inr rfl⟩
      · obtain ⟨j, h1, h2, h3, h4⟩ := scfLoop_eq ok h mu hP n (k + 1) (I.fock (scfIter I I.betaEff mu P k)) hn
        refine ⟨j + 1, by omega, ?_, ?_, ?_⟩
        · rw [h2, show k + 1 + j = k + (j + 1) by omega]
        · intro i hi
          rcases Nat.eq_zero_or_pos i with rfl | hi0
          · exact not_lt.1 hlt
          · have := h3 (i - 1) (by omega)
            rwa [show k + 1 + (i - 1) = k + i by omega] at this
        · rcases h4 with h4 | h4
          · exact Or.inl (by rwa [show k + 1 + j = k + (j + 1) by omega] at h4)
          · exact Or.inr (by omega)

/-- **C103 (inner loop)**: the Hamiltonian returned is the Fock matrix of an iterate, the first whose distance from the density matrix of its
own Fock Hamiltonian is below the threshold over `|1 - alpha|`, or the last one allowed. -/
theorem scf_stops {I : MInp m} (ok : I.Ok) {o : Out m} (h : OneBody I.toInp o) (mu : ℝ) {P : Fin 2 → Mat m} (hP : ∀ s, (P s).IsHermitian)
    (hn : 0 < I.maxScf) : ∃ j < I.maxScf,
      scf I (o.stackSize * I.dt) o.numBins mu P = I.fock (scfIter I I.betaEff mu P j) ∧
      (∀ i < j, I.deps ≤ |1 - I.alpha| * residual I I.betaEff mu (scfIter I I.betaEff mu P i)) ∧
      (|1 - I.alpha| * residual I I.betaEff mu (scfIter I I.betaEff mu P j) < I.deps ∨ j + 1 = I.maxScf) := by
  have := scfLoop_eq ok h mu hP I.maxScf 0 (I.fock P) hn
  simp only [zero_add] at this
  obtain ⟨j, h1, h2, h3⟩ := this
  refine ⟨j, h1, ?_, h3⟩
  rw [← h2, scf, scfIter]
  rw [rdmMu_eq ok.toInp h mu (ok.fock P hP)]

theorem scf_herm {I : MInp m} (ok : I.Ok) {o : Out m} (h : OneBody I.toInp o) (mu : ℝ) {P : Fin 2 → Mat m} (hP : ∀ s, (P s).IsHermitian)
    (s : Fin 2) : (scf I (o.stackSize * I.dt) o.numBins mu P s).IsHermitian := by
  rcases Nat.eq_zero_or_pos I.maxScf with h0 | h0
  · rw [scf, h0]
    exact ok.fock P hP s
  · obtain ⟨j, -, h2, -⟩ := scf_stops ok h mu hP h0
    rw [h2]
    exact ok.fock _ (fun s => scfIter_herm ok _ mu hP j s) s

/-! ## The outer loop -/

/-- The chemical potentials and density matrices of the outer loop, up to iteration `j`, the last one. -/
structure Trace (I : MInp m) (o : Out m) (k : Nat) (mu0 : ℝ) (P0 : Fin 2 → Mat m) (r : MOut m) (j : Nat) (mus : Nat → ℝ)
    (Ps : Nat → Fin 2 → Mat m) : Prop where
  mu0 : mus 0 = mu0
  P0 : Ps 0 = P0
  lt : j < k
  herm : ∀ i ≤ j + 1, ∀ s, (Ps i s).IsHermitian
  HMF : r.HMF = scf I (o.stackSize * I.dt) o.numBins (mus j) (Ps j)
  P : ∀ i ≤ j, Ps (i + 1) = rdm0 I.betaEff (mus i) (scf I (o.stackSize * I.dt) o.numBins (mus i) (Ps i))
  mu : ∀ i ≤ j, newMu I o (expH (o.stackSize * I.dt) (scf I (o.stackSize * I.dt) o.numBins (mus i) (Ps i))) (mus (i + 1))
  outP : r.P = Ps (j + 1)
  outMu : r.mu = mus (j + 1)
  go : ∀ i < j, I.deps ≤ |mus (i + 1) - mus i|
  stop : |mus (j + 1) - mus j| < I.deps ∨ j + 1 = k

/-- A sequence with one more term in front. -/
def cons {α : Type} (a : α) (f : Nat → α) : Nat → α
  | 0 => a
  | i + 1 => f i

theorem macro_trace {I : MInp m} (ok : I.Ok) {o : Out m} (h : OneBody I.toInp o) {k : Nat} {mu0 : ℝ} {P0 : Fin 2 → Mat m} {r : MOut m}
    (hr : Macro I o k mu0 P0 r) : (∀ s, (P0 s).IsHermitian) → ∃ j mus Ps, Trace I o k mu0 P0 r j mus Ps := by
  induction hr with
  | last k muOld mu P HMF hF hm hs =>
    intro hP
    have hH : ∀ s, (HMF s).IsHermitian := fun s => by rw [hF]; exact scf_herm ok h muOld hP s
    have hPn : (fun s => oneRdmStable I.qrp (computeRho (expH (o.stackSize * I.dt) HMF s) muOld (o.stackSize * I.dt) 1) o.numBins) =
        rdm0 I.betaEff muOld HMF := by
      funext s
      rw [rdmOld_eq ok.toInp h muOld 1 hH, one_mul]
    refine ⟨0, fun i => if i = 0 then muOld else mu, fun i => if i = 0 then P else rdm0 I.betaEff muOld HMF, ?_⟩
    refine ⟨rfl, rfl, by omega, ?_, hF, ?_, ?_, hPn, rfl, by simp, ?_⟩
    · intro i hi s
      rcases Nat.eq_zero_or_pos i with rfl | hi
      · exact hP s
      · rw [if_neg (by omega)]
        exact rdm0_herm _ _ hH s
    · intro i hi
      obtain rfl : i = 0 := by omega
      simp [← hF]
    · intro i hi
      obtain rfl : i = 0 := by omega
      simp only [if_true, ← hF]
      exact hm
    · rcases hs with hs | rfl
      · exact Or.inl (by simpa using hs)
      · exact Or.inr rfl
  | more k muOld mu P HMF r hF hm hs hr ih =>
    intro hP
    have hH : ∀ s, (HMF s).IsHermitian := fun s => by rw [hF]; exact scf_herm ok h muOld hP s
    have hPn : (fun s => oneRdmStable I.qrp (computeRho (expH (o.stackSize * I.dt) HMF s) muOld (o.stackSize * I.dt) 1) o.numBins) =
        rdm0 I.betaEff muOld HMF := by
      funext s
      rw [rdmOld_eq ok.toInp h muOld 1 hH, one_mul]
    rw [hPn] at ih hr
    obtain ⟨j, mus, Ps, t⟩ := ih (rdm0_herm _ _ hH)
    refine ⟨j + 1, cons muOld mus, cons P Ps, ?_⟩
    refine ⟨rfl, rfl, by have := t.lt; omega, ?_, t.HMF, ?_, ?_, t.outP, t.outMu, ?_, ?_⟩
    · rintro (_ | i) hi s
      · exact hP s
      · exact t.herm i (by omega) s
    · rintro (_ | i) hi
      · simp only [cons, zero_add, t.P0, ← hF]
      · exact t.P i (by omega)
    · rintro (_ | i) hi
      · simp only [cons, zero_add, t.mu0, ← hF]
        exact hm
      · exact t.mu i (by omega)
    · rintro (_ | i) hi
      · simp only [cons, zero_add, t.mu0]
        exact not_lt.1 hs
      · exact t.go i (by omega)
    · rcases t.stop with hs | hs
      · exact Or.inl hs
      · exact Or.inr (by omega)

end Verif.TrialRho
