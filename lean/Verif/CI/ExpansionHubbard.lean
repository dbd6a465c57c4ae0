import Verif.CI.ExpansionProps

/-!
# Full CI trial states for the Hubbard model (C86)

`simple_fci` reads `hijkl` of the Hubbard system, while the local energy and the propagator use double occupancies.
-/

namespace Verif.CI.Bridge

open Finset Matrix
open Verif.Step (slater hamOp hubOp spin Anti Sym prodState orbs Gen Hub onP onP_pair root site)
open Verif.MultiDet (bra Trial)

variable {nb nu nd n : Nat}

/-- The Hubbard system as `ci.py` sees it: `H1[0]` (systems/hubbard.py 89), `ecore` (95) and `hijkl` (157-162). -/
noncomputable def hubSys (h : Hub nb) (nu nd : Nat) : System ℂ :=
  ⟨nb, nu, nd, 0, ext (h.h1 0), fun p q r s => if p = q ∧ q = r ∧ r = s then (h.U : ℂ) else 0⟩

/-- The matrix that `simple_fci` diagonalises. -/
noncomputable def hubMat (h : Hub nb) (nu nd : Nat) :
    Matrix (Fin (fciOccs (hubSys h nu nd)).length) (Fin (fciOccs (hubSys h nu nd)).length) ℂ :=
  Matrix.of fun i j => fciMatrix (hubSys h nu nd) (fciDets (hubSys h nu nd)) i j

/-- Real symmetric hopping, the same for both spins. -/
structure RealHub (h : Hub nb) : Prop where
  spin : h.h1 1 = h.h1 0
  symm : (h.h1 0)ᵀ = h.h1 0
  herm : (h.h1 0)ᴴ = h.h1 0

/-! ## As factorised integrals -/

/-- Integrals with `root U` times the occupation of each site as factors. -/
noncomputable def hubGen (h : Hub nb) : Gen nb nb := ⟨h.h1, fun i => root h.U • site i, 0⟩

theorem ext_site (U : ℂ) (i : Fin nb) (p q : Nat) : ext (U • site i) p q = if p = i ∧ q = i then U else 0 := by
  unfold ext
  by_cases h : p < nb ∧ q < nb
  · rw [dif_pos h, Matrix.smul_apply, site, Matrix.single_apply]
    have : (i = ⟨p, h.1⟩ ∧ i = ⟨q, h.2⟩) ↔ (p = i ∧ q = i) := by
      simp only [Fin.ext_iff]
      exact ⟨fun ⟨a, b⟩ => ⟨a.symm, b.symm⟩, fun ⟨a, b⟩ => ⟨a.symm, b.symm⟩⟩
    by_cases h2 : p = i ∧ q = i
    · rw [if_pos h2, if_pos (this.2 h2), smul_eq_mul, mul_one]
    · rw [if_neg h2, if_neg fun hc => h2 (this.1 hc), smul_zero]
  · rw [dif_neg h, if_neg]
    rintro ⟨rfl, rfl⟩
    exact h ⟨i.2, i.2⟩

theorem eri_hub (h : Hub nb) (p q r s : Nat) : eri (hubGen h).chol p q r s =
    if (p = q ∧ q = r ∧ r = s) ∧ p < nb then (h.U : ℂ) else 0 := by
  unfold eri hubGen
  simp only [ext_site]
  by_cases hc : (p = q ∧ q = r ∧ r = s) ∧ p < nb
  · obtain ⟨⟨rfl, rfl, rfl⟩, hp⟩ := hc
    rw [if_pos ⟨⟨rfl, rfl, rfl⟩, hp⟩, Finset.sum_eq_single ⟨p, hp⟩]
    · simp only [and_self, if_true]
      exact Step.root_sq h.U
    · intro x _ hx
      rw [if_neg, zero_mul]
      rintro ⟨h1, -⟩
      exact hx (Fin.ext h1.symm)
    · intro h; exact absurd (mem_univ _) h
  · rw [if_neg hc]
    refine sum_eq_zero fun x _ => ?_
    by_cases h1 : p = x ∧ r = x
    · by_cases h2 : q = x ∧ s = x
      · exact absurd ⟨⟨h1.1.trans h2.1.symm, h2.1.trans h1.2.symm, h1.2.trans h2.2.symm⟩, h1.1 ▸ x.2⟩ hc
      · rw [if_neg h2, mul_zero]
    · rw [if_neg h1, zero_mul]

theorem hubGen_real {h : Hub nb} (hh : RealHub h) : RealSymm (hubGen h) where
  spin := hh.spin
  h1 := hh.symm
  chol x := by
    show (root h.U • site x)ᵀ = root h.U • site x
    rw [Matrix.transpose_smul, site, Matrix.transpose_single]
  rh1 := hh.herm
  reri p q r s := by
    rw [eri_hub]
    split_ifs
    · exact Complex.conj_ofReal _
    · exact star_zero _
  recore := star_zero _

theorem sum_pairs {ι : Type} [Fintype ι] [DecidableEq ι] {σ : ι → Fin 2} {α : (ι → Fin nb) → ℂ} (hα : Anti σ α) (c : Fin nb) :
    ∑ a, ∑ b ∈ univ.erase a, α ᵥ* (onP a (site c) * onP b (site c)) =
      (2 : ℂ) • ∑ a, ∑ b, α ᵥ* (if σ a = 0 ∧ σ b = 1 then onP a (site c) * onP b (site c) else 0) := by
  have hs : ∀ s : Fin 2, s ≠ 0 ↔ s = 1 := by decide
  have e4 : ∀ a b : ι, b ≠ a → α ᵥ* (onP a (site c) * onP b (site c)) =
      α ᵥ* (if σ a = 0 ∧ σ b = 1 then onP a (site c) * onP b (site c) else 0) +
        α ᵥ* (if σ b = 0 ∧ σ a = 1 then onP b (site c) * onP a (site c) else 0) := by
    intro a b hab
    by_cases ha : σ a = 0
    · by_cases hb : σ b = 0
      · rw [hα.pair hab.symm (ha.trans hb.symm)]
        simp [ha, hb]
      · have hb' := (hs _).1 hb
        simp [ha, hb']
    · have ha' := (hs _).1 ha
      by_cases hb : σ b = 0
      · have hcomm : onP a (site c) * onP b (site c) = onP b (site c) * onP a (site c : Matrix (Fin nb) (Fin nb) ℂ) := by
          ext f g
          rw [onP_pair hab, onP_pair hab.symm, erase_right_comm]
          ring
        simp [ha', hb, hcomm]
      · have hb' := (hs _).1 hb
        rw [hα.pair hab.symm (ha'.trans hb'.symm)]
        simp [ha', hb']
  have e5 : ∀ a : ι, ∑ b ∈ univ.erase a, α ᵥ* (onP a (site c) * onP b (site c)) =
      ∑ b, (α ᵥ* (if σ a = 0 ∧ σ b = 1 then onP a (site c) * onP b (site c) else 0) +
        α ᵥ* (if σ b = 0 ∧ σ a = 1 then onP b (site c) * onP a (site c) else 0)) := by
    intro a
    rw [← add_sum_erase univ (fun b => (α ᵥ* (if σ a = 0 ∧ σ b = 1 then onP a (site c) * onP b (site c) else 0) +
        α ᵥ* (if σ b = 0 ∧ σ a = 1 then onP b (site c) * onP a (site c) else 0))) (mem_univ a)]
    have hn : ¬(σ a = 0 ∧ σ a = 1) := by rintro ⟨h1, h2⟩; rw [h1] at h2; exact absurd h2 (by decide)
    rw [if_neg hn, Matrix.vecMul_zero, add_zero, zero_add]
    exact sum_congr rfl fun b hb => e4 a b (ne_of_mem_erase hb)
  simp only [e5, sum_add_distrib]
  rw [sum_comm (f := fun a b => α ᵥ* (if σ b = 0 ∧ σ a = 1 then onP b (site c) * onP a (site c) else 0)), two_smul]

/-- On electrons double occupancies are the interaction with `hijkl`. -/
theorem hub_ham (h : Hub nb) {α : (Fin nu ⊕ Fin nd → Fin nb) → ℂ} (hα : Anti spin α) :
    α ᵥ* hubOp h.h1 h.U spin = α ᵥ* hamOp (hubGen h).h1 (hubGen h).chol (hubGen h).ecore spin := by
  have e : ∀ (c : Fin nb) (a b : Fin nu ⊕ Fin nd), onP a ((hubGen h).chol c) * onP b ((hubGen h).chol c) =
      (h.U : ℂ) • (onP a (site c) * onP b (site c)) := by
    intro c a b
    show onP a (root h.U • site c) * onP b (root h.U • site c) = _
    rw [Step.onP_smul, Step.onP_smul, smul_mul_smul_comm, Step.root_sq]
  unfold hubOp hamOp
  simp only [e, Matrix.vecMul_add, Matrix.vecMul_smul, Matrix.vecMul_sum, ← smul_sum]
  have e2 : ∑ c, ∑ a, ∑ b ∈ univ.erase a, α ᵥ* (onP a (site c) * onP b (site c)) = (2 : ℂ) • ∑ c, ∑ a, ∑ b,
      α ᵥ* (if spin a = 0 ∧ spin b = 1 then onP a (site c) * onP b (site c) else 0) := by
    rw [smul_sum]
    exact sum_congr rfl fun c _ => sum_pairs hα c
  rw [e2, show (hubGen h).ecore = 0 from rfl, zero_smul, zero_add, smul_smul, smul_smul]
  congr 2
  ring

theorem ham_congr {m : Nat} {e : ℂ} {h : Nat → Nat → ℂ} {V W : Nat → Nat → Nat → Nat → ℂ}
    (hVW : ∀ p q r s, p < m → V p q r s = W p q r s) (T S : Finset Nat) : ham m e h V T S = ham m e h W T S := by
  unfold ham twoBody
  congr 2
  refine sum_congr rfl fun r _ => sum_congr rfl fun s _ => sum_congr rfl fun p hp => sum_congr rfl fun q _ => ?_
  have : v2 m V p q r s = v2 m W p q r s := by
    unfold v2
    have hp' : sp m p < m := by
      have := mem_range.1 hp
      unfold sp
      split_ifs <;> omega
    rw [hVW _ _ _ _ hp']
  rw [this]

theorem hubSys_hmatel (h : Hub nb) {o o' : List Nat × List Nat} (ho : Sorted nb nu nd o) (ho' : Sorted nb nu nd o') :
    (getHmatel (hubSys h nu nd) (CI.spinOccs nb o) (CI.spinOccs nb o')).1 =
      (getHmatel (sysOf (hubGen h) nu nd) (CI.spinOccs nb o) (CI.spinOccs nb o')).1 := by
  have e1 : Exchange (hubSys h nu nd).hijkl := by
    intro p q r s
    refine if_congr ?_ rfl rfl
    constructor <;> (intro ⟨h1, h2, h3⟩; subst h1; subst h2; subst h3; exact ⟨rfl, rfl, rfl⟩)
  rw [(hmatel_parts (hubSys h nu nd) e1 ho.isDet ho'.isDet (ho.spins ho') ho.length).1,
    (hmatel_parts (sysOf (hubGen h) nu nd) (eri_exchange _) ho.isDet ho'.isDet (ho.spins ho') ho.length).1]
  refine ham_congr (fun p q r s hp => ?_) _ _
  have hp : p < nb := hp
  show (if _ then _ else _) = eri (hubGen h).chol p q r s
  rw [eri_hub]
  exact if_congr ⟨fun hc => ⟨hc, hp⟩, fun hc => hc.1⟩ rfl rfl

theorem hubMat_eq (h : Hub nb) : hubMat h nu nd = fciMat (hubGen h) nu nd := by
  ext i j
  have hS := (fci_complete (nu := nu) (nd := nd) (hubGen h) 0).sorted
  have hd : ∀ k : Fin (fciOccs (sysOf (hubGen h) nu nd)).length, (fciDets (sysOf (hubGen h) nu nd)).getD k [] =
      CI.spinOccs nb ((fciExpansion (sysOf (hubGen h) nu nd) 0).occs k) := by
    intro k
    rw [(hS k).spinOccs, fciDets_eq, List.getD_eq_getElem?_getD, List.getElem?_map, List.getElem?_eq_getElem k.2]
    rfl
  have e : fciDets (hubSys h nu nd) = fciDets (sysOf (hubGen h) nu nd) := rfl
  show fciMatrix (hubSys h nu nd) _ (i : Nat) (j : Nat) = fciMatrix (sysOf (hubGen h) nu nd) _ (i : Nat) (j : Nat)
  unfold fciMatrix
  rw [e, hd i, hd j]
  split_ifs
  · exact hubSys_hmatel h (hS i) (hS j)
  · exact hubSys_hmatel h (hS j) (hS i)

/-! ## Theorems -/

/-- **C86 (Hubbard)**: with an eigenvector of the matrix of `simple_fci` as trial state, the local energy of every walker
that no determinant is orthogonal to is the eigenvalue. -/
theorem hub_zero_variance {h : Hub nb} (hh : RealHub h) {c : Fin (fciOccs (hubSys h nu nd)).length → ℂ} {E : ℝ}
    (hc : hubMat h nu nd *ᵥ c = (E : ℂ) • c) (w : MultiDet.Wk (fciOccs (hubSys h nu nd)).length nb nu nd)
    (hp : ∀ i, MultiDet.Pass (((fciExpansion (hubSys h nu nd) c).trial nb nu nd).psi i) w.phi)
    (h0 : bra ((fciExpansion (hubSys h nu nd) c).trial nb nu nd) ⬝ᵥ MultiDet.ket w ≠ 0) :
    MultiDet.localEnergy ((fciExpansion (hubSys h nu nd) c).trial nb nu nd)
      (fun G => (Energy.localHubbard h.h1 h.U h.symmetric G).1)
      (MultiDet.greensFunction ((fciExpansion (hubSys h nu nd) c).trial nb nu nd) w).1 = E := by
  refine MultiDet.zero_variance rfl (MultiDet.local_hubbard h) ?_ w hp h0
  rw [hub_ham h (MultiDet.bra_anti _)]
  rw [hubMat_eq] at hc
  exact fci_eigenstate (hubGen_real hh) hc

/-- **C86 (Hubbard)**: the energy that free projection with charge fields converges to is an eigenvalue of the matrix of
`simple_fci`, whatever the trial state. -/
theorem hub_projects {h : Hub nb} (hh : RealHub h) (mf : Fin nb → ℂ) (qr : Slater.QR nb) (hqr : Slater.QRSpec qr)
    (T : Trial n nb nu nd) (e : ℂ) (w : MultiDet.Wk n nb nu nd) (hw : (w.weight : ℂ) * w.phase ≠ 0)
    (hot : w.ot = bra T ⬝ᵥ MultiDet.ket w) (hO : bra T ⬝ᵥ MultiDet.ket w ≠ 0) (hu : Slater.FullRank (Slater.up w.phi))
    (hd : Slater.FullRank (Slater.dn w.phi)) : ∃ E0 : ℝ,
      (∃ v, v ≠ 0 ∧ hubMat h nu nd *ᵥ v = (E0 : ℂ) • v) ∧
      MultiDet.ProjectsRun (fun dt xi v => MultiDet.propagateFree 6 dt (h.charge dt mf) T e xi v)
        (MultiDet.orthogonalise qr true) T (hubOp h.h1 h.U spin) w E0 := by
  have hherm : ∀ s, (h.h1 s)ᴴ = h.h1 s := by
    intro s
    fin_cases s
    · exact hh.herm
    · show (h.h1 1)ᴴ = h.h1 1
      rw [hh.spin]; exact hh.herm
  obtain ⟨E0, ⟨S, u, hev, -, -, hS, h0⟩, hP⟩ := MultiDet.charge_projects h hherm mf qr hqr T e w hw hot hO hu hd
  have hg := hubGen_real hh
  have key : ∃ v : Fin (fciOccs (sysOf (hubGen h) nu nd)).length → ℂ, v ≠ 0 ∧
      fciMat (hubGen h) nu nd *ᵥ v = (E0 : ℂ) • v := by
    refine ⟨fun i => slater (((fciExpansion (sysOf (hubGen h) nu nd) 0).trial nb nu nd).psi i) ⬝ᵥ u E0, ?_, ?_⟩
    · intro hz
      apply h0
      rw [complete_expand (fci_complete (nu := nu) (nd := nd) (hubGen h) 0) (MultiDet.bra_anti T), sum_dotProduct]
      refine sum_eq_zero fun i _ => ?_
      rw [smul_dotProduct, show slater _ ⬝ᵥ u E0 = _ from congrFun hz i]
      simp
    · funext i
      have h1 := complete_row hg.chol (fci_complete (nu := nu) (nd := nd) (hubGen h) 0)
        (((fciExpansion (sysOf (hubGen h) nu nd) 0).trial nb nu nd).psi i)
      rw [← hub_ham h (Step.slater_anti _)] at h1
      have h2 := congrArg (fun v => v ⬝ᵥ u E0) h1
      rw [← Matrix.dotProduct_mulVec, hev E0 hS, dotProduct_smul, sum_dotProduct] at h2
      rw [Pi.smul_apply, h2, Matrix.mulVec, dotProduct]
      refine sum_congr rfl fun j _ => ?_
      rw [fciMat_elem hg 0, smul_dotProduct, smul_eq_mul]
  exact ⟨E0, by rw [hubMat_eq]; exact key, hP⟩

end Verif.CI.Bridge
