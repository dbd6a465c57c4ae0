import Verif.Uhf.Findings
import Verif.Uhf.Variational
import Verif.Uhf.Checker

/-!
# The UHF trial: cases that meet the hypotheses (C107)
-/

namespace Verif.Uhf

open Matrix Finset

theorem consistent_self {m : Nat} {deps e : ℝ} (hd : 0 < deps) (n : Dens m) : Consistent deps e e n n := by
  refine ⟨by simpa using hd, ?_, ?_⟩ <;>
  · simp only [sub_self, abs_zero, sum_const_zero, zero_div]
    exact Real.sqrt_pos.2 hd

theorem build_of_converged {m nu nd : Nat} {I : Inp m nu nd} {eig : Eig m} {Rs : List (Random m)} (hd : 0 ≤ I.deps)
    (h : ∃ R ∈ Rs, (attempt I eig R).converged = true) : ∃ o emin etrial, build I eig Rs = some (o, emin, etrial) := by
  obtain ⟨R, hR, hc⟩ := h
  have hsome : (find I eig Rs).isSome = true := by
    rw [find, (Setup.uhfResult_exists I.deps hd I.U I.ueff _).1]
    exact ⟨attempt I eig R, List.mem_map.2 ⟨R, hR, rfl⟩, hc⟩
  obtain ⟨r, hr⟩ := Option.isSome_iff_exists.1 hsome
  exact ⟨_, _, _, by rw [build, hr]; rfl⟩

/-- **C107**: without an effective interaction the search ends, whatever the system and the random numbers: the trial is
then that of free electrons. -/
theorem free_converges {m nu nd : Nat} (I : Inp m nu nd) (eig : Eig m) (hu : I.ueff = 0) (hd : 0 < I.deps) (n : Nat)
    (hn : I.nconv = n + 2) (R : Random m) (Rs : List (Random m)) :
    ∃ o emin etrial, build I eig (R :: Rs) = some (o, emin, etrial) := by
  refine build_of_converged hd.le ⟨R, List.mem_cons_self .., ?_⟩
  have hdiag : ∀ v w : Dens m, diagonalise I eig v = diagonalise I eig w := by
    intro v w
    simp [diagonalise, meanField, hu]
  unfold attempt
  simp only [hn]
  set o := (initialise I eig R).1
  by_cases h : Consistent I.deps (energy I I.ueff (diagonalise I eig (densities o))) (initialise I eig R).2
      (densities (diagonalise I eig (densities o))) (densities o)
  · rw [scf_stop (n + 1) (s := ⟨o, (fun _ => 0, fun _ => 0), densities o⟩) h]
  · rw [scf_go (n + 1) (s := ⟨o, (fun _ => 0, fun _ => 0), densities o⟩) h, scf_stop]
    simp only
    rw [hdiag (mix _ _ _) (densities o)]
    exact consistent_self hd _

/-- Random numbers that start the electrons on different sites. -/
noncomputable def apart : Random 2 := ![diagonal ![0, 1 / 2], diagonal ![1 / 2, 0]]

/-- Two sites without hopping: electrons that start apart stay apart, with any mixing, and the energy is zero. -/
theorem apart_converges {eig : Eig 2} (hE : Eigh eig) (alpha deps : ℝ) (hd : 0 < deps) (n : Nat) :
    ∃ o etrial, build (pair alpha deps (n + 1)) eig [apart] = some (o, 0, etrial) ∧ densities o = ![![1, 0], ![0, 1]] := by
  set I := pair alpha deps (n + 1) with hI
  have hT : ∀ s, (I.T s).IsHermitian := fun s => by rw [hI]; exact isHermitian_zero
  have h0 : symm (apart 0) = diagonal fun a => ((![0, 1 / 2] : Fin 2 → ℝ) a : ℂ) := by
    ext i j
    fin_cases i <;> fin_cases j <;> simp [symm, apart, map_apply] <;> norm_num
  have h1 : symm (apart 1) = diagonal fun a => ((![1 / 2, 0] : Fin 2 → ℝ) a : ℂ) := by
    ext i j
    fin_cases i <;> fin_cases j <;> simp [symm, apart, map_apply] <;> norm_num
  obtain ⟨s0, s1, se⟩ := low_site hE ![0, 1 / 2] 0 1 (by decide) (by simp) h0 (by omega)
  obtain ⟨t1, t0, te⟩ := low_site hE ![1 / 2, 0] 1 0 (by decide) (by simp) h1 (by omega)
  have ds : densities (initialise I eig apart).1 = ![![1, 0], ![0, 1]] := by
    funext s i
    fin_cases s <;> fin_cases i
    · exact s0
    · exact s1
    · exact t0
    · exact t1
  have es : (initialise I eig apart).2 = 0 := by
    show ∑ a : Fin 1, (eig (symm (apart 0))).1 (Fin.castLE I.hu a) + ∑ a : Fin 1, (eig (symm (apart 1))).1 (Fin.castLE I.hd a) = 0
    have c : ∀ h : 1 ≤ 2, Fin.castLE h (default : Fin 1) = (0 : Fin 2) := fun _ => rfl
    simp only [univ_unique, sum_singleton, c, se, te]
    simp
  have hm : ∀ s (v : Fin 2 → ℝ), meanField (I.T s) I.ueff v = diagonal fun a => (v a : ℂ) := by
    intro s v
    rw [meanField, hI]
    simp [pair]
  obtain ⟨a0, a1, -⟩ := low_site hE ![0, 1] 0 1 (by decide) (by simp) (hm 0 ![0, 1]) (by omega)
  obtain ⟨b1, b0, -⟩ := low_site hE ![1, 0] 1 0 (by decide) (by simp) (hm 1 ![1, 0]) (by omega)
  have e1 : densities (diagonalise I eig ![![1, 0], ![0, 1]]) = ![![1, 0], ![0, 1]] := by
    funext s i
    fin_cases s <;> fin_cases i
    · exact a0
    · exact a1
    · exact b0
    · exact b1
  have e2 : energy I I.ueff (diagonalise I eig ![![1, 0], ![0, 1]]) = 0 := by
    rw [energy_eq I _ (diagonalise_orth hE hT _), hf, Fin.sum_univ_two]
    have x1 : density (diagonalise I eig ![![1, 0], ![0, 1]]).up 1 = 0 := a1
    have y0 : density (diagonalise I eig ![![1, 0], ![0, 1]]).dn 0 = 0 := b0
    rw [x1, y0]
    simp [hI, pair, kin]
  have att : (attempt I eig apart).converged = true ∧ (attempt I eig apart).energy = 0 ∧
      densities (attempt I eig apart).psi.trial = ![![1, 0], ![0, 1]] := by
    unfold attempt
    simp only [ds, es]
    rw [show I.nconv = n + 1 from rfl, scf_stop]
    · exact ⟨rfl, e2, e1⟩
    · simp only
      rw [e1, e2]
      exact consistent_self hd _
  obtain ⟨o, emin, etrial, hb⟩ := build_of_converged (I := I) hd.le ⟨apart, List.mem_singleton.2 rfl, att.1⟩
  obtain ⟨R, hR, -, ho, he, -, -⟩ := build_spec (I := I) hd.le hb
  rw [List.mem_singleton.1 hR] at ho he
  rw [att.2.1] at he
  rw [ho] at att
  exact ⟨o, etrial, by rw [hb, ← he], att.2.2⟩

/-- `self_consistent_partial` in this case. -/
example {eig : Eig 2} (hE : Eigh eig) (deps : ℝ) (hd : 0 < deps) : ∃ o : Orbs 2 1 1,
    ∀ A : Matrix (Fin 2) (Fin 1) ℂ, Aᴴ * A = 1 → 0 - |1| * ((2 : Nat) * Real.sqrt deps) ≤ hf (pair 0 deps 1).T 1 ⟨A, o.dn⟩ := by
  obtain ⟨o, e, hb, -⟩ := apart_converges hE 0 deps hd 0
  exact ⟨o, (self_consistent_partial hE (fun s => isHermitian_zero) hd.le rfl (by omega) hb).2.1⟩

/-- The guess on four sites. -/
example : checkerboard 4 2 2 = some [(0, 0, 1), (1, 2, -1), (2, 1, 1), (3, 3, -1)] := by decide

end Verif.Uhf
