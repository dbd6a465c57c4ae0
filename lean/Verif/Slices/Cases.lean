import Verif.Slices.Props

/-!
# Times of input files: C129

Times as they are written in input files; `fl` is what Python reads.
-/

namespace Verif.Slices

open Verif.Stack

/-- **C129** `beta = 0.3`, `dt = 0.1`: the driver runs over three slices, trial and stack have two. -/
theorem three_tenths : driverSlices (fdiv (fl (3 / 10)) (fl (1 / 10))) = 3 ∧ whole (fdiv (fl (3 / 10)) (fl (1 / 10))) = 2 := by
  decide +kernel

/-- **C129** The run with `beta = 0.3`, `dt = 0.1` raises for all stack sizes that divide the slices of the trial, with both updates. -/
theorem three_tenths_raises {m : Type} [Fintype m] [DecidableEq m] {R : Type} [CommRing R] (diag : Bool) (BT BTinv : Matrix m m R) {ss : Nat} (hss : 0 < ss)
    (hd : ss ∣ 2) {s : St m R} (hs : fresh diag BT ss 2 = some s) {l : List (List (Matrix m m R))} (hl : l ≠ []) (hlen : ∀ Bs ∈ l, Bs.length = 3) :
    paths diag BT l s = none ∧ pathsFull diag BT BTinv l s = none := by
  obtain ⟨h3, h2⟩ := three_tenths
  have hq : 0 ≤ fdiv (fl (3 / 10)) (fl (1 / 10)) := by decide +kernel
  have := run_completes diag BT BTinv hq hss (by rw [h2]; exact hd) (s := s) (by rw [h2]; exact hs) hl (by rw [h3]; exact hlen)
  rw [h3, h2] at this
  constructor
  · by_contra h
    exact absurd (this.1.1 h) (by norm_num)
  · by_contra h
    exact absurd (this.2.1 h) (by norm_num)

/-- **C129** `beta = 1`, `dt = 0.1`, `0.05` and `0.01`: runs complete. -/
theorem one_completes : (∀ d ∈ [(10 : Nat), 20, 100], driverSlices (fdiv (fl 1) (fl (1 / d))) = d ∧ whole (fdiv (fl 1) (fl (1 / d))) = d) := by
  decide +kernel

/-- **C129** `beta = 0.3`, `dt = 0.02`: fifteen slices for driver and trial, three stacks of five slices, but two bins: density matrix and
chemical potential of the trial are those of `beta = 0.2`, while the walkers start with fifteen slices. -/
theorem bins_case : driverSlices (fdiv (fl (3 / 10)) (fl (2 / 100))) = 15 ∧ whole (fdiv (fl (3 / 10)) (fl (2 / 100))) = 15 ∧
    bins (fl (3 / 10)) (fl (2 / 100)) 5 = 2 := by
  decide +kernel

/-- **C129** `beta = 0.7`, `dt = 0.02` with one stack: no bin at all. -/
theorem bins_none : whole (fdiv (fl (7 / 10)) (fl (2 / 100))) = 35 ∧ bins (fl (7 / 10)) (fl (2 / 100)) 35 = 0 := by
  decide +kernel

/-- **C129** Windows: `tau_bp = 0.6` with `dt = 0.05` is a window of eleven steps. -/
theorem window_case : whole (fdiv (fl (6 / 10)) (fl (5 / 100))) = 11 := by
  decide +kernel

/-- **C129** Not a whole number of slices: `beta = 1` with `dt = 0.3` is run at `beta = 0.9`, `beta = 0.5` with `dt = 0.3` raises. -/
theorem remainder_case : driverSlices (fdiv (fl 1) (fl (3 / 10))) = 3 ∧ whole (fdiv (fl 1) (fl (3 / 10))) = 3 ∧
    driverSlices (fdiv (fl (5 / 10)) (fl (3 / 10))) = 2 ∧ whole (fdiv (fl (5 / 10)) (fl (3 / 10))) = 1 := by
  decide +kernel

/-- **C129** Reduced units with a Fermi energy of 2: the times are halved, the equilibration of two units of time would be 80 steps of the
converted time step and has 40. -/
theorem reduced_case : ∃ t, times true 2 [("dt", 1 / 20), ("beta", 1)] true = some t ∧ t.dt = 1 / 40 ∧ t.beta = 1 / 2 ∧ t.neqlb = 40 ∧
    whole (2 / t.dt) = 80 ∧ driverSlices (t.beta / t.dt) = 20 ∧ times true 2 [("timestep", 1 / 20), ("beta", 1)] true = none ∧
    ∃ t', times true 2 [("timestep", 1 / 20), ("beta", 1)] false = some t' ∧ t'.dt = 1 / 20 := by
  refine ⟨⟨1 / 20 / 2, 1 / 2, 40⟩, ?_, by norm_num, by norm_num, rfl, ?_, ?_, ?_, ⟨1 / 20, 1, 40⟩, ?_, rfl⟩ <;> decide +kernel

/-- **C129** The hypotheses on numbers that are not rounded are met: `beta = 2`, `dt = 1/16`. -/
theorem representable_case : fl 2 = 2 ∧ fl (1 / 16) = 1 / 16 ∧ driverSlices (fdiv (fl 2) (fl (1 / 16))) = 32 ∧
    whole (fdiv (fl 2) (fl (1 / 16))) = 32 := by
  have h1 : fl 2 = 2 := by decide +kernel
  have h2 : fl (1 / 16) = 1 / 16 := by decide +kernel
  exact ⟨h1, h2, slices_representable (by norm_num) (by norm_num) (by norm_num) (by norm_num) h1 h2⟩

end Verif.Slices
