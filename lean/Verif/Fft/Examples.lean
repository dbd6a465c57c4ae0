import Verif.Fft.Findings

/-!
# Cases for C108
-/

namespace Verif.Fft

open Matrix

/-- A lattice of three by three sites with two electrons of each spin: the momentum-space step agrees. -/
example (phi : Slater.Wfn (3 * 3) 2 2) : kspace 3 3 (.vec (btk (1 / 100) 1 3 3)) phi =
    kineticCall false (1 / 100) (fun _ => Lattice.kinetic 1 3 3 none true true) phi := kspace_square 3 (by norm_num) _ _ phi

/-- A step that changes something: the transform is not the identity. -/
example : column 2 2 (fun p => if p = 0 then 2 else 0) (fun _ => 1) = fun _ => 2 := by
  funext j
  simp only [column, ifft, fft, ite_mul, zero_mul, one_mul, Finset.sum_ite_eq', Finset.mem_univ, if_true]
  simp [Fin.sum_univ_four]
  norm_num

/-- Two by three sites. -/
example : ∃ phi : Slater.Wfn (2 * 3) 1 1, kspace 2 3 (.vec (btk (1 / 100) 1 2 3)) phi ≠
    kineticCall false (1 / 100) (fun _ => hop 1 2 3 none true true) phi :=
  kspace_rect_wrong _ _ (by norm_num) (by norm_num) (by norm_num) (by norm_num) (by norm_num) (by norm_num)

/-- An open boundary. -/
example : ∃ phi : Slater.Wfn (3 * 3) 1 1, kspace 3 3 (.vec (btk (1 / 100) 1 3 3)) phi ≠
    kineticCall false (1 / 100) (fun _ => Lattice.kinetic 1 3 3 none false true) phi :=
  kspace_twist_wrong 3 (by norm_num) _ _ (by norm_num) (by norm_num) _ _ _ (Or.inl (by simp [Lattice.bphase])) (by norm_num)

/-- A twist of half a turn in the second direction. -/
example : ∃ phi : Slater.Wfn (3 * 3) 1 1, kspace 3 3 (.vec (btk (1 / 100) 1 3 3)) phi ≠
    kineticCall false (1 / 100) (fun _ => Lattice.kinetic 1 3 3 (some [0, 1]) true true) phi := by
  refine kspace_twist_wrong 3 (by norm_num) _ _ (by norm_num) (by norm_num) _ _ _ (Or.inr ?_) (by norm_num)
  have : Lattice.bphase (some [0, 1]) 1 true = -1 := by
    simp [Lattice.bphase, Lattice.phase, mul_comm Complex.I]
  rw [this]
  norm_num

/-- Four sites with any electrons: the option raises an exception. -/
example (phi : Slater.Wfn (2 * 2) 2 1) : kineticCall true (1 / 100) (fun _ => Lattice.kinetic 1 2 2 none true true) phi = none :=
  ffts_raises _ _ _ (by norm_num)

/-- Six sites in a row. -/
example (v : Fin (6 * 1) → ℂ) : column 6 1 (btk (1 / 100) 1 6 1) v = NormedSpace.exp ((-(1 / 2) * (1 / 100 : ℝ) : ℂ) • chain 1 6) *ᵥ v :=
  column_chain _ _ (by norm_num) v

end Verif.Fft
