# Formal model of pauxy: design

The model is written in Lean 4.  Each property `Cnn` of `properties.jsonl` is
a theorem (or a group of theorems) about a model of the code in `/repo`.  The
code itself was read as text, never run.

## Layout

* `lean/Verif/<Topic>/Model.lean` (or a file named after the topic): model of
  the code.  Every definition cites the file and lines in `/repo` and says where
  it simplifies.
* `lean/Verif/<Topic>/Lemmas.lean`: helper lemmas (optional).
* `lean/Verif/<Topic>/Props.lean`: the property theorems, their small
  specifications, and an `example` beside each theorem showing that a concrete
  non-trivial case meets its hypotheses.
* `MANIFEST.json`: property -> theorem names and status.
* `seeded/LOG.jsonl`: mutations tried against the theorems.

A property that the code violates has status `partial`: the model is proved to
violate it (a theorem with a witness), and what does hold is proved in a theorem
whose name ends in `_partial`.

## Trusted base

* Lean 4.33.0 kernel, Mathlib as installed.  No axioms beyond `propext`,
  `Classical.choice`, `Quot.sound` (see the section Axioms for each theorem);
  no `sorry`, `native_decide`, `bv_decide`.
* Reading of the Python source: the tie between model and code is the citation
  on each definition.
* Floating point is replaced by exact arithmetic: weights, probabilities and
  energies range over an ordered field (or the reals), matrices over a
  commutative ring/field or over the complex numbers.  Rounding, overflow, NaN and
  infinities are not modelled, except that a division by zero or a `nan` in an
  average is the value `none` where a property speaks about it.
* numpy/scipy kernels (`qr`, `svd`, `inv`, `det`, `eigh`, `expm`) enter as
  parameters with their mathematical contract as hypothesis (for instance `Q R = A`,
  `Q` with orthonormal columns, `R` upper triangular).  `Verif.Thermal.Exist` and
  `Verif.Slater.Exist` show that the contracts can be met for every complex matrix.
* MPI is modelled at message level: sends are buffered, receives block, messages of
  one (source, destination, tag) arrive in order (MPI non-overtaking rule), and the
  ranks interleave arbitrarily.
* HDF5 files are maps from dataset names to arrays and return what was stored; Python
  dictionaries are association lists; Python exceptions are values (`Option`/`Except`).
* Random numbers are universally quantified inputs; statements about expectations
  average over the draw explicitly (integral over the uniform or normal density, or
  finite average over signs).

## Modelled code

| Module | Code (under `/repo/pauxy`) | Simplifications |
|--------|------|------|
| `Mpi` | `Isend`/`Recv` as used in `walkers/handler.py` 290-329, 390-412 | buffered sends |
| `Comb`, `PairBranch` | `walkers/handler.py` 225-412 (`pop_control`, `comb`, `pair_branch`) | float array columns holding ranks and counts are naturals |
| `Buffer`, `FieldHistory` | `walkers/walker.py` 63-131, `walkers/stack.py` 5-127, `utils/misc.py` 218-235, window logic of `estimators/back_propagation.py` | |
| `Restart` | restart part of `walkers/handler.py` | |
| `Stack` | `PropagatorStack` (`walkers/stack.py`), full rank; `update_stack` (`utils/misc.py`) | one spin |
| `Thermal` | Green's functions of `walkers/thermal.py` and `estimators/thermal.py`; `ThermalDiscrete` (`thermal_propagation/hubbard.py`); `nstblz` adjustment | one spin for the Green's functions |
| `Slater` | `walkers/single_det.py` (fermions), `estimators/greens_function.py` (single determinants), parts of `utils/linalg.py`, back propagation, `Hirsch` (`propagation/hubbard.py`), factors of thermal discrete propagation | single-determinant trials |
| `Weights` | weight part of `propagation/continuous.py`, Gaussian average of the force-bias step | overflow branch left out |
| `Mixed` | `estimators/mixed.py` (`Mixed`), calls from the drivers | timings and density matrices left out |
| `Output` | file name choice (`estimators/handler.py` 59-71), `H5EstimatorHelper` (`estimators/utils.py`), reading back (`analysis/extraction.py` 14-29) | |
| `Energy` | `estimators/generic.py`, `estimators/hubbard.py`, half rotation (`trial_wavefunction/multi_slater.py`), variational energies (`estimators/mixed.py`) | `einsum` is a finite sum |
| `Input` | `get_input_value` (`utils/io.py`), `merge_dicts`, `get_from_dict` (`utils/misc.py`) | comparison of numpy arrays left out |
| `Setup` | walkers and seeds per rank (`qmc`, `walkers`), half rotation on several ranks, determinant threshold (`multi_slater.py`), `estimators/ci.py` 314-390, `find_chemical_potential`, `uhf.py` search | |
| `ChemPot` | `trial_density_matrices/chem_pot.py` | |
| `Chol` | `modified_cholesky` (`utils/linalg.py` 112-161) | argmax is a parameter with its contract |
| `Analysis` | `analysis/autocorr.py`, `average_ratio` (`analysis/blocking.py`) | FFT is the discrete Fourier sum |
| `UEG` | `systems/ueg.py`, `estimators/ueg.py`, `estimators/ueg_kernels.pyx` | sparse matrices are functions; `compute_real_transformation`, `eri_8` and `write_integrals` included, with `from_qmcpack_sparse` as the reader of `Files` |
| `Lattice` | lattice functions of `systems/hubbard_holstein.py` (copied in `systems/hubbard.py`) | one spin block |
| `Driver` | `AFQMC.run` (`qmc/afqmc.py`), `ThermalAFQMC.run` (`qmc/thermal_afqmc.py`) | operations are arbitrary functions |
| `Files` | `utils/io.py` 73-127, 339-564; `utils/hamiltonian_converter.py` 8-107, 162-353 | text of the headers left out; printing is an arbitrary odd function |
| `CI` | `estimators/ci.py` 159-312; `from_phmsd` and `recompute_ci_coeffs` (`trial_wavefunction/multi_slater.py` 182-232) for occupation lists and non-orthogonal determinants | `eigh` is a parameter with its contract |
| `Step` | `propagate_walker_free`, `propagate_walker_phaseless`, `two_body_propagator` (`propagation/continuous.py`), tables and force biases of `propagation/generic.py`, `hubbard.py` (continuous), `planewave.py`, `construct_h1e_mod` | fields are an argument, averages are Gaussian integrals; `expm` is the exponential of matrices |
| `Grand` | `propagate_walker_free` (with and without force bias) and `propagate_walker_phaseless` of `thermal_propagation/continuous.py`, `planewave.py` and `ThermalDiscrete`, `HubbardContinuous` of `thermal_propagation/hubbard.py`, start and Green's functions of `walkers/thermal.py` with stored left and right parts, `Walkers.reset` between paths | a run is an average over the fields of all slices; a singular path (measure zero; excluded by hypothesis for discrete fields) gives weight zero where Python has nan |
| `MultiDet` | `walkers/multi_det.py`, `local_energy_multi_det`, `construct_force_bias_multi_det`, the steps of `propagation/continuous.py` with such walkers | overlap thresholds kept; `inv` of a singular matrix is 0 |
| `Freeze` | `freeze_core`, electron counts of `generate_integrals` (`utils/from_pyscf.py` 178-220), `core_contribution_cholesky` | at least `nc + ncas` orbitals |
| `AoChol` | `chunked_cholesky`, `chunked_cholesky_outcore`, `search_shell` (`utils/from_pyscf.py` 286-549) | integrals as a function of four orbitals; shell quartets read as blocks of it; file as rows |
| `OrthoAO` | `get_ortho_ao`, integrals and trial of `dump_pauxy` (`utils/from_pyscf.py` 99-112, 159-176, 222-228, 632-651) | real orbitals; eigendecomposition as a parameter with its contract |
| `CasWfn` | `multi_det_wavefunction` (`utils/from_pyscf.py` 552-609) | sorting order as a parameter; rounding of printed coefficients left out |
| `PWFFT` | `PW_FFT` (`systems/pw_fft.py`), `local_energy_pw_fft`, `exchange_greens_function_fft`, `PW` (`propagation/pw.py`), `scipy_fftconvolve`, `convolve` (`estimators/utils.py`) | `next_fast_len` as a parameter not below its argument; exact arithmetic; infinite magnitudes left out |
| `Itcf` | `ITCF` (`estimators/itcf.py`) for single determinants, `back_propagate_generic` (`propagation/generic.py`) | GHF routines, input and file layout left out; a walker is its list of propagators |
| `Holstein` | `trial_wavefunction/harmonic_oscillator.py`; value, gradient, Laplacian and energies of `trial_wavefunction/coherent_state.py`; `local_energy_hubbard_holstein` (`estimators/hubbard.py`), `local_energy_multi_det_hh`; energy of `walkers/multi_coherent.py`; `boson_importance_sampling` (`propagation/hubbard_holstein.py`); first coordinates of the walkers | optimisation of the trial, input and electron steps left out; moves are Gaussian integrals |
| `LangFirsov` | `objective_function` and `calculate_energy` (`trial_wavefunction/lang_firsov.py`), `local_energy_hubbard_holstein_momentum` (`estimators/hubbard.py`), `gamma_lf` (`systems/hubbard_holstein.py`) | minimisation, gradient and input left out; energies are functions of orbitals, displacements and momenta |
| `Ekt` | all functions of `estimators/ekt.py`, their call and the places of their results in `estimators/back_propagation.py`; `analyse_ekt_ipea` (`analysis/blocking.py`) after averaging, `get_ortho_ao_mod` (`utils/linalg.py`) | arrays as matrices; the layout of the estimates as first places and lengths |
| `Convert` | `bin/fcidump_to_afqmc.py` after parsing its options, `write_qmcpack_dense`, `from_qmcpack_dense` (`utils/io.py`), `hijkl` (`systems/generic.py`) | a data set is its shape and its numbers in row order; the fall-back chain of readers is taken at the dense file |
| `TrialRho` | `OneBody.__init__` (`trial_density_matrices/onebody.py`), `MeanField` (`trial_density_matrices/mean_field.py`), `entropy` (`estimators/thermal.py`), `fock_hubbard`, the shapes in `fock_generic` | expm is the exponential; the search for the chemical potential may not end, so the constructors are relations; the printed energies are left out |
| `LowRank` | `update_low_rank`, `initialize_left`, `set_all` (`walkers/stack.py`), the low-rank steps of `thermal_propagation/planewave.py`, what `low_rank` changes of `ThermalWalker` and of `Walkers.reset` | rectangular pivoted QR as a parameter (one is constructed); `mT` and the copy of the bin left out; the shared array behind `walker.G` and `stack.G` before the first step is not visible |
| `BoseCI` | `simple_fci_bose_fermi`, `unlabeled_balls_in_labeled_boxes` (`estimators/ci.py`) | sparse matrices are functions of row and column, `eigsh` is a parameter with a contract (one is constructed), printed values are functions of the returned vectors; the specification is a Fock space with creation and annihilation of phonons |
| `Uhf` | `UHF` (`trial_wavefunction/uhf.py`), `diagonalise_sorted` (`utils/linalg.py`) | `eigh` is a parameter with a contract (one is constructed), densities are real numbers, the random matrices of all attempts are an argument; the search over attempts is that of `Setup` |
| `Fft` | `fft_wavefunction`, `ifft_wavefunction` (`utils/fft.py`), `kinetic_kspace` and its call (`propagation/hubbard.py`) | arrays as functions of the site; shapes are compared before any number; real orbitals are not told apart from complex ones |
| `HubDump` | `kinetic_pinning`, `kinetic_pinning_alt`, `Hubbard.fcidump`, `hijkl`, choice of the hopping (`systems/hubbard.py`) | lines by tokens as in `Files`; printing is a function that keeps the numbers in question |
| `KPoint` | `write_fcidump_kpoint`, `get_kpoint_chol`, the vectors of `read_qmcpack_cholesky_kpoint` (`utils/hamiltonian_converter.py`) | lines by tokens as in `Files`; as many momentum transfers as k-points |
| `BackProp` | `update_uhf` of `estimators/back_propagation.py`, the recording of fields and factors in `propagation/continuous.py`, `construct_propagator_matrix` of `propagation/hubbard.py` | on top of `Step`, `Weights`, `Slater`, `FieldHistory`; one determinant; `init_walker` and the extended Koopmans part left out |
| `Stats` | `average_rdm`, `average_fp`, `average_tau`, `average_correlation`, `analyse_estimates`, `analyse_back_prop`, `reblock_mixed` around the blocking (`analysis/blocking.py`), `set_info`, `extract_rdm` (`analysis/extraction.py`), `analysis/rdm.py`, `analyse_energy`, `find_chem_pot` (`analysis/thermal.py`) | metadata as nested dictionaries, frames as lists of rows; `pyblock`, fits and root finding are parameters; order of groups left open |
| `LocalOpts` | `local_energy` (`estimators/mixed.py`) for generic systems, `half_rotate` with `exact_eri` and `pno`, `local_energy_2body`, `calculate_energy` (`multi_slater.py`), `local_energy_generic_pno` and the layout of the arrays of the other routines (`estimators/generic.py`), what `SingleDetWalker` hands over | arrays as functions with shapes; `svd` is a parameter; `sparse = False`; at least one electron of each spin |
| `HolStep` | electron part of `propagate_walker_constrained` (`kinetic_importance_sampling`, `two_body`) of `propagation/hubbard_holstein.py`, tables of `walkers/multi_coherent.py` | `update_weight` flags and input left out; the random numbers of a sweep are an argument, averages over them are nested integrals |
| `Fields` | general lemmas: averages over the random numbers of a sweep, sums over fields as operators, symmetric Trotter limit, minors of determinants, hopping between ordered configurations, Perron-Frobenius | not a model of code |
| `HubRun` | runs of `propagate_walker_constrained` of `propagation/hubbard.py` (model `Slater/HirschModel`) with `reortho`, the free-electron trial (`free_electron.py`), new walkers (`walkers/walker.py`, `single_det.py`) | `Run`: one walker, energy shifts given; `Population`: loop of `qmc/afqmc.py` 227-246 with `pop_control` and `pair_branch` (`PairBranch`), shifts as functions of the history, cap, skip and exit as conditions, restarts from the written walkers (`walkers/handler.py` 432-450, 477-485) as events; `log_shift` off; `reference` and `read_in` of the trial left out |
| `HubHalf` | half-filled runs of `propagation/hubbard.py` (model `Slater/HirschModel`): `propagate_walker_free`, `propagate_walker_constrained` with `two_body_direct` | `kineticAll`, `directAll`, `stepAll` are the same functions without the constraint, for comparison; one walker, energy shifts given; `log_shift` off; `FreeRows` joins free projection to the model `Mixed` of the estimator |
| `HubBack` | `update_uhf` of `estimators/back_propagation.py` with `back_propagate` of `propagation/hubbard.py` and the field history of `walkers/stack.py`, on the runs of `HubRun` | a window of steps and reorthogonalisations after a run, for one walker (C127) and for populations with pair branching and several windows (C128); free propagation and `two_body_direct` (which records no fields) left out |
| `SpinProj` | `spin_proj` of `get_trial_wavefunction` (`trial_wavefunction/utils.py` 123-144), `gab_spin` (`estimators/greens_function.py`) | `Wave`: wave functions in the coordinates of all electrons, spin operators; `Props`: invariant of the steps of `Step` and `Slater/HirschModel`; `Parts`: spin parts of the trial. MPI broadcast, `trial.noons` and the multi-determinant case (only the first determinant is read) not modelled further |
| `Ghf` | `walkers/multi_ghf.py` (85-204), `local_energy_hubbard_ghf` and `_full` (`estimators/hubbard.py`), `gab_multi_ghf`, `gab_multi_det_full` (`estimators/greens_function.py`), the GHF parts of `propagation/hubbard.py` and `kinetic_ghf` | one walker; `aux_wfac` one (spin decomposition); the missing imports and undefined names are not modelled; construction, `gab_multi_ghf_full`, `gab_multi_det` and the GHF routines of `estimators/itcf.py` left out |
| `TrialFile` | text wavefunction files of `utils/io.py` (216-302), `trial_wavefunction/hartree_fock.py` (22-77), `read_in` of `trial_wavefunction/free_electron.py` | files are lines of words; a number written and read is a rounding function; `.npy` files, UHF determinants of `write_phfmol_wavefunction` and `read_phfmol` for fewer orbitals than electrons left out |
| `Slices` | numbers of slices, bins and steps in `qmc/thermal_afqmc.py`, `trial_density_matrices/onebody.py`, `walkers/thermal.py`, `estimators/back_propagation.py`; `QMCOpts` and reduced units in `qmc/options.py` | times as rationals with a rounding function for double precision (no overflow, no denormals); stacks of `Stack` over the paths of a run (C129) |
| `Meta` | `serialise` of `utils/misc.py`, `to_json` of `utils/io.py`, `get_metadata` of `analysis/extraction.py` | values of attributes as trees (no cycles, string keys, arrays of several dimensions without content); JSON text as values; read by `set_info` of `Stats` (C130) |

## Not modelled

Timing output, printing, JSON metadata, git information, calls into pyscf
(the rest of `utils/from_pyscf.py`: see `AoChol`, `OrthoAO`, `Freeze`, `CasWfn`), memory-sharing windows, real floating point behaviour,
GHF routines of `estimators/itcf.py`, the optimisation of coherent-state trials,
the minimisation in `trial_wavefunction/lang_firsov.py`, the input handling of `propagation/hubbard_holstein.py`,
`tools/` and `bin/` (but see `Convert`).

## Properties: what is modelled and how it is proved

| Id | Model | Proof |
|----|-------|-------|
| C01 | `pop_control` up to the branch, weights as lists per rank over an ordered field | list algebra |
| C02 | `comb` loop with explicit fuel-free recursion on the two indices, error value on overrun | invariant of the loop, characterisation of the count as the number of comb teeth in the walker's interval |
| C03 | `comb` exchange on a list of walkers; zip of clone and kill lists | true when all counts are at most 2 (partial); negation proved with witness `[3,0,0]` |
| C04 | message list of the exchange, arbitrary permutation of deliveries | uniqueness of tags and disjointness, commutation of writes |
| C05 | `pair_branch` on the gathered array: stable sort, two-pointer loop, inverse permutation | loop invariant |
| C06 | the send and receive loops of each rank derived from the scattered array | counting per (source, destination) over pairs |
| C07 | same model as C05 | loop exit condition and sortedness |
| C08 | same model, draw uniform on [0,1) as a probability weight of the two outcomes | algebra |
| C09 | `comb` counts as function of r | integral over r, from the interval characterisation of C02 |
| C10 | `get_buffer`/`set_buffer` on a list of typed attributes | induction over the attribute list |
| C11 | `FieldConfig` buffer with the dynamic type of the accumulated factor | round trip if types agree (partial); witness for the integer zero |
| C12 | restart file as map from dataset index to buffer | list/append algebra |
| C13 | `FieldConfig` state machine | invariant over operations |
| C14 | window schedule: `FieldConfig` step counter plus `BackPropagation.update` splits | invariant when the split count divides the window (partial); witness otherwise |
| C15 | lists of matrices | induction over the list, conjugate transposes |
| C16 | `PropagatorStack` state machine over a monoid | invariant over updates |
| C17 | full-rank update over a group/monoid with inverse | invariant over updates |
| C18 | `update_stack` | well-founded search, divisibility |
| C19 | QR and SVD chains with factor contracts | induction over bins, matrix algebra |
| C20 | `inverse_greens_function` | negation by witness; true for Hermitian result (partial) |
| C21 | rank-one update over matrices | Sherman-Morrison, determinant lemma |
| C22 | `sherman_morrison`, `update_inverse_overlap` | matrix algebra |
| C23 | `gab`, `gab_mod`, `gab_mod_ovlp`, `greens_function` | matrix algebra |
| C24 | `reortho` with QR contract, `orthogonalise` | determinant multiplicativity, induction |
| C25 | `calc_overlap`, `calc_otrial`, `greens_function` overlaps | equality under equal spin numbers and zero shift (partial), witnesses |
| C26 | `modified_cholesky` loop | residual stays positive semidefinite; Cauchy-Schwarz |
| C27 | Taylor loops | induction on the order |
| C28 | energy contractions as finite sums | sum manipulation |
| C29 | average over sign vectors | orthogonality of sign characters |
| C30 | factors as real/complex exponentials | case split over occupations |
| C31 | single-site update | determinant lemma; charge decomposition refuted by witness |
| C32 | direct update | product over sites; refuted, with the exact factor 2^-n proved |
| C33 | bound and weight update over the reals | real inequalities, induction over steps |
| C34 | both weight updates | hybrid proved, local energy refuted |
| C35-C37 | `Mixed` accumulators as fold over steps and ranks | induction, permutation invariance |
| C38 | file-name search over strings of characters | first free index for names without a dot; refuted in general |
| C39 | nine digit zero padding and index increment | lexicographic order of digits; refuted beyond 10^9 and for averaging above one |
| C40 | double loop over determinants | sums; refuted for complex coefficients, real part proved |
| C41 | double loop over determinants | as C40 |
| C42 | `local_energy_hubbard` | refuted for the symmetric form, proved otherwise |
| C43 | `get_input_value` | case analysis over alias lists |
| C44 | nested dictionaries as trees | structural induction |
| C45 | sparse triplets and chunks | induction |
| C46 | FCIDUMP as list of lines | orbit representatives |
| C47 | NOMSD groups | refuted for several determinants, proved for one |
| C48 | PHMSD occupation offset | list algebra |
| C49 | integer arithmetic | `omega` |
| C50 | run loop as trace generator | induction over steps |
| C51 | column ranges per rank | interval arithmetic |
| C52 | UEG basis and index map over integers | injectivity on the ball |
| C53 | lattice indices, hopping matrix | arithmetic; sums of roots of unity |
| C54 | recursive generator | induction |
| C55 | occupation lists and fermionic operators on them | sign counting |
| C56 | block means | sums |
| C57 | power of two search, window argmin | induction |
| C58 | selection loop | refuted with witness, first-step partial |
| C59 | prefix selection | true for sorted input, refuted otherwise |
| C60 | bracketing and bisection loops | invariants |
| C61 | acceptance loop | invariant |
| C62 | restart file opened for writing before reading | refuted with the trace; proved for different files |
| C63 | `PropagatorStack.reset` | refuted in the middle of a bin; proved for full bins |
| C64 | Woodbury update of a Green's function | matrix algebra |
| C65 | adjustment of the stabilisation frequency | arithmetic |
| C66 | thermal heat bath | integral over the uniform draw |
| C67 | thermal constrained propagation, both decompositions | proved for the spin decomposition, refuted for charge |
| C68 | chemical potential in the slice propagator | matrix algebra |
| C69 | telescoping product of importance factors | induction over steps |
| C70 | force-bias shift and Gaussian average | Gaussian integrals |
| C71 | energy as expectation value | Wick's theorem from operators applied to orbitals |
| C72 | variational energy of a determinant expansion | sums |
| C73 | UEG Hamiltonian: operators of the propagator and integrals | reindexing of momentum sums; refuted for twists |
| C74 | UEG local energy | as C73; refuted for more down electrons |
| C75 | UEG Fock matrix | derivative of the energy; refuted for complex density matrices |
| C76 | energy shift in the driver | induction over steps; refuted for local-energy propagation |
| C77 | weight cap in the driver | inequalities; refuted in general |
| C78 | options of the FCIDUMP writer | refuted in general, exact conditions proved |
| C79 | free-projection step of the four continuous propagators | expansion in the square root of the time step with exponential bounds in the fields, Gaussian moments; refuted for spin-polarised trials and complex vectors |
| C80 | force bias of the continuous propagators | first-order expansion of overlap and logarithm; refuted for the spin decomposition |
| C81 | importance factor of a phaseless step | Gaussian integration by parts for complex shifts and C79, C71 |
| C82 | many free-projection steps, reorthogonalisations, projected energy | many-particle tensor operators, uniform one-step bound and telescoping (Chernoff), antisymmetric functionals are sums of determinants, spectral theorem |
| C83 | thermal free projection over all slices | walker invariant over the stack, trace over the many-particle space as a determinant (Wick), almost all fields give non-singular paths (polynomials), operator averages as in C82, positivity of the partition function; with force bias: polynomials at shifted points, change of variables in every step |
| C84 | thermal free projection with discrete fields | sum over fields gives the exact exponential of the interaction, Trotter error of order 1/L (Lie product formula with rate), walker invariant and traces as in C83 |
| C85 | multi-determinant walkers | sums over determinants of C71, C80-C82; exact criterion for the force bias; witness on two sites |
| C86 | recomputed CI coefficients, FCI trials | wedge products connect creation operators on sets with tensors; Slater-Condon rules of C55; antisymmetric functionals expand in sorted determinants; Rayleigh quotients |
| C87 | recomputed coefficients, non-orthogonal determinants | Hermitian forms of antisymmetric operators; generalised Rayleigh quotient |
| C88 | frozen core | block form of overlaps and Green's functions with filled core; traces of products; orthogonal determinants by continuity (a polynomial has finitely many zeros) |
| C89 | Cholesky from shell blocks | column and diagonal assembled from shells equal those of the full matrix, then C26; invariant relating buffer and file for the version on disk |
| C90 | orthogonalised orbitals | congruence by the inverse square root; energy in both bases as traces of densities; bound on the error by sums of absolute values |
| C91 | active-space wavefunction file | first position reaching the cutoff; decoding of the orbital numbers; witnesses |
| C92 | plane-wave energy by Fourier transforms | discrete Fourier transform and its inverse on a padded box give the convolution; positions of the mesh as vectors; sums over momentum transfers collapse |
| C93 | plane-wave propagation by Fourier transforms | order by order equal to the matrices of the density operators, then C20 and the general propagator's theorems |
| C94 | imaginary-time Green's functions of one-determinant walkers | equal-time functions at later slices are conjugates by the propagator, projectors absorb; bordered determinants and cofactors give the overlaps with one electron more or less |
| C95 | oscillator, coherent states, local energy of Hubbard-Holstein walkers | derivatives of products of Gaussians; linearity over the states; the electrons' part from C19 |
| C96 | phonon steps and first coordinates | Gaussian moment generating function site by site, closed recursion for shift and weight, limit of (1 - wτ/N)^N; antisymmetry of the accepted flow |
| C97 | energy of coherent-state trials | Gaussian overlaps and first moments, affine electron-phonon term taken at the mean shift, symmetric double sum; for copies the difference of the single energies |
| C98 | energies of the Lang-Firsov trial and in phonon momenta | sums over electron positions of determinants (Cauchy-Binet with repetition), Gaussian overlaps of displaced phonons, occupations idempotent under a determinant; plane waves under translation, Gaussian moments by parts |
| C99 | generalised Fock matrices | adding and removing an electron on antisymmetric functions of the orbitals, commutators with one- and two-electron operators, anticommutator, adjoints, Wick elements; then matrix algebra |
| C100 | ionisation energies and affinities | canonical orthogonalisation gives an orthonormal basis of the metric; the metric and the Fock matrix are matrix elements between states with one electron less or more; the Hamiltonian is Hermitian on functions of the orbitals |
| C101 | FCIDUMP file to the Hamiltonian of a run | symmetry and reality of the read integrals as an invariant over the lines, reality of the Cholesky vectors as an invariant of the loop, row-major places of the data sets, error bound of the factorisation |
| C102 | one-body trial density matrix | Wick elements of an exponential of a one-body operator as traces over all electron numbers, spectral theorem, whole slices and divisors; entropy by eigenvalues of the statistical operator in each sector |
| C103 | mean-field trial density matrix | invariants of both loops; Gibbs-Bogoliubov inequality by convexity of the exponential (Peierls); Fock matrix of the Hubbard model as derivative of its energy, Cauchy-Schwarz for the threshold |
| C104 | thermal phaseless paths | real matrices equal for both spins: determinants are squares, so the logarithm of the ratio is real and the cosine one; induction over the slices with the stored determinants as a free parameter; reset as an equation between walkers |
| C105 | low-rank stack | Woodbury identity for the truncated factors; pivoting bounds what is cut; the path defined without any stack, both stacks shown to follow it by induction over the slices |
| C106 | electron-phonon diagonalisation | enumeration by induction over the boxes; row of a basis state as a bijection; matrix element by element against the Fock space; min-max for the monotone energies; completed square for the lower bound; states with finitely many phonons for the limit |
| C107 | UHF trial | lowest eigenvectors minimise the energy of orthonormal orbitals (weights of the eigenvectors between zero and one); loop invariant of the self-consistency cycle; energy against the many-electron Hamiltonian; checkerboard as a signed permutation |
| C108 | momentum-space step | transforms as matrices of lattice waves, which diagonalise the hopping; exponential of a diagonalised matrix; the exponential is injective on Hermitian matrices |
| C109 | FCIDUMP and pinning of Hubbard systems | lines of the file folded into the reader's assignments, every pair of sites exactly once; pinned hopping as lattice hopping plus a diagonal; energy sums collapse to the sites |
| C110 | k-point FCIDUMP | counters of the loops as positions in the product order; vectors as one dense table through the bijection of orbitals; the list of lines as the image of the quadruples above the tolerance; reader as for the FCIDUMP without k-points |
| C111 | back-propagated estimates | telescoping weight of a window times recorded phases over cosines; adjoint of the window on the trial; force bias undone in the average by polynomial dependence on the fields; power of the averaged step tends to the exponential |
| C112 | error bars | sum of squares of the deviations as a quadratic form; its integral from means and covariances of the samples; for ratios the deviations of `num - E den`; complex entries as real and imaginary part |
| C113 | runs averaged together | frames as lists of rows with their columns; `groupby` as the rows of equal key, rows lacking a key in no group; metadata as nested dictionaries |
| C114 | chemical potential | invariant of the loop over windows: first residual with a root, and a window with a residual not above it |
| C115 | options of the energy routine | every call site composed: set-up on all ranks, trial energy, new walker, estimate; exceptions as `none`; index maps of `ravel` and `reshape` inverted |
| C116 | pair natural orbitals | Parseval and Cauchy-Schwarz for the dropped singular values; sums over `i ≤ j` with half weight on the diagonal are half the full sums |
| C117 | real orbitals of the gas | invariant of the loop: rows of all pairs touched so far; conjugate of the coefficient of `k` is that of `-k`; one index of a unitary change cancelled at a time |
| C118 | Hamiltonian file of the gas | round trip of the sparse file composed with the contraction of a generic run; a density operator and its own square never conserve momentum |
| C119 | electron step of Hubbard-Holstein | a sweep as a random tree; nested integrals over uniform numbers; the ratio of overlaps telescopes; sums over fields factor over sites and become the exponential of the interaction on antisymmetric functionals |
| C120 | Hubbard chains reach the lowest energy | minors of a determinant evolve by the hopping between ordered configurations (Cauchy-Binet, exponentials of intertwined operators); matrices without positive entries off the diagonal keep positive vectors; Perron-Frobenius for the determinant of lowest eigenvectors, with all configurations of a chain connected; telescoping overlaps, symmetric Trotter limit, projection on the lowest energy |
| C121 | population control in Hubbard runs | one random number per walker decides between two rows of the branching (finite invariant of the branching loop); average over independent thresholds; nested averages over walkers, steps and controls; finitely many outcomes give thresholds for which nothing drastic happens |
| C122 | attractive interaction, charge decomposition | step operator with another interaction; perturbed symmetric Trotter limit (telescoping, norm of exp - 1), derivative of the logarithm |
| C123 | spin-projected initial walker | one-body operators on a determinant as sums over replaced rows (Leibniz expansion); dependent rows for S_+; eigenvectors of a Hermitian operator with different eigenvalues; spectral theorem for the parts of the trial; invariant of all steps |
| C124 | interrupted Hubbard runs | restarts as events of the runs of C121, with number of ranks and stored state changing inside the induction; both runs reduce to the same power of the step operator |
| C125 | trials that mix the spins | matrix determinant lemma for a rank-two change; invariant of stored overlaps; induction over the sites with integrals over the random numbers; adjoint of the step matrices with the determinants of the QR factors |
| C126 | trial wavefunctions in text files | lists of blocks of equal length; induction over the determinants of the file; filters that keep the order; counting of columns |
| C127 | back-propagated density matrices of Hubbard chains | average over the fields of a window as sum over paths; adjoint of the path matrices moved to the trial; Strang limit; Perron-Frobenius projector onto the ground state in the sector of ordered configurations; operator identity for the energy on antisymmetric states |
| C128 | back-propagated estimates of populations | expected contribution of a walker as a function of the remaining events, linear in the weight; induction over the events; averages of step functions of the random numbers of branching; finitely many outcomes for the thresholds |
| C129 | temperature of thermal runs | round to nearest even as a function on rationals with its relative error; bookkeeping of the stack as an invariant; witnesses evaluated by the kernel |
| C130 | metadata of output files | objects and dictionaries as trees, mutual recursion; induction over paths; exact set of trees for which writing raises by an inductive reachability relation |
| C131 | attractive Hubbard models with paired electrons | the overlap is a square of a real determinant; along every path of fields it is an analytic function of `gamma` that does not vanish at zero, so its zeros are countable |
| C132 | half-filled Hubbard models on bipartite lattices | up orbitals and sign-changed down orbitals are orthogonal complements, kept by every whole sweep; the overlap is the squared modulus of a determinant with all orbitals (block matrices) times positive Gram determinants |
| C133 | densities and energies at half filling | the Green's functions are oblique projections; that of the down electrons is the complement of the adjoint of that of the up electrons, shown on a basis of walker and trial orbitals; trace of a projection |
| C134 | free projection and energies of attractive models with paired electrons | the overlap of every walker of a path is the square of a real determinant; walker orbitals are a real matrix times an invertible one, which drops out of the Green's function |
| C135 | output rows of free projection without a sign problem | C132 to C134 for every observation, then weighted averages with positive weights (C37); products of sweeps are paths of C131, so overlaps vanish for countably many time steps only |
| C136 | overlaps in free projection | for every sequence of fields the determinants are analytic functions of `gamma` that do not vanish at zero; sequences of fields are countable |

## Findings

Properties the code violates, each with a theorem that proves it of the model.

| Id | What the code does | Theorem |
|----|--------------------|---------|
| C03 | `comb` loses copies when a walker is to be copied three or more times: clone and kill lists are zipped with one entry per walker (`[3,0,0]`). | `Comb.comb_loses_copies` |
| C11 | The accumulated factor of a fresh field history is the Python integer 0, so that a received factor is truncated to an integer. | `FieldHistory.history_exchange_loses_factor` |
| C14 | A split count that does not divide the window overruns; a walker of zero weight is not propagated and its window falls behind. | `FieldHistory.bp_windows_overrun`, `bp_windows_dead_walker` |
| C15, C27 | Back propagation always uses Taylor order 6 and the spin decomposition, whatever the forward steps used. | `Slater.forwardStep_ne`, `Hirsch.bpMatrix_charge_ne` |
| C20 | `inverse_greens_function` returns the conjugate transpose. | `Thermal.invGreens_wrong` |
| C24 | With a determinant shift the stored overlap is wrong after reorthogonalisation. | `Slater.reortho_shift` |
| C25 | `calc_overlap` splits columns at `ndown`; `calc_otrial` applies the log shift with the wrong sign. | `Slater.calcOverlap_unequal`, `calcOverlap_no_down`, `calcOtrial_shift` |
| C26 | An error is raised when exactly `nchol_max` vectors are needed. | `Chol.modifiedCholesky_limit` |
| C31, C67 | Charge decomposition: the scalar factors cancel from the weight (zero temperature) or are left out (thermal). | `Hirsch.charge_weight_wrong`, `thermal_charge_wrong` |
| C32 | The force-bias update contains an extra factor one half per site and the square of a cosine. | `Hirsch.force_bias_wrong` |
| C33 | No bound on the weight factor before the shift is set, and a larger one when the shift changes. | `Weights.no_bound_before_shift`, `bound_fails_when_shift_changes` |
| C34 | The local-energy update counts half the shift. | `Weights.updateLocal_keeps_iff`, `updateLocal_drift` |
| C35 | With averaged Green's functions the denominator is never accumulated; blocks without evaluation give `nan`. | `Mixed.blockRow_eproj_average`, `blockRow_no_evaluation` |
| C36 | In a quiet run the initial evaluation leaks into the first block. | `Mixed.run_quiet_leaks` |
| C38 | Base names with a dot: the search for a free name never ends or raises. | `Output.search_dotted_never_ends`, `search_dotted_error` |
| C39 | Beyond 10^9 blocks the order is lost; averaging over two or more blocks never writes. | `Output.padded_overflow`, `pushAll_nav` |
| C40, C41 | Complex coefficients: the off-diagonal element is added twice, or both coefficients are conjugated. | `Energy.varOrthoDet_complex`, `contractOrtho_complex` |
| C42 | Symmetric Hubbard form: the extra term is overwritten. | `Energy.localHubbard_symmetric_wrong` |
| C47 | Several unrestricted determinants are read back with the wrong alpha orbitals; different electron numbers are refused; no beta electrons cannot be read. | `Files.nomsd_two_wrong`, `nomsd_unequal_refused`, `nomsd_unequal_error`, `nomsd_no_beta` |
| C48 | Different electron numbers are refused (the assertion compares both with `nelec[0]`). | `Files.phmsd_unequal_refused` |
| C53 | One site along x: the table of energies is not the spectrum of the hopping matrix. | `Lattice.column_wrong`, `single_site_wrong` |
| C54 | An empty list of boxes with zero balls is accepted although the documentation rejects it. | `Setup.enumerate_spec` |
| C55 | The element is `<dj\|H\|di>`: transposed for complex integrals; spins are not checked for single excitations (not reachable from `simple_fci`). | `CI.transposed`, `CI.spin_flip_wrong` |
| C56 | A constant series, or two or three equal samples at the start, raises. | `Analysis.reblock_constant`, `reblock_constant_segment` |
| C57 | Window 0 when no lag meets the criterion, last lag when lag zero does. | `Analysis.autoWindow_none_met`, `autoWindow_all_met` |
| C58 | The smallest residual is never updated; a last window without root gives `None`. | `Setup.findChemPot_wrong`, `findChemPot_last_window` |
| C59 | Unsorted coefficients: determinants above the threshold are dropped, others kept. | `Setup.thresholdDets_unsorted` |
| C60 | A target met exactly at an end of the interval gives `None`. | `ChemPot.finds_exact_end` |
| C61 | The densities returned are those of the last attempt. | `Setup.uhfResult_dens` |
| C62 | Restarting from the file that is also written yields no walkers: it is emptied first. | `Restart.restart_same_file_loses` |
| C63 | `reset` in the middle of a bin keeps the counter. | `Stack.stack_reset_mid_bin` |
| C73 | With a twist the zero momentum transfer is kept and divided by. | `UEG.zero_mem_qvecs` |
| C74 | More down than up electrons: terms are missing from the energy. | `UEG.localUEG_more_down` |
| C75 | The exchange matrix is transposed. | `UEG.fock_wrong` |
| C76 | After equilibration the hybrid-energy shift is used also for local-energy propagation. | `Driver.shift_local_wrong` |
| C77 | The cap compares with the total before rescaling: uniform populations are cut, heavy walkers escape. | `Driver.cap_uniform`, `cap_escape` |
| C78 | FCIDUMP: negative imaginary parts pass the check, one-electron imaginary parts are dropped silently, files with parentheses are unreadable. | `Files.eri_imag_lost`, `hcore_imag_lost`, `paren_unreadable` |
| C79 | `HubbardContinuousSpin`: the mean-field shift enters the one-body propagator of both spins with the same sign; with a spin-polarised trial the wrong Hamiltonian is propagated. | `Step.spin_exact`, `spin_wrong` |
| C79 | `isinstance(dtype, numpy.complex128)` is never true, so complex Hermitian Cholesky vectors are used as if real and half of `L Lᵀ` instead of half of `L L` is subtracted. | `Step.generic_exact`, `hermitian_wrong` |
| C80 | `HubbardContinuousSpin.construct_force_bias` has the wrong sign for its `construct_VHS`: the force bias doubles the fluctuation it should remove. | `Step.spin_limit`, `spin_unbounded` |
| C83 | Continuous fields with `symmetric`: `construct_h1e_mod` leaves out the interaction shift instead of doubling it, so the ensemble has chemical potential `mu - U/2` instead of `mu + U/2`. | `Grand.hub_averages`, `symmetric_wrong` |
| C83 | Thermal `PlaneWave`: a mean-field shift from a non-diagonal trial density matrix is not compensated in the one-body propagator. Diagonal trials have no shift. | `Grand.ueg_shift` |
| C85 | `MultiDetWalker.greens_function` skips determinants orthogonal to the walker, whose matrix elements of one- and two-body operators are not zero. Started from the first determinant of an orthonormal expansion, local energy and force bias are those of that determinant alone, whatever the coefficients. | `MultiDet.energy_start`, `energy_wrong`, `bias_unbounded` |
| C85 | With the local-energy weight update and a multi-determinant trial, the energy combines Green's functions of the walker before the step with overlaps after it. | `MultiDet.phaseless` (field `eloc`) |
| C86 | With complex Hermitian integrals `recompute_ci_coeffs` diagonalises the transposed Hamiltonian (`get_hmatel` returns the transposed element), so the coefficients are the complex conjugates of the right ones. | `CI.Bridge.recompute_transposed`, `recompute_complex` |
| C86 | Occupations not in increasing order: `spin_occs` is sorted, the orbital matrices are not, and the sign of the permutation is lost. | `CI.Bridge.recompute_unsorted` |
| C87 | In the non-orthogonal branch of `recompute_ci_coeffs` orthogonal determinants raise LinAlgError (inverse of a singular matrix) and overlaps below 1e-12 set the coupling to zero although it need not be small. | `CI.Nonortho.matrices_singular`, `recompute_small_overlap` |
| C87 | The same branch calls `self.rchol(i)`, which is an array, for generic systems (read, not proved). | |
| C88 | `core_contribution_cholesky` contracts the exchange part to its transpose: wrong for complex Hermitian Cholesky vectors. | `Freeze.freeze_complex` |
| C88 | `generate_integrals` with an active space keeps one electron more than `cas[0]` if the number of the others is odd. | `Freeze.cas_electrons` |
| C88 | `dump_pauxy` with an active space writes a trial with all orbitals next to a Hamiltonian with the active ones (read, not proved). | |
| C89 | `chunked_cholesky_outcore` writes its buffer only when it is full: the last incomplete chunk never reaches the file. | `AoChol.outcore_rows`, `outcore_empty` |
| C89 | `chunked_cholesky` raises IndexError when the number of vectors reaches `cmax * nao`. | `AoChol.chunked_exists` (bound) |
| C89 | With chunks of one row the first vector is lost; `cholesky` returns None unless the memory estimate exceeds its limit (both read, not proved). | |
| C90 | `write_wfn_mol` raises for restricted calculations with unequal electron numbers. | `OrthoAO.rohf_fails` |
| C90 | `generate_integrals` uses the transpose, not the conjugate, of the orbitals; a cutoff for linear dependence gives a rectangular matrix that `ao2mo_chol` cannot use (read, not proved). | |
| C91 | `multi_det_wavefunction` stops before the cutoff is reached; one dominant determinant gives an empty file. | `CasWfn.weight_below`, `dominant` |
| C91 | With core orbitals and the default `norb` up and down orbital numbers overlap. | `CasWfn.default_norb_fails` |
| C91 | `multi_det_wavefunction` uses the strings of the up electrons for both spins. | `CasWfn.open_shell_fails`, `open_shell_electrons` |
| C92 | Plane waves whose squared distance times the squared grid spacing is below 1e-10 do not interact. | `PWFFT.large_box_wrong` |
| C92 | `PW_FFT` raises for a cutoff below 1/2 (a single plane wave). | `PWFFT.constructs_iff` |
| C92 | `estimators/mixed.py` 409-410 calls `local_energy_pw_fft` without its required `trial`; neither `PW_FFT` nor `PW` can be chosen from the input; `CTdagger` of unequal electron numbers is a ragged array (read, not proved). | |
| C93 | With an energy shift of zero `PW` bounds the hybrid energy where `Continuous` does not. | `PWFFT.bound_zero_differs` |
| C93 | `PW` stores the overlap times `exp(log_shift)`, other propagators times `exp(-log_shift)` or none (used consistently within `PW`). | `PWFFT.free_current` |
| C94 | `increment_tau_uhf_stable` multiplies the down lesser function onto that of the up spin (`Gls[1] = Gls[0].dot(...)`). | `Itcf.down_wrong` |
| C94 | The left orbitals for the next slice are read at `len(psi_Ls)-ic-1`, one slice too early; all times after the first slice are wrong. | `Itcf.later_wrong` |
| C94 | `calculate_spgf_unstable` reads the undefined name `it` and raises as soon as there is a slice. | `Itcf.unstable_raises` |
| C94 | Read, not proved: the handler passes a file name where `ITCF` calls `create_group`; `print_step` is called with a keyword `nsteps` it does not accept; no field store offers both `get_block` and `get`, `wfac`, `stack_size`; the Hubbard and GHF back propagation have a different signature. | |
| C95 | `CoherentState.gradient` multiplies by `coeffs` where `value` multiplies by their conjugates; for complex coefficients the drift is not the derivative of the trial. | `Holstein.drift_wrong` |
| C95 | `boson_importance_sampling` moves the coordinates and leaves the walker's `weights` at the old ones; the energy measured after it is not the mixed estimate. | `Holstein.stale_wrong` |
| C96 | The `sorella` branch adds `Ek = 1/(2m) ∑ laplacian²`, which is not the kinetic part of the local energy up to a constant. | `Holstein.sorella_wrong` |
| C96 | Read, not proved: `HirschDMC.__init__` reads the undefined name `inputs` (hubbard_holstein.py 65) and raises; free steps call `calc_otrial(trial.psi)`, which the walkers do not offer. | |
| C97 | For permuted copies the code adds the energy of the unpermuted state for every copy; on a ring of four sites the result is not the expectation value. | `Holstein.permuted_wrong` |
| C97 | Read, not proved: `CoherentState` reads `nocca` before it is set when a wavefunction file is given, and without jax the fallback of `jit` returns `None`. | |
| C98 | `LangFirsov.calculate_energy` has `gamma * w0` and `gamma**2 * w0` where the minimised energy has `gamma * m * w0**2` and `gamma**2 * m * w0**2`; for a mass other than `1/w0` the reported energy is not that of the trial (-3/2 instead of -1 for one electron on one site of mass two). | `LangFirsov.reported_wrong`, `LangFirsov.reported_diff` |
| C98 | `const_mat` damps the diagonal of the hopping as well; with pinning fields both energies are wrong. | `LangFirsov.diagonal_wrong` |
| C98 | `local_energy_hubbard_holstein_momentum` asserts `gamma_lf * w0 == g * sqrt(2 m w0)`, which holds for the system's own `gamma_lf` only if `g = 0` or `m w0 = 1`; no code calls the function. | `LangFirsov.momentum_asserts` |
| C98 | Read, not proved: `LangFirsov.gradient` uses `Dvec`, `psi0a` and `psi0b`, which it never sets (lines 459-485); `self.virt` is missing when a reference or a file is given and read in line 265. | |
| C99 | `ekt_1h_fock_opt` takes the exchange of the second spin with the density matrix of the first on the left (`rdm1a.dot(c.T).dot(rdm1b)`, line 69), and both `opt` functions count the Coulomb term of the first spin in the field of the second twice instead of once each way; a single electron of the second spin interacts with itself. | `Ekt.fock1hOpt_wrong`, `Ekt.fock1pOpt_wrong` |
| C99 | For molecules the estimator passes `system.chol_vecs`, a matrix with one row for each pair of orbitals, and the assertion on three dimensions fails. | `Ekt.generic_fails` |
| C99 | `print_step` reads the Fock matrices one density matrix too early unless `one_rdm` is requested. | `Ekt.readFock_iff` |
| C101 | `hijkl` multiplies `L_ik L_jl` without a conjugate while the conversion factorises `(ik|jl) = ∑ L_ik conj(L_lj)`; for integrals without the symmetry `j <-> l` (complex orbitals, even with real values) the run sees wrong integrals, here +1 instead of -1. | `Convert.conjugate_missing` |
| C101 | `fcidump_to_afqmc.py` asks only the two-electron integrals whether the file must be complex; with real ones the imaginary part of the one-body matrix is dropped silently. | `Convert.hcore_dropped` |
| C102 | The number of slices is `int(beta/dt)`: unless `beta` is a whole number of slices the trial is built at a higher temperature than asked for, without a warning (0.9 instead of 1 for `dt = 0.3`); and in floating point also if it is (`int(0.3/0.1)` is 2). | `TrialRho.dimer_case` |
| C102 | The estimate of the stack size divides by the logarithm of the condition number: a condition number of 1 (a flat band) raises, and above 1000 the estimate is 0, by which `update_stack` divides. | `TrialRho.onebody_raises` |
| C103 | `compute_rho(rho, mu_old, dt)` (line 53) and `muN` (line 68) take the usual sign whatever `_alt_convention` says, while the search in line 47 uses the alternate one: for such systems the chemical potential has the wrong sign. | `TrialRho.alt_wrong` |
| C103 | Neither loop reports that its iterations ran out; `P` then belongs to another chemical potential than `dmat` and has another number of particles. | `TrialRho.unconverged` |
| C103 | The change that ends the inner loop is measured after mixing: with `alpha` near 1 any density matrix is taken for converged. | `TrialRho.alpha_one` |
| C103 | `fock_generic` needs `hs_pot` with three axes, `Generic` stores a matrix: the thermal Hartree-Fock trial cannot be built for a molecule. | `TrialRho.generic_raises` |
| C103 | Read, not proved: with `verbose` the grand potential printed in each iteration is computed from the density matrix the loop started from, not the current one, and the assertion of `entropy` fails as soon as the spins differ. | |
| C104 | `Walkers.reset` starts a new path without resetting the stored determinants: the first phaseless step of every later path compares with the end of the path before, so its weight is multiplied by a number from that path. With complex determinants the cosine of the constraint is taken of the wrong ratio. | `Grand.phNext_eq`, `Grand.later_path_differs` |
| C105 | `PlaneWave` with `low_rank` sets free projection to the phaseless step (planewave.py 65): a run with `free_projection` silently applies the constraint. | `LowRank.low_rank_free` |
| C105 | The low-rank free step, which nothing calls, updates the stack twice per slice and could not finish a path. | `LowRank.free_low_rank_none` |
| C105 | `Walkers.reset` does not reset overlap and Green's function of a low-rank stack: the first step of every later path takes its force bias and its weight factor from the end of the path before. | `LowRank.low_rank_reset`, `LowRank.low_rank_second` |
| C105 | The truncation counts the entries of the left factor above the threshold and keeps that many first rows (stack.py 345, 366-368, 422, 429): right only if the orbitals are sorted by falling occupation, as plane waves are. With another order the large entries are cut: overlap 2 instead of 4. | `LowRank.low_rank_order` |
| C106 | The coupling is `+ g n (b + b†)` here and `- g n (b + b†)` in the Monte Carlo code (`HubbardHolstein`): the displacements printed as a reference have the opposite sign. | `BoseCI.displacement_negative`, `BoseCI.displacement_monte_carlo` |
| C106 | The electron matrix is a real `csr_matrix`: complex hopping (twisted boundary conditions) loses its imaginary part, with only a warning; lowest energy -1 instead of -sqrt 2. | `BoseCI.complex_dropped` |
| C106 | `eigsh` with `k=3` refuses three or fewer basis states, e.g. one electron on one site with up to two phonons. | `BoseCI.refused`, `BoseCI.returns` |
| C107 | `self_consistant` compares the new density with the previous result, not with the mixed density the orbitals were made from (uhf.py 134, 148-153): with alpha above 1/2 on two sites without hopping both electrons end on one site and this is accepted, with energy U, although the energy is 0 if either moves. | `Uhf.not_self_consistent` |
| C107 | `checkerboard` always takes the coordinates of a lattice of width four (uhf.py 200): on any other width neighbouring sites get the same spin. | `Uhf.checkerboard_width_wrong` |
| C107 | `checkerboard` ignores the numbers of electrons: below half filling it is an index error. | `Uhf.checkerboard_filling_wrong`, `Uhf.checkerboard_doped` |
| C108 | `kinetic_importance_sampling` passes `bt2`, the exponentials of the hopping, to `kinetic_kspace`, which expects `btk` (hubbard.py 159): with `ffts` every step raises. Free projection, multi-determinant trials and the continuous propagators ignore the option. | `Fft.ffts_raises` |
| C108 | `fft_wavefunction` reads the orbitals with rows of `ny` sites, the lattice has rows of `nx`; the energies know no twist and no open boundary. With the right argument the step would be wrong for rectangles, twists and open boundaries. | `Fft.kspace_rect_wrong`, `Fft.kspace_twist_wrong`, `Fft.kspace_iff` |
| C109 | `fcidump` writes only elements above the diagonal of the first spin's hopping: pinning fields are lost and the energy from the file lacks the energy of the spins in the fields. | `HubDump.pinning_lost` |
| C109 | With `ktwist`, even zero, numbers are written as `( re,  im)`, which `read_fcidump` cannot read. | `HubDump.twist_unreadable` |
| C109 | `fcidump(to_string=True)` prints the text and returns None, the default returns it: the opposite of the documentation. | `HubDump.to_string_wrong` |
| C109 | `pinning_fields` uses `kinetic_pinning_alt`: periodic along y, open along x, field `t/10` on the column `x = 0`, where its documentation (and `kinetic_pinning`) says periodic along x, open along y, `t/4` on both edges; `xpbc`, `ypbc` and `ktwist` are ignored, and a single row raises an index error. | `HubDump.alt_spec`, `HubDump.pinning_documented_wrong`, `HubDump.pinning_ignores`, `HubDump.pinning_row` |
| C110 | `write_fcidump_kpoint(cplx=False)` tests `len(numpy.where(...)) > 0`, the number of axes: it exits for every Hamiltonian, real ones too. | `KPoint.real_exits` |
| C110 | `get_kpoint_chol` does not split the rows `nmo*nmo*nchol` into a matrix, `write_fcidump_kpoint` indexes the product of two such rows: what is read cannot be written. | `KPoint.read_not_writable` |
| C110 | For a momentum transfer that is not stored, `get_kpoint_chol` returns the conjugate of the opposite one without moving the k-points and exchanging the orbitals of a pair: the integrals change, and exchanging electrons changes them again. | `KPoint.missing_wrong`, `KPoint.missing_right_iff` |
| C111 | Free projection records no fields, so the back-propagation estimator never adds anything in such a run, although `print_step` and `update` take `free_projection`. | `BackProp.free_never` |
| C111 | A walker with a recorded cosine of zero (every walker killed by the constraint in the window) turns the fully restored estimates of the whole population into nan: zero weight times one over zero. | `BackProp.kill_nan`, `BackProp.total_none` |
| C111 | `update_weight_local_energy` records `exp(-dt/2 Im(...))`, a real number, in place of a phase: restored weights stay nonnegative, and the factor has modulus one only if the local energies are real. | `BackProp.local_no_phase`, `BackProp.local_modulus` |
| C111 | The Hubbard model with continuous fields is back-propagated with the matrices of the discrete fields, indexed by the integer part of the field: all fields between -1 and 1 give the same matrix, a field of 2 or more raises. | `BackProp.hubbard_same`, `BackProp.hubbard_differ`, `BackProp.hubbard_raises` |
| C112 | `average_rdm` divides the standard deviation of the blocks kept by the square root of the number of all blocks: the error is too small by `sqrt((n-skip)/n)` (`skip` is 1 by default). | `Stats.rdm_error`, `Stats.rdm_error_small`, `Stats.rdm_error_average` |
| C112 | `analyse_one_body` takes `skip` and does not use it: its value is not the contraction of the density matrix that `average_rdm` gives with the same arguments. | `Stats.one_body_skip`, `Stats.one_body_differs` |
| C112 | `average_tau` reports standard deviations as errors of the weight and the numerator (no division by `sqrt(n)`). | `Stats.tau_weight_error` |
| C112 | `average_fp` divides the covariance by the number of iterations in place of that of runs: the error is nan for two runs of one iteration, and not zero for a ratio without fluctuations. | `Stats.fp_error_nan`, `Stats.fp_error_wrong` |
| C113 | `analyse_estimates` raises if the files have two different sets of parameters: `reblock_mixed` assigns an array with one value, for the last group only, to a column with one row for each group. | `Stats.estimates_several` |
| C113 | `analyse_estimates` raises in free projection (`reblock_free_projection` takes one argument, two are passed). | `Stats.estimates_free` |
| C113 | `set_info` does not look at the hopping, the twist or the boundary conditions: runs of different Hamiltonians are averaged as one. | `Stats.setInfo_blind`, `Stats.hopping_pooled` |
| C113 | The columns of the last file are the grouping columns of all: rows of a file that lacks one of them are dropped without notice. | `Stats.rows_lost` |
| C113 | `analyse_back_prop` asks for the data set `energies`, which the estimator writes as `energies_<n>`, sorts by a column `tau_bp` that `set_info` never adds (it looks for `estimates` in place of `estimators`), and leaves out one line whatever the start time (`min` for `max`). | `Stats.bp_no_energies`, `Stats.bp_raises`, `Stats.bp_start` |
| C114 | `find_chem_pot` never updates the smallest residual, returns nothing if the last window has no root, and fails with an unbound name for `order + 1` points or fewer. | `Stats.chem_not_min`, `Stats.chem_last`, `Stats.chem_few` |
| C115 | With `stochastic_ri` a run fails: `local_energy_generic_cholesky_opt_stochastic` takes the one array of both spins for a pair of arrays, and with `control_variate` the walker hands over no array at all and `system.rchol_vecs` does not exist. | `LocalOpts.stoch_fails`, `LocalOpts.runEnergy_stochastic` |
| C115 | `control_variate` alone fails at the first estimate: the walker does not hand over the half-rotated vectors. | `LocalOpts.runEnergy_control` |
| C115 | `pno` fails in free projection (no factors handed over); with several determinants `half_rotate` drops `_eri` after the first one and cannot write the second row; `control_variate` with several determinants has no Green's function to start from. | `LocalOpts.runEnergy_pno_free`, `LocalOpts.setupTrial_many` |
| C116 | With `pno` the reference energy is that of the walker's starting determinant while the terms subtracted are those of the trial orbitals: with another start (`spin_proj`, an initial determinant from file) or orbitals that are not orthonormal, all energies are shifted by a constant. | `LocalOpts.runEnergy_pno`, `LocalOpts.runEnergy_pno_wrong` |
| C117 | With a twist `compute_real_transformation` and `eri_8` run without complaint, but `H1` between the two orbitals of a pair is imaginary, so no real Hamiltonian belongs to the integrals. | `UEG.kinetic_twist`, `UEG.twist_not_real` |
| C118 | The file of `UEG.write_integrals` holds density operators that are not symmetric. `Generic` multiplies vectors without conjugate or transposition, so a run that reads the file loses the exchange energy of all plane-wave determinants. The option's value is ignored: the file is always `hamil.h5`. | `UEG.file_generic`, `UEG.file_wrong` |
| C119 | Charge decomposition of a Hubbard-Holstein run: the scalar factors go into weight and stored overlap, and the kinetic step that follows recomputes the overlap without them, so they drop out. The step projects with `U'`, `exp(-dt U') = 2 - exp(dt U)`, and not with `U`. | `HolStep.charge_step`, `HolStep.charge_other` |
| C119 | With `sorella` the electron step applies neither hopping nor the coupling to the phonons: every determinant is only multiplied row by row. | `HolStep.sorella_rows` |
| C119 | `MultiCoherentWalker.update_overlap` does not conjugate the coefficients of the trial, `calc_otrial` does. With complex coefficients the stored overlap is wrong from the second site of a sweep on, whatever fields are drawn. | `HolStep.complex_overlap` |
| C122 | Charge decomposition of a Hubbard run with an attractive interaction: steps project with `U'`, `exp(-dt U') = 2 - exp(dt U)`, weaker than `U`; an additional time step error of first order. The spin decomposition has no real `gamma` here and is not refused (`numpy.arccosh` returns nan). | `HubRun.effU_ne`, `HubRun.charge_steps`, `HubRun.no_spin_gamma` |
| C123 | `gab_spin` (and `gab_mod`) returns the transpose of the density matrix, so `spin_proj` diagonalises its complex conjugate: for complex trials the natural orbitals are conjugated, and the initial walker can be orthogonal to the trial (overlap zero, e.g. for one current-carrying orbital). | `SpinProj.natural_overlap`, `SpinProj.natural_conjugate` |
| C123 | `gab_spin` reads `GB`, which is not bound without down electrons: `spin_proj` and the construction of every single-determinant `MultiSlater` trial raise for fully polarised systems. | `SpinProj.polarised` |
| C123 | `spin_proj` with the discrete spin decomposition (the default of Hubbard runs): walkers lose their spin in the first step. `init_walker` is ignored unless `spin_proj` is set (by reading). | `SpinProj.spin_decomposition_mixes` |
| C124 | The restart file holds weight, phase, overlap and determinant of a walker but not `log_shift` (nor `detR_shift`): with `use_log_shift` the overlap of a restarted walker is wrong by the factor of the shift, which enters the weight in the first step. | `HubRun.restart_shift` |
| C125 | Walkers of the GHF code that mix the spins (`initial_wavefunction` read from a file, which the comment allows): `two_body` and `kinetic_ghf` change only the up rows of the first `nup` columns and the down rows of the others, while the ratio assumes that all columns change. | `Ghf.mixed_walker` |
| C125 | `gab_multi_ghf` and `gab_multi_det_full` return `B (A^H B)^-1 A^H`, the transpose of what `local_energy_hubbard_ghf` expects and of what the walkers store: wrong energies for complex hopping. | `Ghf.gab_energy`, `Ghf.gab_energy_fails` |
| C125 | Read, not proved: `MultiGHFWalker` cannot be constructed or used (`scipy` and `pauxy` are not imported, `local_energy_ghf` does not exist); `kinetic_importance_sampling` passes `trial` where `inverse_overlap` expects the determinants; `mixed.local_energy` and `update_ghf` of back propagation call `local_energy_ghf` and `construct_multi_ghf_gab`, which do not exist; `gab_multi_ghf_full` calls an undefined function; `gab_multi_det` allocates arrays of wrong shapes; `construct_propagator_matrix_ghf` reads `system.auxf`, which Hubbard systems do not have; `bt2` of both spins is made from `T[0]`. | |
| C126 | `FreeElectron` with `read_in` in Fortran format takes a column for an up orbital only if *all* its up amplitudes are nonzero: an up orbital with a node is taken for a down orbital, and the assignment raises, or for two up and no down electrons numpy repeats the other orbital. | `TrialFile.fortran_node`, `TrialFile.fortran_repeat` |
| C126 | `read_qmcpack_wfn` skips nine lines, but the format of `dump_qmcpack_trial_wfn` has eight before the orbitals: the first row is lost and reading raises. (`dump_qmcpack_trial_wfn` itself raises in this version, since `write_qmcpack_wfn` is defined twice in `io.py` with different arguments.) | `TrialFile.dump_unreadable` |
| C126 | `HartreeFock` with `excitation` and UHF orbitals assigns an array of shape `(2, nbasis)` to a column and raises. | `TrialFile.excite_uhf` |
| C126 | Read, not proved: `write_phfmol_wavefunction` raises for UHF determinants (two-dimensional padding of a three-dimensional array); `MultiDeterminant.from_ascii` uses the undefined name `nbasis`. | |
| C127 | Back propagation with `evaluate_energy` calls `local_energy(..., opt=False, two_rdm=...)`; `local_energy` of `mixed.py` has no argument `opt`, so it raises for every system (the same call is in `multi_determinant.py` 90). | `HubBack.energies_raise` |
| C127 | `restore_weights` with the discrete propagators: `push` never records the weight factors, so `get_wfac` returns products of zeros, and weights become 0/0 = nan (`full`) or 0. | `HubBack.restore_weights` |
| C129 | The driver of thermal runs counts `int(round(beta/dt))` slices, trial and stacks `int(beta/dt)`: whenever they differ (`beta = 0.3`, `dt = 0.1`) the last slice of the first path raises an IndexError. | `Slices.run_completes`, `Slices.three_tenths_raises` |
| C129 | `num_bins = int(beta/(stack_size*dt))` can be one less than the number of stacks although the slices are right: density matrix and chemical potential of the trial silently belong to a higher temperature (`beta = 0.3`, `dt = 0.02`, stacks of five: 0.2), or to no slice at all. | `Slices.bins_case`, `Slices.bins_none` |
| C129 | Windows of back propagation and of correlation functions and the equilibration lose a step for the same reason (`tau_bp = 0.6`, `dt = 0.05`: 11 steps). | `Slices.window_case` |
| C129 | `scaled_temperature` reads the key `dt` directly: the documented `timestep` raises a KeyError; for all systems but the electron gas the conversion returns None; the number of equilibration steps is computed before the conversion. | `Slices.times_raise`, `Slices.reduced_case` |
| C130 | Integers and truth values of numpy, lists and tuples are left out of the metadata without notice; the results of a Hubbard run with `U` a numpy integer are in no group of the analysis. Of complex numbers only the real part is written. | `Meta.numpy_lost`, `Meta.numpy_run_lost`, `Meta.complex_real` |
| C130 | `serialise` asks for `v[0]` of every one-dimensional array: an empty one anywhere in the objects of the run stops it. | `Meta.raises_iff`, `Meta.empty_array` |
| C132 | The default single-site update of the discrete Hubbard propagator applies the constraint in the middle of a sweep, with the factor `exp(-dt*U/2)` of the sites not yet visited missing: at half filling, where no whole sweep has a negative overlap, fields are excluded all the same (two sites, one field of the first site never drawn). | `HubHalf.single_site_cut` |

## Axioms

Generated with `#print axioms` for every theorem named in `MANIFEST.json`.

* no axioms: `Input.getInputValue_key`, `Setup.walkersPerRank_pos`, `Setup.seeds_given`.
* `propext`: `Stack.updateStack_zero`, `Setup.rotCholRows_spec`, `Ekt.generic_fails`, `TrialRho.generic_raises`.
* `Quot.sound`, `propext`: `Comb.popControl_stops`, `Comb.popControl_single`, `Input.getInputValue_alias`, `Input.getInputValue_default`, `Input.get_eq_some_iff`, `Input.mergeDicts_fails_iff`, `Input.mergeDicts_paths`, `Input.getFromDict_leaf`, `Input.getFromDict_node`, `Input.getFromDict_missing`, `Setup.totalWalkers_bounds`, `Setup.columns_partition`, `Lattice.decode_encode`, `Lattice.kpoints_length`, `BoseCI.sectors_none`, `Uhf.checkerboard_width_wrong`, `Uhf.checkerboard_filling_wrong`, `Fft.kpoints_eq`, `TrialFile.excite_uhf`.
* `Classical.choice`, `Quot.sound`, `propext`: `Comb.popControl_rescales`, `Comb.combSelect_proportional`, `Comb.comb_realises_counts_iff_partial`, `Comb.comb_loses_copies`, `Comb.comb_sends_match_receives`, `Comb.comb_exchange_order_independent`, `Comb.comb_exchange_effect`, `PairBranch.pairBranch_population`, `PairBranch.pairBranch_pairs`, `PairBranch.pairBranch_conserves_weight`, `PairBranch.pairBranch_sends_match_receives`, `PairBranch.pairBranch_exchange_completes`, `PairBranch.pairBranch_unpaired_in_range`, `PairBranch.pairBranch_unbiased`, `Comb.combSelect_unbiased`, `Buffer.buffer_round_trip`, `Buffer.buffer_round_trip_same_types`, `FieldHistory.history_exchange`, `FieldHistory.history_exchange_partial`, `FieldHistory.history_exchange_loses_factor`, `Restart.restart_round_trip`, `Restart.restart_datasets_owned_once`, `Restart.restart_missing_kept`, `FieldHistory.history_refines`, `FieldHistory.history_window`, `FieldHistory.push_fields`, `FieldHistory.bp_windows_partial`, `FieldHistory.bp_windows_overrun`, `FieldHistory.bp_windows_dead_walker`, `Slater.backPropagate_adjoint`, `Slater.backPropagate_no_ortho`, `Slater.forwardPropagate_gauge`, `Hirsch.bpMatrix_spin`, `Hirsch.bpMatrix_charge_ne`, `Slater.forwardStep_ne`, `Stack.stack_update_product`, `Stack.stack_update_overrun`, `Stack.stack_make_rejects`, `Stack.stack_full_rank`, `Stack.updateStack_nearest`, `Thermal.gfStrat_eq`, `Thermal.gfQR_eq`, `Thermal.gfSVD_eq`, `Thermal.gfOfA_eq`, `Thermal.oneRdmStable_eq`, `Thermal.gfLeftRight_eq`, `Thermal.invGreensQR_eq`, `Thermal.invGreens_partial`, `Thermal.invGreens_wrong`, `Thermal.thermal_ratio`, `Thermal.thermal_site_update`, `Thermal.thermal_path`, `Slater.shermanMorrison_eq`, `Slater.updateInverseOverlap_eq`, `Slater.gab_facts`, `Slater.gab_mix`, `Slater.greensFunction_eq`, `Slater.greensFunction_projector`, `Slater.reortho_facts`, `Slater.reortho_partial`, `Slater.reortho_shift`, `Slater.orthogonalise_free`, `Hirsch.free_run`, `Slater.greensFunction_det`, `Slater.calcOtrial_eq`, `Slater.calcOverlap_eq`, `Slater.overlap_routines_partial`, `Slater.calcOtrial_shift`, `Slater.calcOverlap_no_down`, `Slater.calcOverlap_unequal`, `Chol.modifiedCholesky_spec`, `Chol.modifiedCholesky_exists`, `Chol.modifiedCholesky_limit`, `Slater.exponential_agree`, `Slater.forwardStep_eq`, `Energy.localGeneric_eq_chol`, `Energy.localCholOpt_eq`, `Energy.localOpt_eq`, `Energy.localHubbard_eq`, `Energy.avg_stochExx`, `Energy.avg_localStoch`, `Energy.avg_localStochControl`, `Energy.localStochControl_exact`, `Energy.avg_kineticStoch`, `Hirsch.hs_spin`, `Hirsch.hs_charge`, `Hirsch.hs_all_sites`, `Hirsch.exists_chargeGamma`, `Hirsch.thermal_hs`, `Hirsch.site_sampling`, `Hirsch.singleSite_overlap`, `Hirsch.singleSite_overlap_partial`, `Hirsch.constrainedStep_weight_nonneg`, `Hirsch.constrained_weight_partial`, `Hirsch.chargeWfac_ne_one`, `Hirsch.charge_weight_wrong`, `Hirsch.fbLoop_factor`, `Hirsch.fbLoop_fields`, `Hirsch.force_bias_partial`, `Hirsch.force_bias_wrong`, `Hirsch.direct_weight`, `Weights.updateHybrid_bound`, `Weights.runHybrid_bound`, `Weights.boundHybrid_within`, `Weights.boundHybrid_of_within`, `Weights.bound_attained`, `Weights.updateHybrid_bound_changed`, `Weights.bound_fails_when_shift_changes`, `Weights.no_bound_before_shift`, `Weights.updateHybrid_keeps`, `Weights.updateHybrid_keeps_cos`, `Weights.updateLocal_weight_at_shift`, `Weights.updateLocal_keeps_iff`, `Weights.updateLocal_drift`, `Weights.updateLocal_nonneg`, `Mixed.blockRow_eproj`, `Mixed.blockRow_eproj_free`, `Mixed.blockRow_eproj_thermal`, `Mixed.blockRow_averages`, `Mixed.blockRow_averages_free`, `Mixed.blockRow_nav`, `Mixed.rows_independent_of_ranks`, `Mixed.blockRow_eproj_average`, `Mixed.blockRow_no_evaluation`, `Mixed.run_eq`, `Mixed.loop_blocks`, `Mixed.run_quiet_eq`, `Mixed.run_quiet_leaks`, `Mixed.run_quiet_depends`, `Mixed.blockRow_bracket`, `Mixed.blockRow_bracket_thermal`, `Output.search_spec`, `Output.search_overwrite`, `Output.search_not_exists`, `Output.nextIndex_dotted`, `Output.search_dotted_never_ends`, `Output.search_dotted_error`, `Output.extract_pushAll`, `Output.padded_lt`, `Output.padded_overflow`, `Output.pushAll_nav`, `Energy.varOrthoDet_re_partial`, `Energy.varOrthoDet_real_partial`, `Energy.varOrthoDet_complex`, `Energy.contractOrtho_partial`, `Energy.contractNonOrtho_partial`, `Energy.contractOrtho_complex`, `Energy.localHubbard_expectation`, `Energy.localHubbard_symmetric_missing`, `Energy.localHubbard_symmetric_wrong`, `Files.sparse_roundtrip`, `Files.sparse_error`, `Files.sparse_roundtrip_real`, `Files.chunks_roundtrip`, `Files.fcidump_roundtrip`, `Files.four_exists_unique`, `Files.eight_exists_unique`, `Files.nomsd_single_partial`, `Files.nomsd_rhf`, `Files.nomsd_uhf`, `Files.cut_close`, `Files.nomsd_two_wrong`, `Files.nomsd_unequal_refused`, `Files.nomsd_unequal_error`, `Files.nomsd_no_beta`, `Files.phmsd_roundtrip`, `Files.phmsd_unequal_refused`, `Setup.seeds_nodup`, `Driver.schedule`, `Driver.schedule_periods`, `Driver.moves`, `Driver.flow`, `Driver.thermal_flow`, `Driver.capped`, `Driver.thermal_schedule`, `Driver.thermal_capped`, `Driver.thermal_reset`, `Driver.run_completes`, `Setup.halfRotateAll_entry`, `UEG.lookup_exact`, `UEG.lookup_untwisted`, `UEG.setupOk_untwisted`, `UEG.mem_basis`, `UEG.mapIx_inj`, `Lattice.encode_decode`, `Lattice.kinetic_hermitian`, `Lattice.chain_eigen`, `Lattice.rect_eigen`, `Lattice.table_eigen_partial`, `Lattice.wave_orth`, `Lattice.nodup_kpoints`, `Lattice.kinetic_translate`, `Lattice.kinetic_translate_chain`, `Lattice.column_wrong`, `Lattice.single_site_wrong`, `Setup.mem_ballsInBoxes`, `Setup.nodup_ballsInBoxes`, `Setup.enumerate_spec`, `Setup.enumerate_nonempty`, `CI.hmatel_parts`, `CI.hmatel`, `CI.ham_transpose`, `CI.one_body_matel`, `CI.mem_fciDets`, `CI.nodup_fciDets`, `CI.fciDets_lex`, `CI.fci_matrix`, `CI.spin_flip_wrong`, `CI.transposed`, `Analysis.blockMeans_mean`, `Analysis.blockMeans_constant`, `Analysis.reblock_spec`, `Analysis.reblock_constant_segment`, `Analysis.reblock_constant`, `Analysis.averageRatio_mean`, `Analysis.averageRatio_error`, `Analysis.nextPowTwo_spec`, `Analysis.autoWindow_partial`, `Analysis.autoWindow_none_met`, `Analysis.autoWindow_all_met`, `Analysis.acf_eq`, `Analysis.acfNorm_eq`, `Analysis.autocorrTime_eq`, `Setup.findChemPot_partial`, `Setup.fitLoop_best_none`, `Setup.findChemPot_wrong`, `Setup.findChemPot_last_window`, `Setup.thresholdDets_iff`, `Setup.thresholdDets_sorted_partial`, `Setup.thresholdDets_unsorted`, `ChemPot.finds_sound`, `ChemPot.finds_partial`, `ChemPot.finds_unique`, `ChemPot.finds_fermi_partial`, `ChemPot.navAt_fermi`, `ChemPot.finds_exact_end`, `Setup.uhfResult_spec`, `Setup.uhfResult_exists`, `Setup.uhfResult_dens`, `Restart.restart_same_file_loses`, `Restart.restart_other_file_partial`, `Stack.stack_reset_partial`, `Stack.stack_reset_mid_bin`, `Thermal.woodburyG_eq`, `Thermal.woodburyOvlp_eq`, `Thermal.adjustNstblz_eq`, `Thermal.thermal_site_sampling`, `Hirsch.thermal_site_partial`, `Hirsch.thermal_charge_wrong`, `Hirsch.thermalSlice_mu`, `Weights.prod_importances`, `Weights.weight_run_le`, `Weights.updateHybrid_pushed`, `Weights.integral_density`, `Weights.integral_one_field`, `Weights.force_bias_unbiased`, `Weights.rescaled_force_bias_unbiased`, `Weights.force_bias_unbiased_real`, `Weights.rescale_spec`, `Step.force_bias_polynomial`, `Energy.oneBody_eq`, `Energy.twoBody_eq`, `Energy.localChol_expectation`, `Energy.varMultiDet_rayleigh`, `UEG.hamiltonian_eq`, `UEG.eri4_eq`, `UEG.hijkl_swap`, `UEG.modOneBody_eq`, `UEG.zero_mem_qvecs`, `UEG.localUEG_partial`, `UEG.localUEG_thermal`, `UEG.localUEG_trial`, `UEG.localUEG_more_down`, `UEG.fock_partial`, `UEG.fock_eq`, `UEG.fockExact_derivative`, `UEG.fock_wrong`, `Driver.shift_used`, `Driver.shift_hybrid_partial`, `Driver.shift_local_wrong`, `Driver.cap_share_partial`, `Driver.cap_share`, `Driver.cap_uniform`, `Driver.cap_escape`, `Driver.cap_acts`, `Files.nothing_lost_partial`, `Files.full_real_refused`, `Files.nothing_lost_wrong`, `Files.eri_imag_lost`, `Files.hcore_imag_lost`, `Files.paren_unreadable`, `Step.generic_first_order`, `Step.charge_first_order`, `Step.planeWave_first_order`, `Step.spin_first_order_partial`, `Step.spin_exact`, `Step.spin_wrong`, `Step.generic_exact`, `Step.hermitian_wrong`, `Step.free_first_order`, `Step.FirstOrder.unique`, `Step.avg_step`, `Step.generic_bounded`, `Step.generic_bounded_fast`, `Step.forceBias_fast`, `Step.generic_trial`, `Step.generic_limit`, `Step.charge_bounded`, `Step.planeWave_bounded`, `Step.spin_bounded_partial`, `Step.spin_limit`, `Step.spin_unbounded`, `Step.hybrid_linear`, `Step.HybridLimit.bounded_iff`, `Step.HybridLimit.unique`, `Step.generic_importance`, `Step.charge_importance`, `Step.importance_first_order`, `Step.importance_eq`, `Step.bias_unbiased`, `Step.biased_first_order`, `Step.hubbardElem_local`, `Step.generic_converges`, `Step.charge_converges`, `Step.planeWave_converges`, `Step.spin_converges_partial`, `Step.generic_projects`, `Step.charge_projects`, `Step.planeWave_projects`, `Step.spin_projects_partial`, `Step.generic_run`, `Step.charge_run`, `Step.planeWave_run`, `Step.spin_run_partial`, `Step.signal_localChol`, `Step.signal_localHubbard`, `Step.free_converges`, `Step.lowest_exists`, `Step.hamOp_elem`, `Step.hubOp_elem`, `Step.coulombOp_elem`, `Grand.hub_averages`, `Grand.hub_averages_partial`, `Grand.symmetric_wrong`, `Grand.ueg_averages`, `Grand.averages`, `Grand.runMean_eq`, `Grand.avgPath_eq`, `Grand.avgPathB_eq`, `Grand.runMeanB_eq`, `Grand.hub_averages_bias`, `Grand.freeStep_ok`, `Grand.gibbs_pos`, `Grand.wick_hub`, `Grand.wick_coulomb`, `Grand.wick_number`, `Grand.sector_mul`, `Grand.tr_sector`, `Grand.disc_averages`, `Grand.discMean_eq`, `Grand.discPath_eq`, `Grand.disc_converges`, `Grand.avg_fields`, `Grand.disc_gen`, `Grand.lie_product`, `Grand.stepWith_ok`, `Grand.dimer_run`, `MultiDet.calcOverlap_eq`, `MultiDet.overlapDirect_eq`, `MultiDet.calcOtrial_eq`, `MultiDet.greens_overlap_error`, `MultiDet.greens_overlap`, `MultiDet.contract_partial`, `MultiDet.localEnergy_partial`, `MultiDet.zero_variance`, `MultiDet.split_energy_partial`, `MultiDet.energy_start`, `MultiDet.energy_wrong`, `MultiDet.generic_importance`, `MultiDet.hybrid_linear`, `MultiDet.force_bias_skips`, `MultiDet.generic_bounded_partial`, `MultiDet.bias_unbounded`, `MultiDet.reortho_facts`, `MultiDet.generic_projects`, `MultiDet.charge_projects`, `CI.Bridge.hamOp_fock`, `CI.Bridge.hmatel_hamil`, `CI.Bridge.recompute_matrix`, `CI.Bridge.recompute_variational`, `CI.Bridge.reported_energy`, `CI.Bridge.reported_recomputed`, `CI.Bridge.recompute_transposed`, `CI.Bridge.recompute_complex`, `CI.Bridge.recompute_unsorted`, `CI.Bridge.fci_complete`, `CI.Bridge.fci_eigenstate`, `CI.Bridge.fci_zero_variance`, `CI.Bridge.fci_projects`, `CI.Bridge.fci_trial_projects`, `CI.Bridge.hub_ham`, `CI.Bridge.hub_zero_variance`, `CI.Bridge.hub_projects`, `CI.Nonortho.recompute_variational_partial`, `CI.Nonortho.hub_recompute_partial`, `CI.Nonortho.matrices_singular`, `CI.Nonortho.recompute_small_overlap`, `Freeze.freeze_local_energy`, `Freeze.freeze_hamil`, `Freeze.freeze_superposition`, `Freeze.fill_ovl`, `Freeze.cas_electrons`, `Freeze.freeze_complex`, `AoChol.shellOf_spec`, `AoChol.column_eq`, `AoChol.diag_eq`, `AoChol.chunked_eq`, `AoChol.chunked_error`, `AoChol.chunked_exists`, `AoChol.outcore_rows`, `AoChol.outcore_empty`, `OrthoAO.ortho_ao`, `OrthoAO.ortho_ovl`, `OrthoAO.ortho_energy`, `OrthoAO.aoEnergy_near`, `OrthoAO.rohf_fails`, `OrthoAO.dump_energy_partial`, `CasWfn.weight_below`, `CasWfn.weight_next`, `CasWfn.dominant`, `CasWfn.heaviest`, `CasWfn.lines_partial`, `CasWfn.default_norb_fails`, `CasWfn.open_shell_fails`, `CasWfn.open_shell_electrons`, `PWFFT.localPW_eq`, `PWFFT.hijkl_eq`, `PWFFT.waves_energy`, `PWFFT.exists_pv`, `PWFFT.lookup_eq`, `PWFFT.constructs_iff`, `PWFFT.trial_lowest`, `PWFFT.convolve_eq`, `PWFFT.convolveValid_eq`, `PWFFT.large_box_wrong`, `PWFFT.twoBody_eq`, `PWFFT.kinetic_eq`, `PWFFT.forceBias_eq`, `PWFFT.hamiltonian_eq`, `PWFFT.free_eq`, `PWFFT.free_first_order`, `PWFFT.free_current`, `PWFFT.phaseless_eq`, `PWFFT.phaseless_general`, `PWFFT.bound_zero_differs`, `Itcf.code_partial`, `Itcf.down_wrong`, `Itcf.later_wrong`, `Itcf.unstable_raises`, `Itcf.stable_correct`, `Itcf.unstableRepaired_correct`, `Itcf.greater_eq`, `Itcf.lesser_eq`, `Itcf.estimate_perm`, `Itcf.estimate_const`, `Itcf.wfac_restores`, `Holstein.gradient_eq`, `Holstein.laplacian_eq`, `Holstein.localEnergy_eq`, `Holstein.gradientP_eq`, `Holstein.laplacianP_eq`, `Holstein.localEnergyP_eq`, `Holstein.several_laplacian`, `Holstein.several_gradient_partial`, `Holstein.several_energy`, `Holstein.several_one`, `Holstein.drift_wrong`, `Holstein.walkerEnergy_eq_partial`, `Holstein.stale_wrong`, `Holstein.meanAfter_eq`, `Holstein.evolve_zero`, `Holstein.evolve_deriv`, `Holstein.meanAfter_limit`, `Holstein.metropolis_invariant`, `Holstein.sorella_split`, `Holstein.sorella_wrong`, `Holstein.energySeveral_eq_partial`, `Holstein.energyPermuted_eq_partial`, `Holstein.permuted_wrong`, `LangFirsov.objective_eq_partial`, `LangFirsov.objective_diff`, `LangFirsov.reported_eq_partial`, `LangFirsov.reported_diff`, `LangFirsov.gammaLF_decouples`, `LangFirsov.transformed_inner`, `LangFirsov.momentum_eq_partial`, `LangFirsov.momentum_asserts`, `LangFirsov.reported_wrong`, `LangFirsov.diagonal_wrong`, `Ekt.genFock1h_eq`, `Ekt.genFock1p_eq`, `Ekt.fockOpt_eq_partial`, `Ekt.ueg_fock`, `Ekt.fock1hOpt_diff`, `Ekt.fock1pOpt_diff`, `Ekt.fock1hOpt_wrong`, `Ekt.fock1pOpt_wrong`, `Ekt.readFock_iff`, `Ekt.orthoMod_metric`, `Ekt.roots`, `Ekt.ionisation`, `Ekt.affinity`, `Ekt.ionisation_bound`, `Ekt.affinity_bound`, `Ekt.one_case`, `Convert.dense_real`, `Convert.dense_cplx`, `Convert.read_real8`, `Convert.cholesky_real`, `Convert.convert_real`, `Convert.convert_hermitian`, `Convert.convert_succeeds`, `Convert.small_case`, `Convert.conjugate_missing`, `Convert.hcore_dropped`, `TrialRho.onebody_ensemble`, `TrialRho.onebody_slices`, `TrialRho.onebody_temperature`, `TrialRho.onebody_number`, `TrialRho.onebody_succeeds`, `TrialRho.onebody_raises`, `TrialRho.entropy_eq`, `TrialRho.dimer_case`, `TrialRho.scf_stops`, `TrialRho.mf_trace`, `TrialRho.mf_ensemble`, `TrialRho.mf_number`, `TrialRho.omega_bound`, `TrialRho.hub_min`, `TrialRho.hub_min_paired`, `TrialRho.mf_hubbard`, `TrialRho.mf_free_same`, `TrialRho.site_case`, `TrialRho.unconverged`, `TrialRho.alt_wrong`, `TrialRho.alt_case`, `TrialRho.alpha_one`, `Grand.hub_averages_phaseless`, `Grand.averages_phaseless`, `Grand.phMean_eq`, `Grand.avgPh_eq`, `Grand.phNext_eq`, `Grand.phSecond_eq`, `Grand.later_path_differs`, `Grand.phStep_nonneg`, `LowRank.lowRank_full`, `LowRank.update_exact`, `LowRank.update_truncated`, `LowRank.lowGreen_rows`, `LowRank.exists_qrpr`, `LowRank.exPar_regular`, `LowRank.low_rank_free`, `LowRank.low_rank_reset`, `LowRank.low_rank_second`, `LowRank.free_low_rank_twice`, `LowRank.free_low_rank_none`, `LowRank.low_rank_order`, `BoseCI.mem_perms`, `BoseCI.nodup_perms`, `BoseCI.range_basisOf`, `BoseCI.matrix_element`, `BoseCI.commutator`, `BoseCI.number`, `BoseCI.number_matrix`, `BoseCI.space_default`, `BoseCI.dets_default`, `BoseCI.lowest`, `BoseCI.returns`, `BoseCI.returns_of_three`, `BoseCI.monotone`, `BoseCI.energy_ge`, `BoseCI.bounds`, `BoseCI.converges`, `BoseCI.parts`, `BoseCI.sign_symmetry`, `BoseCI.occupations`, `BoseCI.exists_solver`, `BoseCI.dimer_converges`, `BoseCI.refused`, `BoseCI.displacement_negative`, `BoseCI.displacement_monte_carlo`, `BoseCI.complex_dropped`, `Uhf.aufbau`, `Uhf.determinant`, `Uhf.orbitals_lowest`, `Uhf.self_consistent_partial`, `Uhf.expectation`, `Uhf.variational`, `Uhf.eigh_exists`, `Uhf.free_converges`, `Uhf.apart_converges`, `Uhf.not_self_consistent`, `Uhf.pair_lattice`, `Uhf.checkerboard_trial`, `Uhf.checkerboard_four_partial`, `Uhf.checkerboard_doped`, `Fft.column_lattice`, `Fft.column_chain`, `Fft.column_iff`, `Fft.kspace_square`, `Fft.kspace_iff`, `Fft.ffts_raises`, `Fft.kspace_rect_wrong`, `Fft.kspace_twist_wrong`, `HubDump.alt_spec`, `HubDump.doc_spec`, `HubDump.hopping_hermitian`, `HubDump.pinning_symmetry`, `HubDump.read_text`, `HubDump.read_exact`, `HubDump.energy_diag`, `HubDump.energy_partial`, `HubDump.exSys_exact`, `HubDump.pinning_lost`, `HubDump.twist_unreadable`, `HubDump.to_string_wrong`, `HubDump.pinning_row`, `HubDump.pinning_documented_wrong`, `HubDump.pinning_ignores`, `KPoint.read_write_kpoint`, `KPoint.kEri_block`, `KPoint.paired_exchange`, `KPoint.all_stored`, `KPoint.missing_right_iff`, `KPoint.example_two`, `KPoint.real_exits`, `KPoint.read_not_writable`, `KPoint.missing_wrong`, `BackProp.window_estimate`, `BackProp.part_full`, `BackProp.total_estimate`, `BackProp.update_estimate`, `BackProp.measures_weight`, `BackProp.measures_rdm`, `BackProp.measures_twoRdm`, `BackProp.measures_energy`, `BackProp.avg_window`, `BackProp.average_estimate_partial`, `BackProp.average_contribution_partial`, `BackProp.ratio_estimate_partial`, `BackProp.limit_estimate_partial`, `BackProp.generic_ratio_partial`, `BackProp.generic_energy_partial`, `BackProp.boundary_factor`, `BackProp.ex_hypotheses`, `BackProp.free_never`, `BackProp.kill_nan`, `BackProp.local_no_phase`, `BackProp.local_modulus`, `BackProp.hubbard_same`, `BackProp.hubbard_raises`, `BackProp.hubbard_discrete`, `BackProp.hubbard_differ`, `Stats.sem_unbiased`, `Stats.mean_unbiased`, `Stats.rdm_mean`, `Stats.rdm_error`, `Stats.rdm_error_partial`, `Stats.rdm_error_average`, `Stats.rdm_error_small`, `Stats.split_mean`, `Stats.split_trace`, `Stats.one_body_skip`, `Stats.one_body_differs`, `Stats.correlation_mean`, `Stats.tau_error`, `Stats.tau_columns`, `Stats.tau_weight_error`, `Stats.fp_energy`, `Stats.fp_error_partial`, `Stats.fp_error_nan`, `Stats.fp_error_wrong`, `Stats.energy_group`, `Stats.samples_example`, `Stats.kept_lines`, `Stats.kept_restart`, `Stats.estimates_group`, `Stats.estimates_all`, `Stats.pooled_agree`, `Stats.pooled_dt`, `Stats.pooled_hubbard`, `Stats.setInfo_dt`, `Stats.setInfo_hubbard`, `Stats.setInfo_ueg`, `Stats.groupBy_spec`, `Stats.groupBy_mem`, `Stats.groupBy_keys`, `Stats.estimates_several`, `Stats.estimates_free`, `Stats.setInfo_blind`, `Stats.hopping_pooled`, `Stats.rows_lost`, `Stats.bp_start`, `Stats.no_tau_bp`, `Stats.bp_raises`, `Stats.bp_no_energies`, `Stats.exRun_key`, `Stats.two_files`, `Stats.windows_spec`, `Stats.chem_root_partial`, `Stats.chem_two_partial`, `Stats.chem_one_partial`, `Stats.chem_not_min`, `Stats.chem_last`, `Stats.chem_few`, `LocalOpts.runEnergy_full`, `LocalOpts.localEnergy_full`, `LocalOpts.setupTrial_one`, `LocalOpts.optEri_eq`, `LocalOpts.reshape4_ravel4`, `LocalOpts.block_a`, `LocalOpts.block_b`, `LocalOpts.stoch_fails`, `LocalOpts.runEnergy_stochastic`, `LocalOpts.runEnergy_control`, `LocalOpts.runEnergy_pno_needs`, `LocalOpts.runEnergy_pno_free`, `LocalOpts.setupTrial_many`, `LocalOpts.runEnergy_pno`, `LocalOpts.runEnergy_pno_start`, `LocalOpts.runEnergy_pno_wrong`, `LocalOpts.truncate_error`, `LocalOpts.e2Half_pairs`, `LocalOpts.exists_svdSpec`, `UEG.realTrans_eq`, `UEG.realTrans_unitary`, `UEG.realTrans_real`, `UEG.eri8c_real`, `UEG.eri8_symmetric`, `UEG.eri8_hamiltonian`, `UEG.kinetic_twist`, `UEG.twist_not_real`, `UEG.file_roundtrip`, `UEG.file_coulomb`, `UEG.file_generic`, `UEG.file_wrong`, `UEG.file_case`, `HolStep.spin_step`, `HolStep.positive_step`, `HolStep.electron_average`, `HolStep.charge_step`, `HolStep.charge_other`, `HolStep.sorella_rows`, `HolStep.complex_overlap`, `Fields.strang_limit`, `HubRun.spin_step`, `HubRun.run_average`, `HubRun.run_estimates`, `HubRun.run_tendsto`, `HubRun.sign_free_run`, `HubRun.sign_free_alive`, `HubRun.freeElectron_signFree`, `HubRun.uhf_signFree`, `HubRun.open_chain_free`, `HubRun.ring_free`, `HubRun.open_chain_uhf`, `HubRun.ring_uhf`, `HubRun.chain_case`, `Fields.perron`, `Fields.lowest_pos`, `Fields.hops_open`, `Fields.hops_closed`, `Fields.stoquastic`, `Fields.ground`, `HubRun.branched_average`, `HubRun.population_average`, `HubRun.population_estimates`, `HubRun.popEnergy_formula`, `HubRun.popEnergy_eq`, `HubRun.pop_tendsto`, `HubRun.calm_eventually`, `HubRun.popExact_of_signFree`, `HubRun.pop_open_free`, `HubRun.pop_ring_free`, `HubRun.pop_open_uhf`, `HubRun.pop_ring_uhf`, `HubRun.population_case`, `PairBranch.rows`, `HubRun.charge_steps`, `HubRun.effU_spec`, `HubRun.effU_ne`, `HubRun.effU_tendsto`, `HubRun.strang_limit_coupling`, `HubRun.charge_popExact`, `HubRun.charge_open_free`, `HubRun.charge_ring_free`, `HubRun.charge_open_uhf`, `HubRun.charge_ring_uhf`, `HubRun.no_spin_gamma`, `HubRun.charge_case`, `SpinProj.spinSq_wave`, `SpinProj.inner_wave`, `SpinProj.wave_component`, `SpinProj.spinInit_pure`, `SpinProj.run_spinPure`, `SpinProj.hubbard_run_spinPure`, `SpinProj.gen_alike`, `SpinProj.charge_alike`, `SpinProj.planeWave_alike`, `SpinProj.chargePar_alike`, `SpinProj.mixed_contamination`, `SpinProj.exists_parts`, `SpinProj.mixed_projected`, `SpinProj.natural_overlap`, `SpinProj.natural_overlap_real`, `SpinProj.natural_conjugate`, `SpinProj.spin_decomposition_mixes`, `SpinProj.polarised`, `SpinProj.run_case`, `HubRun.restart_energy`, `HubRun.restart_calm`, `HubRun.restart_shift`, `Ghf.overlap_eq`, `Ghf.green_eq`, `Ghf.local_energy`, `Ghf.probs_eq`, `Ghf.Good.site`, `Ghf.good_fresh`, `Ghf.site_average`, `Ghf.sweep_average`, `Ghf.field_average`, `Ghf.step_matrix`, `Ghf.back_propagation`, `Ghf.gab_energy`, `Ghf.full_energy`, `Ghf.gab_energy_fails`, `Ghf.mixed_walker`, `TrialFile.phf_roundtrip`, `TrialFile.hartree_fock_file`, `TrialFile.excite_rhf`, `TrialFile.dump_unreadable`, `TrialFile.fortran_read`, `TrialFile.fortran_node`, `TrialFile.fortran_repeat`, `HubBack.green_path`, `HubBack.share_average`, `HubBack.back_average`, `HubBack.quotient_eq`, `HubBack.back_tendsto`, `HubBack.ground_projector`, `HubBack.reaches_of_signFree`, `HubBack.energy_op`, `HubBack.printed_of_reaches`, `HubBack.open_chain_free`, `HubBack.ring_free`, `HubBack.open_chain_uhf`, `HubBack.ring_uhf`, `HubBack.printed_case`, `HubBack.energies_raise`, `HubBack.restore_weights`, `HubBack.restore_case`, `HubBack.bbranched_average`, `HubBack.bbranched_all`, `HubBack.expect_run`, `HubBack.expect_value`, `HubBack.population_back`, `HubBack.popQuotient_eq`, `HubBack.bcalm_eventually`, `HubBack.popPrinted`, `HubBack.pop_open_free`, `HubBack.pop_ring_free`, `HubBack.pop_open_uhf`, `HubBack.pop_ring_uhf`, `HubBack.population_back_case`, `Slices.fl_near`, `Slices.slices_general`, `Slices.slices_exact`, `Slices.slices_float`, `Slices.bins_float`, `Slices.slices_representable`, `Slices.run_completes`, `Slices.run_temperature`, `Slices.times_reduced`, `Slices.times_raise`, `Slices.three_tenths`, `Slices.three_tenths_raises`, `Slices.one_completes`, `Slices.bins_case`, `Slices.bins_none`, `Slices.window_case`, `Slices.remainder_case`, `Slices.reduced_case`, `Slices.representable_case`, `Meta.param_read_back`, `Meta.complex_real`, `Meta.numpy_lost`, `Meta.nothing_invented`, `Meta.raises_iff`, `Meta.columns_hubbard`, `Meta.numpy_run_lost`, `Meta.window_recorded`, `Meta.meta_case`, `Meta.empty_array`, `HubRun.clear_countable`, `HubRun.paired_step`, `HubRun.paired_run`, `HubRun.lattice_plain`, `HubRun.cols_paired`, `HubRun.realEig_exists`, `HubRun.paired_case`, `HubHalf.free_no_sign`, `HubHalf.direct_not_cut`, `HubHalf.kinetic_not_cut`, `HubHalf.direct_run`, `HubHalf.rect_bipartite`, `HubHalf.chain_bipartite`, `HubHalf.free_trial`, `HubHalf.single_site_cut`, `HubHalf.pair_free`, `HubHalf.pair_runs`, `HubHalf.half_green`, `HubHalf.half_energy`, `HubHalf.run_energy`, `HubHalf.free_energy`, `HubHalf.chain_energy`, `HubHalf.pair_density`, `HubHalf.pair_energy`, `HubRun.paired_free`, `HubRun.paired_energy`, `HubRun.paired_free_energy`, `HubRun.paired_run_energy`, `HubRun.paired_free_case`, `HubHalf.clean_row`, `HubHalf.clean_run`, `HubHalf.half_rows`, `HubHalf.paired_rows`, `HubHalf.free_alive`, `HubHalf.free_unit`, `HubHalf.rows_case`, `HubHalf.spin_alive`, `HubHalf.charge_alive`, `HubHalf.charge_alive_case`, `HubHalf.half_rows_all`, `HubHalf.free_electron_alive`, `HubHalf.alive_case`, `HubHalf.node_met`, `HubHalf.node_excluded`.
