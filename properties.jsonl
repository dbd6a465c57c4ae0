{"id": "C01", "title": "Population control rescales total weight to the target", "statement": "After a population-control call reaches the branching stage, the total absolute weight over all ranks equals the target weight, every weight has been multiplied by the same positive factor, and the pre-rescale weight stays readable as the unscaled weight; when the total is below 1e-8 the run stops instead of dividing.", "quantifier": "every number of ranks, walkers per rank and every vector of real weights", "why_tests_cant": "a test fixes one vector of weights; the claim is an identity over all of them including the degenerate branch", "anchors": ["pauxy/walkers/handler.py: Walkers.pop_control"]}
{"id": "C02", "title": "Comb selection hands out exactly the target number of copies, proportionally", "statement": "For non-negative weights with positive sum and any offset r in [0,1), comb selection terminates without indexing past either array, the copy counts add up to the target population, every count is the floor or the ceiling of weight*target/total, and a walker of weight zero gets no copy.", "quantifier": "every weight vector of any length, every target population, every offset r in [0,1)", "why_tests_cant": "the boundary behaviour depends on r and on partial sums of arbitrary weights; a finite sample of r never reaches the boundaries", "anchors": ["pauxy/walkers/handler.py: Walkers.comb"]}
{"id": "C03", "title": "Comb resampling realises the copy counts it computed", "statement": "After the comb exchange has finished, every walker selected with copy count n is present exactly n times in the population.", "quantifier": "every vector of copy counts the selection can produce, every distribution of walkers over ranks", "why_tests_cant": "counts of three or more appear only for rare weight vectors; tests use small populations with counts of at most two", "anchors": ["pauxy/walkers/handler.py: Walkers.comb"]}
{"id": "C04", "title": "Comb exchange: sends and receives match and order does not matter", "statement": "In the comb exchange every posted send has exactly one matching receive (same source, destination and tag) and the reverse, tags are distinct, no walker slot is both sent from and received into, and the resulting population does not depend on the order in which messages are delivered.", "quantifier": "every vector of copy counts, every walkers-per-rank, every delivery order", "why_tests_cant": "message interleavings cannot be enumerated by running the program", "anchors": ["pauxy/walkers/handler.py: Walkers.comb"]}
{"id": "C05", "title": "Pair branching conserves total weight and population size", "statement": "Pair branching leaves the number of walkers and the sum of their weights unchanged, whatever random numbers are drawn; each walker takes part in at most one pair, and in a pair both end with half of the joint weight.", "quantifier": "every list of non-negative weights of any length, every min/max bound, every sequence of random draws", "why_tests_cant": "conservation must hold for every random draw and population size", "anchors": ["pauxy/walkers/handler.py: Walkers.pair_branch"]}
{"id": "C06", "title": "Pair branching exchange: sends and receives match", "statement": "In the pair-branching exchange, for each ordered pair of ranks and each tag the number of messages sent equals the number of messages received, and a rank never waits for a message nobody sends.", "quantifier": "every gathered population, every walkers-per-rank, every draw", "why_tests_cant": "a missing message shows up as a deadlock only for particular pairings", "anchors": ["pauxy/walkers/handler.py: Walkers.pair_branch"]}
{"id": "C07", "title": "Pair branching leaves no out-of-range walker unpaired", "statement": "When pair branching stops, every walker that was not paired has weight within [min_weight, max_weight], except possibly one single middle walker when all others have been paired.", "quantifier": "every list of weights and every bound", "why_tests_cant": "needs the sorted two-pointer scan to be right for every weight order", "anchors": ["pauxy/walkers/handler.py: Walkers.pair_branch"]}
{"id": "C08", "title": "Pair branching is unbiased", "statement": "Averaged over the uniform random draw of a pair, the weight carried by the descendants of each walker equals the weight of that walker before branching.", "quantifier": "every pair of non-negative weights with positive sum; every population", "why_tests_cant": "a statistical test can only bound the bias; the claim is an exact expectation", "anchors": ["pauxy/walkers/handler.py: Walkers.pair_branch"]}
{"id": "C09", "title": "Comb selection is unbiased", "statement": "Averaged over the uniform offset r in [0,1), the number of copies of each walker equals weight*target/total.", "quantifier": "every non-negative weight vector with positive sum, every walker", "why_tests_cant": "an exact expectation over a continuous random variable", "anchors": ["pauxy/walkers/handler.py: Walkers.comb"]}
{"id": "C10", "title": "Walker exchange buffer round trip", "statement": "Serialising a walker to an exchange buffer and loading that buffer into another walker with the same attributes and attribute types makes every numeric attribute of the receiver equal to the sender's.", "quantifier": "every walker layout (any list of array, scalar and list attributes) and all values", "why_tests_cant": "the layout depends on run-time attributes; tests cover one or two classes of walkers", "anchors": ["pauxy/walkers/walker.py: Walker.get_buffer, Walker.set_buffer", "pauxy/utils/misc.py: get_numeric_names"]}
{"id": "C11", "title": "Field-history exchange buffer round trip", "statement": "Serialising the auxiliary-field history of a walker and loading it into another walker's history makes the two histories equal, including accumulated complex weight factors, whatever happened to the receiver before.", "quantifier": "every pair of reachable field histories of equal shape", "why_tests_cant": "the loss depends on the earlier history of the receiver", "anchors": ["pauxy/walkers/stack.py: FieldConfig.get_buffer, set_buffer, update"]}
{"id": "C12", "title": "Restart files restore the walker population", "statement": "Writing all walkers to a restart file and reading it back gives every walker its weight, phase, overlap and wavefunction, each dataset is written by exactly one rank, and the same file can be read with any rank layout having the same total population.", "quantifier": "every number of ranks, walkers per rank and walker contents", "why_tests_cant": "a test fixes one layout; the claim relates all layouts", "anchors": ["pauxy/walkers/handler.py: Walkers.write_walkers, Walkers.read_walkers, get_write_buffer, set_walker_from_buffer"]}
{"id": "C13", "title": "Field history returns the fields of the current window in order", "statement": "After any sequence of field updates since the last reset (not longer than the window), reading the block gives exactly the fields pushed so far in order, together with their weight factors, and the accumulated factor is the product of the per-step ratios.", "quantifier": "every sequence of updates and resets within the window", "why_tests_cant": "stateful: depends on the full history of updates", "anchors": ["pauxy/walkers/stack.py: FieldConfig"]}
{"id": "C14", "title": "Back-propagation windows never overrun the field buffer", "statement": "In a run with back propagation, estimator measurement happens at every split of the window, the field buffer is emptied when the last split is reached, and a step never writes past the end of the field buffer.", "quantifier": "every window length, number of splits and number of steps", "why_tests_cant": "overrun occurs only when the number of splits does not divide the window, after a full window", "anchors": ["pauxy/estimators/back_propagation.py: BackPropagation.__init__, update", "pauxy/walkers/stack.py: FieldConfig.update, reset"]}
{"id": "C15", "title": "Back propagation is the adjoint of forward propagation", "statement": "The overlap of the back-propagated trial with the walker at the start of the window equals the overlap of the trial with the walker at the end of the window; intermediate reorthogonalisation changes the overlap only by the determinants of the triangular factors and leaves the Green's function unchanged.", "quantifier": "every sequence of propagator matrices, every length, every reorthogonalisation frequency", "why_tests_cant": "an identity over arbitrary matrices and lengths", "anchors": ["pauxy/propagation/generic.py: back_propagate_generic", "pauxy/propagation/hubbard.py: back_propagate", "pauxy/utils/linalg.py: reortho"]}
{"id": "C16", "title": "Propagator stack holds the ordered product of time slices", "statement": "After any number of updates not exceeding the number of time slices, bin b of the stack holds the ordered product of the propagators of its slices (later slices to the left), later bins are untouched, and the slice, bin and counter indices agree; one update more fails instead of corrupting a bin.", "quantifier": "every stack size dividing the number of slices, every sequence of propagators", "why_tests_cant": "an invariant over all update sequences", "anchors": ["pauxy/walkers/stack.py: PropagatorStack.update, update_new, reset"]}
{"id": "C17", "title": "Full-rank stack update keeps the trial to the left", "statement": "With the full-rank update, after n slices of a bin the bin equals BT^(stack_size-n) times the ordered product of the n sampled propagators, and on completion of the bin it is the plain product.", "quantifier": "every stack size, sequence of propagators and invertible trial propagator", "why_tests_cant": "an invariant over all update sequences and matrices", "anchors": ["pauxy/walkers/stack.py: PropagatorStack.update_full_rank, set_all"]}
{"id": "C18", "title": "Stack size adjustment picks the nearest divisor", "statement": "The adjusted stack size divides the number of time slices, is a nearest divisor to the requested size (the lower on ties), and the search ends for every positive request.", "quantifier": "every positive requested size and positive number of slices", "why_tests_cant": "termination and optimality over all pairs of integers", "anchors": ["pauxy/utils/misc.py: update_stack"]}
{"id": "C19", "title": "Stabilised thermal Green's functions equal (1+A)^-1", "statement": "The QR and SVD based evaluations of the thermal Green's function return the inverse of one plus the ordered product of the bins, for every bin index, with or without the scale splitting.", "quantifier": "every number of bins, every matrices for which the inverse exists, any valid QR/SVD factors", "why_tests_cant": "an algebraic identity over arbitrary matrices", "anchors": ["pauxy/walkers/thermal.py: ThermalWalker.greens_function_qr, greens_function_svd, greens_function_qr_strat", "pauxy/estimators/thermal.py: greens_function, inverse_greens_function_qr, one_rdm_stable"]}
{"id": "C20", "title": "The SVD based inverse Green's function returns 1+A", "statement": "The SVD based inverse Green's function of a density matrix A returns 1+A.", "quantifier": "every square matrix A and any valid SVD factors", "why_tests_cant": "holds by accident for Hermitian input, which is what tests use", "anchors": ["pauxy/estimators/thermal.py: inverse_greens_function"]}
{"id": "C21", "title": "Thermal single-site updates are exact", "statement": "Flipping one auxiliary field multiplies the determinant of 1+A by the ratio the propagator computes and the rank-one updated Green's function equals the Green's function recomputed from scratch; moving to the next slice by conjugation with the trial propagator is exact as well.", "quantifier": "every matrix A, site and field with non-zero ratio", "why_tests_cant": "an identity over arbitrary matrices", "anchors": ["pauxy/thermal_propagation/hubbard.py: ThermalDiscrete.update_greens_function, calculate_overlap_ratio, propagate_greens_function"]}
{"id": "C22", "title": "Rank-one update of the inverse overlap is exact", "statement": "Updating the stored inverse overlap matrix after a single-row change of the walker gives the inverse of the new overlap matrix.", "quantifier": "every walker, trial, row and update with non-singular overlaps", "why_tests_cant": "an identity over arbitrary matrices", "anchors": ["pauxy/utils/linalg.py: sherman_morrison", "pauxy/walkers/single_det.py: SingleDetWalker.update_inverse_overlap"]}
{"id": "C23", "title": "Single-determinant Green's function is an invariant projector", "statement": "The mixed Green's function computed for a walker is idempotent, has trace equal to the number of electrons of that spin, and does not change when the walker's orbitals are mixed by an invertible matrix (in particular by reorthogonalisation).", "quantifier": "every trial and walker of any size with non-singular overlap", "why_tests_cant": "an identity over arbitrary matrices", "anchors": ["pauxy/estimators/greens_function.py: gab, gab_mod, gab_mod_ovlp", "pauxy/walkers/single_det.py: SingleDetWalker.greens_function"]}
{"id": "C24", "title": "Reorthogonalisation keeps stored overlap and total weight consistent", "statement": "After reorthogonalising a walker, the stored overlap is the overlap of the new orbitals with the trial, the determinant returned is the ratio of old to new overlap, and with free projection weight times phase times overlap is unchanged.", "quantifier": "every walker and trial, any valid QR factors, any sequence of reorthogonalisations", "why_tests_cant": "an invariant over sequences of operations", "anchors": ["pauxy/walkers/single_det.py: SingleDetWalker.reortho", "pauxy/utils/linalg.py: reortho", "pauxy/walkers/handler.py: Walkers.orthogonalise"]}
{"id": "C25", "title": "The walker's overlap with the trial is computed consistently", "statement": "All routines that return the overlap of a walker with the trial return the same number for the same walker.", "quantifier": "every walker, trial, electron numbers and log shift", "why_tests_cant": "the routines agree for equal spin populations and zero shift, which is what tests use", "anchors": ["pauxy/walkers/single_det.py: calc_overlap, calc_otrial, greens_function"]}
{"id": "C26", "title": "Modified Cholesky meets its error bound", "statement": "When the modified Cholesky decomposition of a positive semidefinite matrix stops, the vectors returned reproduce every element of the matrix within the tolerance, and the number of vectors is at most the dimension; if the allowed number of vectors is exceeded an error is raised.", "quantifier": "every positive semidefinite matrix, tolerance and limit", "why_tests_cant": "a bound over all matrices", "anchors": ["pauxy/utils/linalg.py: modified_cholesky"]}
{"id": "C27", "title": "The truncated exponential is the same in forward and backward propagation", "statement": "Applying the exponential of a matrix to a wavefunction in the propagator and multiplying by the matrix exponential used in back propagation give the same result: the Taylor sum to the given order.", "quantifier": "every matrix, wavefunction and order", "why_tests_cant": "an identity over arbitrary matrices and orders", "anchors": ["pauxy/propagation/continuous.py: Continuous.apply_exponential", "pauxy/utils/linalg.py: exponentiate_matrix"]}
{"id": "C28", "title": "Different two-body energy routines agree", "statement": "The local energy computed from full two-electron integrals, from Cholesky vectors and from half-rotated Cholesky vectors is the same number, and so is the Hubbard energy as a special case.", "quantifier": "every Hamiltonian, Green's function and trial", "why_tests_cant": "an identity over arbitrary tensors", "anchors": ["pauxy/estimators/generic.py: local_energy_generic, local_energy_generic_cholesky, local_energy_generic_cholesky_opt", "pauxy/estimators/hubbard.py: local_energy_hubbard"]}
{"id": "C29", "title": "Stochastic resolution of the identity is unbiased", "statement": "Averaged over all sign vectors, the stochastic exchange energy and the stochastic kinetic propagation equal the exact ones.", "quantifier": "every Hamiltonian, Green's function and number of samples", "why_tests_cant": "an exact expectation over all random vectors", "anchors": ["pauxy/estimators/generic.py: local_energy_generic_cholesky_opt_stochastic", "pauxy/propagation/operations.py: kinetic_real_stochastic"]}
{"id": "C30", "title": "Discrete Hubbard-Stratonovich identity", "statement": "Averaging the one-body factors over the two auxiliary fields of a site, including the field dependent scalar factor, reproduces the two-body Hubbard factor for every occupation, for both the spin and the charge decomposition.", "quantifier": "every real U and time step for which the decomposition is defined, all occupations", "why_tests_cant": "an identity over real parameters", "anchors": ["pauxy/propagation/hubbard.py: Hirsch.__init__", "pauxy/thermal_propagation/hubbard.py: ThermalDiscrete.__init__"]}
{"id": "C31", "title": "Single-site sampling is exact and tracks the overlap", "statement": "In a single-site update the field-dependent weight times the sampling probability equals the unsampled product, the weight stays non-negative, and the stored overlap after the update equals the overlap of the updated walker with the trial.", "quantifier": "every walker, site, field and decomposition", "why_tests_cant": "an identity over arbitrary matrices; wrong only in the charge decomposition", "anchors": ["pauxy/propagation/hubbard.py: Hirsch.two_body_single_site, calculate_overlap_ratio_single_det", "pauxy/walkers/single_det.py: SingleDetWalker.update_overlap"]}
{"id": "C32", "title": "Dynamic force bias sampling is exact", "statement": "In the direct two-body update the correction factor times the sampling probability of a field configuration equals its probability without force bias.", "quantifier": "every field configuration, number of sites and force bias", "why_tests_cant": "an exact expectation over exponentially many configurations", "anchors": ["pauxy/propagation/hubbard.py: Hirsch.two_body_direct"]}
{"id": "C33", "title": "Energy capping bounds the growth of weights", "statement": "Once the energy shift is set, the hybrid energy used in a step lies within sqrt(2/dt) of the shift, the cosine factor lies in [0,1], a non-negative weight stays non-negative, and one step multiplies a weight by at most exp(sqrt(2 dt)) while the shift is constant.", "quantifier": "every walker, overlap, shift, time step and step sequence", "why_tests_cant": "a bound over all real inputs and sequences of steps", "anchors": ["pauxy/propagation/continuous.py: apply_bound_hybrid, update_weight_hybrid"]}
{"id": "C34", "title": "A walker whose energy equals the shift keeps its weight", "statement": "In the importance-sampled weight update a walker whose old and new energies equal the energy shift keeps its weight magnitude, for both the hybrid and the local-energy update.", "quantifier": "every shift, time step and update scheme", "why_tests_cant": "visible only as a slow drift of the total weight", "anchors": ["pauxy/propagation/continuous.py: update_weight_hybrid, update_weight_local_energy, apply_bound_local_energy"]}
{"id": "C35", "title": "Reported mixed energy is the weighted average over the block", "statement": "The energy printed for a block is the sum of weight times local energy divided by the sum of weights over all walkers, ranks and energy evaluations of the block, and does not depend on how walkers are distributed over ranks.", "quantifier": "every number of ranks, walkers, steps per block and all values", "why_tests_cant": "sums over arbitrary histories and layouts", "anchors": ["pauxy/estimators/mixed.py: Mixed.update, Mixed.print_step"]}
{"id": "C36", "title": "Blocks do not leak into each other", "statement": "The values printed for a block depend only on the walkers during that block: the accumulators are zero after printing and nothing is printed between block ends.", "quantifier": "every run length and block length", "why_tests_cant": "history independence over all histories", "anchors": ["pauxy/estimators/mixed.py: Mixed.print_step, Mixed.zero"]}
{"id": "C37", "title": "Energy estimate is bracketed by the local energies", "statement": "With non-negative weights and at least one positive weight the printed block energy lies between the smallest and the largest local energy that entered it.", "quantifier": "every history with non-negative weights", "why_tests_cant": "a bound over all histories", "anchors": ["pauxy/estimators/mixed.py: Mixed.update, Mixed.print_step"]}
{"id": "C38", "title": "Estimator output never overwrites an existing file unless asked", "statement": "Without the overwrite option the chosen output file name does not exist yet and is the first free index; the search ends.", "quantifier": "every base name and every set of existing files", "why_tests_cant": "depends on arbitrary names and directory contents", "anchors": ["pauxy/estimators/handler.py: Estimators.__init__"]}
{"id": "C39", "title": "Output datasets sort in time order", "statement": "Listing the datasets written to the output file in name order gives them in the order they were written.", "quantifier": "every number of written blocks", "why_tests_cant": "breaks only for very long runs or other averaging settings", "anchors": ["pauxy/estimators/utils.py: H5EstimatorHelper.push, increment", "pauxy/analysis/extraction.py: extract_data"]}
{"id": "C40", "title": "Variational energy of an orthogonal expansion", "statement": "The variational energy reported for an orthogonal determinant expansion is the Rayleigh quotient of the Hamiltonian with the expansion coefficients.", "quantifier": "every number of determinants, complex coefficients and Hermitian matrix elements", "why_tests_cant": "wrong only for complex coefficients", "anchors": ["pauxy/estimators/mixed.py: variational_energy_ortho_det"]}
{"id": "C41", "title": "One-body contraction of a multi-determinant trial", "statement": "The contraction of a one-body operator with a multi-determinant trial is its expectation value in the trial.", "quantifier": "every number of determinants and complex coefficients", "why_tests_cant": "wrong only for complex coefficients", "anchors": ["pauxy/trial_wavefunction/multi_slater.py: MultiSlater.contract_one_body"]}
{"id": "C42", "title": "Hubbard local energy includes all terms of the Hamiltonian", "statement": "The Hubbard local energy is the expectation of the hopping, of the interaction and, in the symmetric form, of the chemical-potential like term of the Hamiltonian.", "quantifier": "every lattice, U and Green's function", "why_tests_cant": "only shows for the symmetric option", "anchors": ["pauxy/estimators/hubbard.py: local_energy_hubbard"]}
{"id": "C43", "title": "Input options are looked up in a fixed priority", "statement": "An option value is the value stored under its name if present, else the value of the first alias present, else the default; a stored null counts as absent.", "quantifier": "every input dictionary, key, alias list and default", "why_tests_cant": "quantifies over all dictionaries", "anchors": ["pauxy/utils/io.py: get_input_value"]}
{"id": "C44", "title": "Merging and querying nested dictionaries", "statement": "Merging two nested dictionaries yields one in which every path of either is found with its value, fails exactly when some path has conflicting leaves, and never changes an existing leaf; nested lookup returns the value at a path or nothing.", "quantifier": "every pair of nested dictionaries and every path", "why_tests_cant": "quantifies over all trees", "anchors": ["pauxy/utils/misc.py: merge_dicts, get_from_dict"]}
{"id": "C45", "title": "Sparse Hamiltonian file round trip", "statement": "Writing Cholesky vectors in the sparse format and reading them back returns the same matrix up to entries below the cutoff.", "quantifier": "every matrix, cutoff and chunking", "why_tests_cant": "quantifies over all matrices and chunk layouts", "anchors": ["pauxy/utils/io.py: to_sparse, write_qmcpack_sparse", "pauxy/utils/hamiltonian_converter.py: read_cholesky, get_chunk"]}
{"id": "C46", "title": "FCIDUMP round trip with permutational symmetry", "statement": "Writing integrals with 1-, 4- or 8-fold symmetry reduction and reading the file with the same symmetry restores all one- and two-electron integrals above the tolerance, the core energy and the electron numbers.", "quantifier": "every number of orbitals and all integrals having the stated symmetry, in a number format that can hold them", "why_tests_cant": "each orbit of index permutations must be hit exactly by one line, for every index", "anchors": ["pauxy/utils/hamiltonian_converter.py: write_fcidump, check_sym, read_fcidump"]}
{"id": "C47", "title": "Non-orthogonal trial wavefunction file round trip", "statement": "Writing a multi-determinant trial wavefunction with different alpha and beta orbitals and reading it back gives the same coefficients and orbitals.", "quantifier": "every number of determinants, orbitals and electrons", "why_tests_cant": "tests use one determinant", "anchors": ["pauxy/utils/io.py: write_nomsd, write_nomsd_single, read_qmcpack_nomsd_hdf5"]}
{"id": "C48", "title": "Particle-hole trial wavefunction file round trip", "statement": "Writing alpha and beta occupation lists of a determinant expansion and reading them back gives the same lists and coefficients.", "quantifier": "every number of determinants and orbitals and all occupations", "why_tests_cant": "quantifies over all expansions", "anchors": ["pauxy/utils/io.py: write_phmsd, read_qmcpack_phmsd_hdf5"]}
{"id": "C49", "title": "Walkers and random seeds are distributed over ranks", "statement": "Every rank gets the same positive number of walkers, the total is that number times the number of ranks and at most the requested number unless fewer walkers than ranks were requested, and different ranks get different random seeds.", "quantifier": "every requested number of walkers and number of ranks", "why_tests_cant": "quantifies over all rank counts", "anchors": ["pauxy/qmc/afqmc.py: AFQMC.__init__", "pauxy/qmc/utils.py: set_rng_seed", "pauxy/qmc/calc.py: setup_parallel"]}
{"id": "C50", "title": "The main loop performs each action on schedule and caps weights", "statement": "In a run of N steps, orthogonalisation, population control, printing and restart output happen exactly at the multiples of their periods, walkers with negligible weight are not propagated, and after the first step no walker's weight exceeds a tenth of the total weight recorded by the last population control when the step's propagation ends.", "quantifier": "every run length, period and propagation outcome", "why_tests_cant": "a trace property over arbitrary runs", "anchors": ["pauxy/qmc/afqmc.py: AFQMC.run", "pauxy/qmc/thermal_afqmc.py: ThermalAFQMC.run"]}
{"id": "C51", "title": "Half rotation work is split over ranks without gap or overlap", "statement": "The column ranges processed by the ranks of a node when half rotating the Cholesky vectors cover every column exactly once.", "quantifier": "every number of columns and ranks", "why_tests_cant": "boundary cases when columns do not divide evenly", "anchors": ["pauxy/trial_wavefunction/multi_slater.py: MultiSlater.half_rotate, rot_chol"]}
{"id": "C52", "title": "Plane wave lookup is exact", "statement": "Looking up an integer momentum vector returns index i exactly if it is basis vector number i, and nothing if it is not in the basis.", "quantifier": "every energy cutoff and every integer vector", "why_tests_cant": "index collisions would appear only for particular cutoffs", "anchors": ["pauxy/systems/ueg.py: UEG.sp_energies, map_basis_to_index, lookup_basis"]}
{"id": "C53", "title": "Lattice hopping matrix is Hermitian, translation invariant and diagonal in momentum space", "statement": "Site indices and coordinates convert both ways; the hopping matrix is Hermitian and, without twist, plane waves are its eigenvectors with the tabulated band energies.", "quantifier": "every lattice size, hopping and twist", "why_tests_cant": "lattice sizes of one and two are special and rarely tested", "anchors": ["pauxy/systems/hubbard_holstein.py: kinetic, decode_basis, encode_basis, kpoints, ek", "pauxy/systems/hubbard.py: decode_basis, encode_basis"]}
{"id": "C54", "title": "Bounded compositions are enumerated exactly once", "statement": "The enumeration of ways to put n indistinguishable balls into boxes with capacities yields every such way exactly once and nothing else, and rejects invalid input.", "quantifier": "every number of balls and list of capacities", "why_tests_cant": "completeness over all sizes", "anchors": ["pauxy/estimators/ci.py: unlabeled_balls_in_labeled_boxes"]}
{"id": "C55", "title": "Determinant matrix elements obey the Slater-Condon rules", "statement": "The matrix element between two determinants equals the second-quantised matrix element of the Hamiltonian between the two occupation-number states, including the sign.", "quantifier": "every pair of determinants and all integrals", "why_tests_cant": "sign errors occur only for particular index orders", "anchors": ["pauxy/estimators/ci.py: get_hmatel, get_perm, slater_condon0, slater_condon1, slater_condon2"]}
{"id": "C56", "title": "Reblocking preserves the mean", "statement": "Averaging a time series over blocks leaves the mean over the retained samples unchanged, drops fewer samples than one block, and a constant series gives its value with zero error.", "quantifier": "every series and block size", "why_tests_cant": "quantifies over all series", "anchors": ["pauxy/analysis/autocorr.py: reblock_by_autocorr", "pauxy/analysis/blocking.py: average_ratio"]}
{"id": "C57", "title": "Autocorrelation helpers", "statement": "The padding length is the least power of two not below the series length, and the window chosen is the first lag at which the window criterion holds, else the last lag.", "quantifier": "every length and every series", "why_tests_cant": "quantifies over all lengths", "anchors": ["pauxy/analysis/autocorr.py: next_pow_two, auto_window, autocorr_func_1d"]}
{"id": "C58", "title": "Chemical potential fit picks the best fit", "statement": "The chemical potential returned by the fitting routine is the one with the smallest residual among those tried.", "quantifier": "every list of trial values and residuals", "why_tests_cant": "wrong only when residuals are not monotone", "anchors": ["pauxy/analysis/thermal.py: find_chem_pot"]}
{"id": "C59", "title": "Determinant threshold discards exactly the small coefficients", "statement": "With a coefficient threshold, the determinants kept are exactly those whose coefficient magnitude exceeds the threshold.", "quantifier": "every list of coefficients and threshold", "why_tests_cant": "wrong only for unsorted expansions", "anchors": ["pauxy/trial_wavefunction/utils.py: get_trial_wavefunction"]}
{"id": "C60", "title": "Chemical potential search brackets and converges", "statement": "If a chemical potential is returned, the particle number at it is within the tolerance of the target; for a monotone continuous particle number the search brackets the target and finds it in a number of bisections logarithmic in the bracket.", "quantifier": "every monotone particle-number function, target and tolerance", "why_tests_cant": "convergence over all functions", "anchors": ["pauxy/trial_density_matrices/chem_pot.py: find_chemical_potential"]}
{"id": "C61", "title": "UHF search returns the lowest minimum found", "statement": "The energy reported by the UHF search is the minimum over the converged attempts up to the tolerance and belongs to the returned wavefunction; the Hubbard U of the system is unchanged afterwards.", "quantifier": "every number of attempts and every outcome of the attempts", "why_tests_cant": "depends on random starting points", "anchors": ["pauxy/trial_wavefunction/uhf.py: UHF.find_uhf_wfn"]}
{"id": "C62", "title": "Restarting from the file that is also written", "statement": "A run that is told to read its walkers from a restart file and to write restarts to the same file starts from the walkers in that file.", "quantifier": "every file content, layout and write frequency", "why_tests_cant": "the order of creation and reading decides; a test would have to use one name for both", "anchors": ["pauxy/walkers/handler.py: Walkers.__init__, Walkers.read_walkers"]}
{"id": "C63", "title": "Resetting the propagator stack", "statement": "Resetting a walker's propagator stack and filling it with the trial density matrix again gives the stack of a new walker, whatever updates were made before.", "quantifier": "every history of updates, stack size and number of slices", "why_tests_cant": "wrong only when the reset happens in the middle of a bin", "anchors": ["pauxy/walkers/stack.py: PropagatorStack.reset, set_all"]}
{"id": "C64", "title": "Low-rank Green's function and overlap", "statement": "For a product given by a truncated factorisation Q D T with real D, the low-rank routines return the inverse of 1 + Q D T as Green's function and its determinant as overlap.", "quantifier": "every size, rank and factorisation for which T Q and 1 + Q D T are invertible", "why_tests_cant": "matrix identity over all factors", "anchors": ["pauxy/walkers/thermal.py: greens_function_left_right", "pauxy/walkers/stack.py: PropagatorStack.update_low_rank"]}
{"id": "C65", "title": "Stabilisation frequency of a thermal Hubbard run", "statement": "Whatever positive stabilisation frequency is requested, a thermal Hubbard run recomputes the Green's function exactly once per bin of the propagator stack.", "quantifier": "every requested frequency and stack size", "why_tests_cant": "a search over divisors decides", "anchors": ["pauxy/walkers/handler.py: Walkers.__init__", "pauxy/utils/misc.py: update_stack"]}
{"id": "C66", "title": "Thermal field sampling realises the truncated overlap ratios", "statement": "Averaged over the uniform random number drawn at a site, the weight carried on with each field value is the old weight times the real part of that field's overlap ratio, or zero if this is negative.", "quantifier": "every Green's function, weight, site and function of the field", "why_tests_cant": "an expectation over a continuous random number", "anchors": ["pauxy/thermal_propagation/hubbard.py: ThermalDiscrete.propagate_walker_constrained"]}
{"id": "C67", "title": "Thermal constrained sampling averages the right two-body factor", "statement": "The site factors that constrained thermal propagation averages over the two fields are the two-body Hubbard factors, up to a constant and a chemical potential, for the spin and the charge decomposition.", "quantifier": "every U, time step, occupation, decomposition and form of the interaction", "why_tests_cant": "an identity over real parameters; the scalar factor of the charge decomposition is easily dropped without any visible error", "anchors": ["pauxy/thermal_propagation/hubbard.py: ThermalDiscrete.calculate_overlap_ratio, propagate_walker_constrained"]}
{"id": "C68", "title": "The chemical potential of the trial does not enter the propagator", "statement": "The one-slice propagator for given fields contains the chemical potential of the system, whatever chemical potential the trial density matrix uses, in both sign conventions.", "quantifier": "every one-body Hamiltonian, pair of chemical potentials that are equal or differ by more than the threshold, time step and field configuration", "why_tests_cant": "an identity of matrix exponentials over arbitrary matrices", "anchors": ["pauxy/thermal_propagation/hubbard.py: ThermalDiscrete.__init__, construct_one_body_propagator"]}
{"id": "C69", "title": "Weights of a hybrid run telescope", "statement": "Over a run of hybrid propagation steps in which no energy is capped, the product of the complex importance factors is the ratio of the final to the initial overlap with the trial, times the factors of the fields and of the energy shift; the walker's weight is at most its modulus.", "quantifier": "every number of steps, sequence of overlaps, fields and shifts", "why_tests_cant": "a statement about sequences of any length", "anchors": ["pauxy/propagation/continuous.py: Continuous.update_weight_hybrid, propagate_walker"]}
{"id": "C70", "title": "Continuous auxiliary fields are unbiased for every force bias", "statement": "Averaged over the normally distributed fields, the shifted fields together with the weight factor used for the shift reproduce the expectation over unshifted fields, for every force bias, including after the bound on the modulus of the shift was applied.", "quantifier": "every number of fields, complex force bias and Gaussian-integrable observable of exponential type", "why_tests_cant": "a Gaussian integral", "anchors": ["pauxy/propagation/continuous.py: Continuous.two_body_propagator, construct_force_bias"]}
{"id": "C71", "title": "The local energy is the mixed expectation of the Hamiltonian", "statement": "For a trial and a walker determinant with nonzero overlap, the local energy of the Green's function equals the matrix element of the Hamiltonian between the two determinants divided by their overlap.", "quantifier": "every basis size, number of electrons, Hamiltonian and pair of determinants", "why_tests_cant": "Wick's theorem for arbitrary determinants", "anchors": ["pauxy/estimators/generic.py: local_energy_generic_cholesky", "pauxy/estimators/greens_function.py: gab_mod_ovlp"]}
{"id": "C72", "title": "Variational energy of a non-orthogonal expansion", "statement": "The variational energy of a multi-determinant trial is the Rayleigh quotient of the Hamiltonian, overlap matrix included.", "quantifier": "every number of determinants with nonzero mutual overlaps and complex coefficients", "why_tests_cant": "an identity over arbitrary determinants and coefficients", "anchors": ["pauxy/estimators/mixed.py: variational_energy_multi_det"]}
{"id": "C73", "title": "Electron gas density operators reproduce the Coulomb Hamiltonian", "statement": "The modified one-body operator minus half the sum of the squares of the two-body operators used by the propagator is the normal-ordered Hamiltonian with the integrals returned by hijkl, and eri_4 returns the same integrals.", "quantifier": "every energy cutoff, twist, box, number of plane waves and algebra of one-body operators", "why_tests_cant": "an operator identity; a wrong prefactor or a lost momentum transfer changes energies smoothly", "anchors": ["pauxy/systems/ueg.py: UEG.scaled_density_operator_incore, two_body_potentials_incore, mod_one_body, hijkl, eri_4", "pauxy/estimators/ueg_kernels.pyx: mod_one_body"]}
{"id": "C74", "title": "Electron gas local energy equals the generic contraction", "statement": "The momentum-space kernels return the same kinetic and Coulomb energy as the contraction of all four-index integrals with the Green's functions, although they only visit the first rows.", "quantifier": "every cutoff, Green's functions of both spins and electron numbers", "why_tests_cant": "quantifies over all Green's functions; restricting the rows is only exact for some trials", "anchors": ["pauxy/estimators/ueg.py: local_energy_ueg", "pauxy/estimators/ueg_kernels.pyx: coulomb_greens_function_per_qvec, exchange_greens_function_per_qvec"]}
{"id": "C75", "title": "Electron gas Fock matrix is the derivative of the energy", "statement": "The Fock matrix returned for a density matrix is the gradient of the energy functional with respect to that density matrix.", "quantifier": "every cutoff and density matrix", "why_tests_cant": "a derivative for arbitrary complex matrices; transposes only show for complex densities", "anchors": ["pauxy/estimators/ueg.py: fock_ueg", "pauxy/estimators/ueg_kernels.pyx: build_J_opt, build_K_opt"]}
{"id": "C76", "title": "The energy shift comes from the estimator of the propagation scheme", "statement": "Each step is propagated with the energy shift estimated at the end of the previous step by the estimator that belongs to the propagation scheme: the hybrid energy for hybrid propagation and the mixed energy for local-energy propagation, during and after equilibration.", "quantifier": "every run length, equilibration length, scheme and sequence of estimates", "why_tests_cant": "a trace property over arbitrary runs; after equilibration a default argument decides", "anchors": ["pauxy/qmc/afqmc.py: AFQMC.run", "pauxy/estimators/mixed.py: Mixed.get_shift"]}
{"id": "C77", "title": "The weight cap acts on walkers with more than a tenth of the population", "statement": "After population control, the cap of the following step reduces a walker's weight exactly if the walker carries more than a tenth of the total weight of the population.", "quantifier": "every population, target weight and total weight", "why_tests_cant": "the comparison involves a total recorded before the weights are rescaled; it is only exact for special totals", "anchors": ["pauxy/qmc/afqmc.py: AFQMC.run", "pauxy/qmc/thermal_afqmc.py: ThermalAFQMC.run", "pauxy/walkers/handler.py: Walkers.pop_control, set_total_weight, reset"]}
{"id": "C78", "title": "FCIDUMP writer options lose nothing silently", "statement": "For every choice of the writer's options the writer either stops with an error or writes a file from which reading restores the integrals.", "quantifier": "all integrals with the stated symmetry, every symmetry, complex or real format, with or without parentheses", "why_tests_cant": "quantifies over all integrals and options; the check for imaginary parts only fails for particular signs", "anchors": ["pauxy/utils/hamiltonian_converter.py: write_fcidump, fmt_integral, read_fcidump"]}
{"id": "C79", "title": "A propagation step agrees with imaginary-time propagation to first order in the time step", "statement": "Averaged over the auxiliary fields, weight times phase times overlap with any determinant after one free-projection step equals that of applying 1 - dt (H - shift) to the walker, with an error of order dt^(3/2), where H is the Hamiltonian of the input integrals.", "quantifier": "every basis, electron numbers, integrals, trial, walker, determinant, mean-field shift, energy shift and expansion order at least two, for the generic, Hubbard (charge and spin) and plane-wave propagators", "why_tests_cant": "an average over continuous fields in the limit of small steps; sampling noise hides errors in the one-body part, the shift or the prefactors", "anchors": ["pauxy/propagation/continuous.py: Continuous.propagate_walker_free, two_body_propagator, apply_exponential", "pauxy/propagation/generic.py: GenericContinuous", "pauxy/propagation/hubbard.py: HubbardContinuous, HubbardContinuousSpin", "pauxy/propagation/planewave.py: PlaneWave", "pauxy/systems/generic.py: construct_h1e_mod", "pauxy/systems/hubbard.py: construct_h1e_mod"]}
{"id": "C80", "title": "The force bias removes the leading fluctuation of the hybrid energy", "statement": "With the force bias of the propagator the hybrid energy of a phaseless step stays bounded as the time step goes to zero with the random fields fixed; the fast and the explicit force bias of generic systems agree, and the force bias vanishes for a walker equal to the trial.", "quantifier": "every basis, integrals, mean-field shift, trial and walker with non-zero overlap and equal electron numbers, and expansion order at least two", "why_tests_cant": "a limit for arbitrary fields; a wrong sign leaves averages unchanged and only raises the noise", "anchors": ["pauxy/propagation/continuous.py: Continuous.propagate_walker_phaseless, update_weight_hybrid", "pauxy/propagation/generic.py: construct_force_bias_slow, construct_force_bias_fast, construct_mean_field_shift", "pauxy/propagation/hubbard.py: HubbardContinuous.construct_force_bias, HubbardContinuousSpin.construct_force_bias", "pauxy/propagation/planewave.py: construct_force_bias_incore"]}
{"id": "C81", "title": "The importance factor of a phaseless step averages to the local energy", "statement": "Averaged over the fields, exp(-dt times the hybrid energy) of a phaseless step equals one minus dt times the local energy returned by the energy routine (less the constant mf_core), up to order dt^(3/2), whatever force bias is used.", "quantifier": "every basis, integrals, mean-field shift, force bias, trial and walker with non-zero overlap and equal electron numbers", "why_tests_cant": "relates two unrelated code paths through an average over continuous fields in a limit", "anchors": ["pauxy/propagation/continuous.py: Continuous.propagate_walker_phaseless, two_body_propagator, update_weight_hybrid", "pauxy/estimators/generic.py: local_energy_generic_cholesky", "pauxy/estimators/hubbard.py: local_energy_hubbard"]}
{"id": "C82", "title": "A free-projection calculation converges to the imaginary-time evolution and its energy to the lowest energy of the Hamiltonian", "statement": "N free-projection steps of length beta/N, averaged over the fields, converge (error of order N^(-1/2)) to exp(-beta (H - c)) applied to the starting walker, seen from any antisymmetric many-particle state, where H is the system's many-particle Hamiltonian and c the documented constants; reorthogonalising at any times does not change the averages. The projected energy (ratio of the averages of the estimator's numerator and denominator) then converges, for many small steps and large beta, to the lowest energy among the eigenstates of H that occur in the walker and overlap with the trial.", "quantifier": "every basis size, electron numbers, integrals, mean-field shift, energy shift, trial, starting walker, imaginary time and placement of reorthogonalisations", "why_tests_cant": "a limit of infinitely many steps and of infinite time, averaged over continuous fields", "anchors": ["pauxy/propagation/continuous.py: Continuous.propagate_walker_free, two_body_propagator", "pauxy/propagation/generic.py: GenericContinuous", "pauxy/propagation/hubbard.py: HubbardContinuous, HubbardContinuousSpin", "pauxy/propagation/planewave.py: PlaneWave", "pauxy/walkers/handler.py: Walkers.orthogonalise", "pauxy/estimators/mixed.py: Mixed.update"]}
{"id": "C83", "title": "A free-projection calculation at finite temperature converges to grand canonical averages", "statement": "For walkers started from the trial density matrix and propagated over all slices without constraint, the energy and the particle number reported by the mixed estimator (ratio of the averages over the auxiliary fields) converge to the grand canonical averages Tr[O exp(-beta (H - mu N))] / Tr[exp(-beta (H - mu N))] over all particle numbers, at the inverse temperature and chemical potential of the input, with an error of order L^(-1/2) for L slices; the average denominator is not zero and the limit does not depend on the trial density matrix, its mean-field shift, the stack size or the scheme for the Green's function.", "quantifier": "every basis size, Hamiltonian, interaction strength, inverse temperature, chemical potential, positive definite trial density matrix, stack size dividing the number of slices and expansion order at least two", "why_tests_cant": "an average over continuous fields of all slices, in the limit of infinitely many slices, compared with an exact trace over a space of exponential size", "anchors": ["pauxy/thermal_propagation/continuous.py: Continuous.propagate_walker_free, two_body_propagator", "pauxy/thermal_propagation/planewave.py: PlaneWave.propagate_walker_free_full_rank", "pauxy/thermal_propagation/hubbard.py: HubbardContinuous", "pauxy/walkers/thermal.py: ThermalWalker", "pauxy/walkers/stack.py: PropagatorStack.update_full_rank", "pauxy/estimators/mixed.py: Mixed.update", "pauxy/estimators/thermal.py: one_rdm_from_G"]}
{"id": "C84", "title": "Thermal free projection with discrete fields converges to grand canonical averages", "statement": "With discrete auxiliary fields (charge or spin decomposition) and walkers propagated over all slices without constraint, the energy, its one-body part and the particle number reported by the mixed estimator (ratio of the averages over all fields) converge to the grand canonical averages over all particle numbers, at the inverse temperature and chemical potential of the input (shifted by U/2 for the particle-hole symmetric interaction), with an error of order 1/L for L slices, whatever trial density matrix, trial chemical potential and stack size are used.", "quantifier": "every number of sites, Hermitian hopping matrix, interaction strength of either sign, decomposition, sign convention, inverse temperature, chemical potential, trial density matrix and stack size dividing the number of slices, for which no field configuration is singular", "why_tests_cant": "a sum over exponentially many field configurations in the limit of infinitely many slices, compared with a trace over a space of exponential size", "anchors": ["pauxy/thermal_propagation/hubbard.py: ThermalDiscrete.__init__, propagate_walker_free", "pauxy/walkers/thermal.py: ThermalWalker", "pauxy/walkers/stack.py: PropagatorStack.update_full_rank", "pauxy/estimators/mixed.py: Mixed.update", "pauxy/estimators/hubbard.py: local_energy_hubbard"]}
{"id": "C85", "title": "With a multi-determinant trial, overlaps, energies and the propagation are those of the trial state", "statement": "For a walker with a multi-determinant trial the overlap, the one-body contractions of the force bias and the local energy are the overlap, the mixed expectations and the energy with the state sum_i c_i D_i; the local energy is the eigenvalue if that state is an eigenstate; the importance factor of a phaseless step averages to the local energy up to order dt^(3/2), and the force bias keeps the hybrid energy bounded for small time steps; free projection converges to the lowest energy among the eigenstates that occur in the walker and overlap with the trial state, with reorthogonalisations at any times.", "quantifier": "every basis, electron numbers, integrals, number of determinants, orbitals and coefficients, walker, imaginary time and placement of reorthogonalisations", "why_tests_cant": "depends on sums over determinants of any number and on determinants that happen to be orthogonal to the walker; needs averages over continuous fields", "anchors": ["pauxy/walkers/multi_det.py: MultiDetWalker", "pauxy/estimators/mixed.py: local_energy_multi_det", "pauxy/propagation/generic.py: construct_force_bias_multi_det", "pauxy/propagation/continuous.py: propagate_walker_free, propagate_walker_phaseless"]}
{"id": "C86", "title": "Recomputed CI coefficients give the lowest energy, and an FCI trial is exact", "statement": "For a trial state given as a list of occupied orbitals with coefficients, asking for recomputed coefficients gives the normalised combination of these determinants with the lowest energy under the Hamiltonian that the propagator and the energy estimator use, and its energy is the lowest eigenvalue of the matrix diagonalised. If the determinants are all determinants that the FCI routine lists and the coefficients one of its eigenvectors, the trial is an exact eigenstate: the local energy equals the eigenvalue for every walker, and free projection with such a trial converges to that eigenvalue.", "quantifier": "every basis size, electron numbers, integrals, list of occupations, coefficients, walker, imaginary time", "why_tests_cant": "relates the Slater-Condon rules with phases, the ordering of orbitals in determinants and the energy from Green's functions for all numbers of electrons", "anchors": ["pauxy/trial_wavefunction/multi_slater.py: MultiSlater.from_phmsd, recompute_ci_coeffs", "pauxy/trial_wavefunction/utils.py: get_trial_wavefunction", "pauxy/estimators/ci.py: simple_fci, get_hmatel", "pauxy/estimators/mixed.py: local_energy_multi_det", "pauxy/walkers/multi_det.py: MultiDetWalker"]}
{"id": "C87", "title": "Recomputed coefficients of non-orthogonal determinants give the lowest energy", "statement": "For a trial state given by determinants that are not orthogonal, asking for recomputed coefficients gives the combination of norm one with the lowest energy under the Hamiltonian of the energy estimator, and the energy is the lowest generalised eigenvalue.", "quantifier": "every basis size, electron numbers, number of determinants and orbitals whose overlaps all exceed the threshold 1e-12; every Hermitian Hamiltonian for which the local energy is the mixed expectation", "why_tests_cant": "a generalised eigenvalue problem for any number of determinants, filled from Green's functions of pairs; thresholds matter only for special overlaps", "anchors": ["pauxy/trial_wavefunction/multi_slater.py: MultiSlater.recompute_ci_coeffs (non-orthogonal branch)", "pauxy/estimators/greens_function.py: gab_spin", "pauxy/estimators/hubbard.py: local_energy_hubbard"]}
{"id": "C88", "title": "Freezing core orbitals changes no energy of states with that core", "statement": "Integrals generated with an active space describe the same physics as the full integrals restricted to states with the core orbitals doubly occupied and the other inactive orbitals empty: overlaps, matrix elements, local energies of walkers and energies of superpositions of determinants of active orbitals equal those of the determinants with the core filled under the full Hamiltonian. The number of active electrons is the one asked for.", "quantifier": "every number of core, active and virtual orbitals, electron numbers, integrals with symmetric Cholesky vectors, determinants", "why_tests_cant": "tests compare single numbers for one molecule; the equality of all matrix elements quantifies over all determinants and sizes", "anchors": ["pauxy/utils/from_pyscf.py: generate_integrals, freeze_core", "pauxy/estimators/generic.py: core_contribution_cholesky, local_energy_generic_cholesky", "pauxy/estimators/greens_function.py: gab"]}
{"id": "C89", "title": "Cholesky vectors computed from shells reproduce the two-electron integrals", "statement": "Factorising the two-electron integrals of a molecule from blocks of shell quartets, with screening of the diagonal, gives the same vectors as factorising the full matrix: the vectors reproduce every integral to within the threshold; the version that writes to disk leaves the same vectors in the file.", "quantifier": "every list of shells of any size, integrals forming a symmetric positive semidefinite matrix, thresholds, buffer sizes and chunk sizes", "why_tests_cant": "the bookkeeping maps pairs of orbitals to shells for all shell structures; residual bounds quantify over all integrals", "anchors": ["pauxy/utils/from_pyscf.py: chunked_cholesky, chunked_cholesky_outcore, cholesky, search_shell"]}
{"id": "C90", "title": "Molecular integrals and the trial state in orthogonalised orbitals give the energy of the mean-field calculation", "statement": "Converting a mean-field calculation gives an orthonormal one-particle basis, a trial state of norm one in it, and one- and two-body integrals such that the energy of the trial state equals the mean-field energy of its density in the original basis up to the Cholesky threshold times the sum of the densities.", "quantifier": "every number of orbitals and electrons, overlap matrices, real integrals, orbital coefficients orthonormal under the overlap matrix, Cholesky vectors with the stated error", "why_tests_cant": "the equality is between two different bases for all molecules; tests compare one number", "anchors": ["pauxy/utils/from_pyscf.py: get_ortho_ao, generate_integrals, ao2mo_chol, write_wfn_mol, dump_pauxy"]}
{"id": "C91", "title": "An active-space wavefunction file lists the heaviest determinants up to the cutoff", "statement": "Writing the wavefunction of an active-space calculation lists its determinants by decreasing weight until the accumulated weight reaches the cutoff; each line has the coefficient and, read with the number of orbitals, the occupied orbitals of both spins including the core.", "quantifier": "every active space, number of core orbitals, electron numbers, coefficients, cutoff, order of equal coefficients", "why_tests_cant": "the pairing of coefficients with strings and orbital numbers for all spaces; files are only checked by other programs", "anchors": ["pauxy/utils/from_pyscf.py: multi_det_wavefunction"]}
{"id": "C92", "title": "The plane-wave energy by Fourier transforms is the Coulomb energy", "statement": "For the electron gas in a plane-wave basis with a kinetic-energy cutoff, the energy computed with Fourier transforms equals the kinetic energy plus the Coulomb repulsion of the Green's functions, with the integrals the system reports; the basis is the whole sphere, looked up correctly, and the trial occupies its lowest plane waves.", "quantifier": "every cutoff of at least 1/2, box, twist, numbers of electrons, orbitals, padding of the transforms that is long enough", "why_tests_cant": "the convolutions, index maps, reversals and prefactors for all meshes and Green's functions; a test fixes one small sphere, and no test compares with a twist", "anchors": ["pauxy/systems/pw_fft.py", "pauxy/estimators/pw_fft.py: local_energy_pw_fft", "pauxy/estimators/ueg_kernels.pyx: exchange_greens_function_fft, vq, mod_one_body"]}
{"id": "C93", "title": "The plane-wave propagator with Fourier transforms samples the same propagator as the general one", "statement": "A step of the plane-wave propagator with Fourier transforms applies the same one-body factor, truncated exponential, force bias and weight update as the general propagator with the density operators; free steps average, to first order in the time step, to the Coulomb Hamiltonian.", "quantifier": "every cutoff, box, twist, order of the expansion, auxiliary fields, walker; phaseless steps with an energy shift away from zero", "why_tests_cant": "averages over fields and equality for all fields and meshes; a random run cannot separate a wrong sign of one convolution from noise in general", "anchors": ["pauxy/propagation/pw.py: PW"]}
{"id": "C94", "title": "The imaginary-time Green's functions written by the run are those of their definition", "statement": "For every walker with one determinant, the greater and the lesser functions accumulated at each time slice are, for both spins, the ratio of the overlap with an electron added (removed) at the start and removed (added) after that many slices of the walker's path to the overlap without; the result does not depend on how often orbitals are reorthogonalised, and the entry in the file is the weighted average over walkers however they are spread over processes.", "quantifier": "every basis, electron number, list of invertible propagators, reorthogonalisation interval, QR routine, trial and walker with nonzero overlap, time slice, distribution of walkers", "why_tests_cant": "the stable algorithm multiplies equal-time functions of several slices: an error in the choice of the stored orbitals vanishes for one slice and for propagators that leave the orbitals unchanged, which are the cases with known answers", "anchors": ["pauxy/estimators/itcf.py: ITCF.calculate_spgf_stable, ITCF.calculate_spgf_unstable, ITCF.increment_tau_uhf_stable, ITCF.accumulate_uhf, ITCF.print_step", "pauxy/propagation/generic.py: back_propagate_generic"]}
{"id": "C95", "title": "Phonon functions and walker energies of the Hubbard-Holstein trial are those of their definitions", "statement": "The gradient, the Laplacian and the local energy offered by the oscillator and by the coherent-state trial are the derivatives of the trial's value in every coordinate and the phonon Hamiltonian acting on it, and a walker's local energy is the full electron-phonon Hamiltonian between trial and walker divided by their overlap, less the zero-point energy.", "quantifier": "every number of sites, mass, frequency, shift, coupling, number of coherent states, coefficients, orbitals, coordinates at which the trial does not vanish", "why_tests_cant": "derivatives of an unbounded family of functions at all coordinates; the mixed estimate is an identity for all walkers, and errors that vanish for real coefficients or after an electron step pass every fixed case", "anchors": ["pauxy/trial_wavefunction/harmonic_oscillator.py", "pauxy/trial_wavefunction/coherent_state.py: value, gradient, laplacian, bosonic_local_energy", "pauxy/estimators/hubbard.py: local_energy_hubbard_holstein", "pauxy/estimators/mixed.py: local_energy_multi_det_hh", "pauxy/walkers/multi_coherent.py: local_energy"]}
{"id": "C96", "title": "The phonon steps of the Hubbard-Holstein propagation follow imaginary time evolution", "statement": "Averaged over the random moves, a walker's contribution after many short phonon steps tends to that of the exact imaginary-time evolution under the phonon Hamiltonian over the same total time, and the sampling of the first coordinates leaves the squared trial function unchanged.", "quantifier": "every number of sites, mass, frequency, trial shift, walker, total time, finite combination of coherent states as test function; every bounded function for the first coordinates", "why_tests_cant": "a limit of iterated Gaussian integrals; a run shows one noisy trajectory at one time step", "anchors": ["pauxy/propagation/hubbard_holstein.py: boson_importance_sampling", "pauxy/walkers/single_det.py: SingleDetWalker.__init__", "pauxy/walkers/multi_coherent.py: MultiCoherentWalker.__init__"]}
{"id": "C97", "title": "The energy reported for a coherent-state trial is its expectation value", "statement": "The energy reported for a trial made of several determinants with coherent phonon states, or of permuted copies of one, is the expectation value of the Hubbard-Holstein Hamiltonian in that trial divided by its norm, less the zero-point energy.", "quantifier": "every number of sites, electrons and states, real coefficients and orbitals, shifts, symmetric hopping, coupling, mass and frequency", "why_tests_cant": "the expectation is a sum of Gaussian integrals over all phonon coordinates; a formula with one wrong term is still a plausible number, and small lattices where all permutations are symmetries hide the error", "anchors": ["pauxy/trial_wavefunction/coherent_state.py: calculate_energy"]}
{"id": "C98", "title": "The energies of the Lang-Firsov trial and of walkers with phonon momenta are expectation values", "statement": "The energy minimised for a Lang-Firsov trial and the energy reported for it are the expectation value of the Hubbard-Holstein Hamiltonian in a determinant whose phonons are displaced by gamma for every electron on their site, less the zero-point energy; the energy of a walker with phonon momenta is the transformed Hamiltonian between trial and walker divided by their overlap.", "quantifier": "every number of sites and electrons, orbitals, hopping, displacement of each site, shift, interaction, coupling, mass, frequency, momenta", "why_tests_cant": "the expectation is a sum over all electron configurations of Gaussian integrals; only one of two formulas has the mass, and the default mass hides the difference", "anchors": ["pauxy/trial_wavefunction/lang_firsov.py: objective_function, LangFirsov.calculate_energy", "pauxy/estimators/hubbard.py: local_energy_hubbard_holstein_momentum", "pauxy/systems/hubbard_holstein.py: gamma_lf"]}
{"id": "C99", "title": "The generalised Fock matrices for ionisation and affinity are expectation values of commutators", "statement": "The matrices written for the extended Koopmans theorem are, summed over the spins, the expectation values between trial and walker of c_p^+ [H, c_q] for removing an electron and of c_p [H, c_q^+] for adding one, H being the Hamiltonian of the run.", "quantifier": "every basis, electron number of each spin (none too), one-body matrix, Cholesky vectors, trial and walker with nonzero overlap; electron gas of every cutoff and box; every choice of what else is written", "why_tests_cant": "an operator identity for all determinants and integrals; closed shells, where both spins have the same density matrix, hide the errors, and they are what reference values exist for", "anchors": ["pauxy/estimators/ekt.py: gen_fock_1h, gen_fock_1p, ekt_1h_fock_opt, ekt_1p_fock_opt", "pauxy/estimators/back_propagation.py: update_uhf, print_step"]}
{"id": "C100", "title": "Returned ionisation energies and affinities are energies of states with one electron removed or added", "statement": "Given the exact density matrix and Fock matrices of an eigenstate, every ionisation energy returned by the extended-Koopmans analysis is the energy of the state that the eigenstate becomes by removing an electron from the orbital of the returned vector, less the energy of the eigenstate, averaged over the spin of the electron with its probability; every affinity is the same for an added electron. So none lies below the lowest exact energy difference.", "quantifier": "every basis, electron number of each spin, Hermitian one-body matrix and integrals, eigenstate with real density matrix, nonnegative cutoff of linear dependence, every diagonalisation that meets eigh's contract", "why_tests_cant": "a variational statement about all many-electron states; a wrong metric or transpose still gives plausible energies", "anchors": ["pauxy/analysis/blocking.py: analyse_ekt_ipea", "pauxy/utils/linalg.py: get_ortho_ao_mod"]}
{"id": "C101", "title": "Converting an FCIDUMP file keeps the Hamiltonian", "statement": "A run started from the converted file sees the one-body matrix, the core energy and the electron numbers of the FCIDUMP file, and its two-electron integrals agree with those of the file within the Cholesky threshold.", "quantifier": "every number of orbitals, file content, threshold, symmetry option and output format; positive integrals; every choice of pivot among equal ones", "why_tests_cant": "spans two programs and a file format; all two-electron integrals of all files; the errors show only for orbitals that are not real, and the default option hides the dropped imaginary part", "anchors": ["bin/fcidump_to_afqmc.py: main", "pauxy/utils/io.py: write_qmcpack_dense, from_qmcpack_dense", "pauxy/utils/hamiltonian_converter.py: read_fcidump", "pauxy/systems/generic.py: read_integrals, hijkl"]}
{"id": "C102", "title": "The one-body trial density matrix is the grand canonical ensemble it is said to be", "statement": "The one-body trial for finite temperature returns the density matrix and the number of particles of the grand canonical ensemble of its one-body Hamiltonian at the requested temperature and the returned chemical potential; the product of its slices is the statistical operator of this ensemble whatever the stack size; the number of particles is the target within the threshold if the chemical potential was searched; and `entropy` is the entropy of the many-electron ensemble.", "quantifier": "every number of orbitals, Hermitian one-body Hamiltonian, beta, time step, stack size or condition number, target, threshold, sign convention; every pivoted QR and eigenvalue routine that meets its contract", "why_tests_cant": "an identity between small matrices and traces over all many-electron states; a wrong temperature, transpose or stack size still gives a plausible density matrix", "anchors": ["pauxy/trial_density_matrices/onebody.py: OneBody.__init__", "pauxy/estimators/thermal.py: one_rdm_stable, particle_number, entropy", "pauxy/trial_density_matrices/chem_pot.py: compute_rho, find_chemical_potential"]}
{"id": "C103", "title": "The mean-field trial density matrix is self-consistent, has the target number of particles and bounds the grand potential", "statement": "The thermal Hartree-Fock trial returns a one-body Hamiltonian that is the Fock matrix of a density matrix it reproduces within the threshold, the density matrix and number of particles of its ensemble, and slices whose product is its statistical operator. The number of particles is the target. Its grand potential is no lower than the exact one, and for the Hubbard model no other one-body ensemble with paired spins has a lower one, up to the threshold.", "quantifier": "every number of orbitals, Hermitian hopping, interaction, beta, time step, mixing below one, threshold, numbers of iterations, sign convention", "why_tests_cant": "a variational statement over all one-body ensembles and all many-electron states, at the end of two nested loops of unbounded length", "anchors": ["pauxy/trial_density_matrices/mean_field.py: MeanField", "pauxy/estimators/hubbard.py: fock_hubbard", "pauxy/estimators/generic.py: fock_generic"]}
{"id": "C104", "title": "The phaseless constraint at finite temperature changes nothing without a phase problem", "statement": "For a system whose determinants cannot change sign (attractive Hubbard model, real hopping equal for both spins, real trial density matrix) the averages of a phaseless run over paths of imaginary time are those of free projection and converge to the grand canonical averages of the energy, kinetic energy and number of electrons as the time step goes to zero, whatever the force bias. Every path of a run repeats the first one. Weights are never negative and phases never change.", "quantifier": "every lattice, interaction U <= 0, chemical potential, temperature, number of slices, stack size, trial density matrix, mean field, real force bias, order of the expansion of at least two; averages over all fields", "why_tests_cant": "averages over unbounded numbers of Gaussian fields; the missing reset shows only from the second path on and only if the trial density matrix differs from the propagated one", "anchors": ["pauxy/thermal_propagation/continuous.py: propagate_walker_phaseless, two_body_propagator", "pauxy/thermal_propagation/planewave.py: propagate_walker_phaseless_full_rank", "pauxy/thermal_propagation/hubbard.py: HubbardContinuous", "pauxy/walkers/thermal.py: ThermalWalker", "pauxy/walkers/handler.py: Walkers.reset", "pauxy/estimators/mixed.py: Mixed.update"]}
{"id": "C105", "title": "The low-rank option changes only what is below the threshold", "statement": "A finite-temperature run with low_rank set gives the weights, phases and Green's functions of the same run without it if the threshold is small enough. For every threshold the overlap and the Green's function of a walker belong to one matrix, which differs from the product of the walker's factors by at most a multiple of the threshold. This holds for every path of a run and for free projection.", "quantifier": "every number of orbitals, diagonal trial density matrix, stack size, number of slices, path of fields without vanishing overlaps, force bias, threshold; every pivoted QR factorisation", "why_tests_cant": "the ranks kept change from step to step with the fields; the tests run a single block, where neither a second path nor unsorted orbitals occur", "anchors": ["pauxy/walkers/stack.py: PropagatorStack.update_low_rank, initialize_left", "pauxy/thermal_propagation/planewave.py: propagate_walker_phaseless_low_rank, propagate_walker_free_low_rank", "pauxy/walkers/thermal.py: ThermalWalker", "pauxy/walkers/handler.py: Walkers.reset"]}
{"id": "C106", "title": "The exact electron-phonon energies bound the ground state from above and converge to it", "statement": "Exact diagonalisation of electrons coupled to phonons returns eigenstates and the three lowest energies of the Hubbard-Holstein Hamiltonian restricted to at most the requested number of phonons. None of the energies rises when more phonons are allowed, and the lowest one tends to the ground state energy. It lies between the energy of the electrons alone and the same less 2 g^2/w0 for each electron. The printed parts add up to it, and the printed occupations and displacements are those of the returned state.", "quantifier": "every lattice, number of electrons, symmetric real hopping and interaction, frequency, coupling, cutoff and list of determinants; every eigensolver that meets the contract of eigsh", "why_tests_cant": "the phonon space is infinite: a test compares one cutoff with a stored number, which a wrong block offset or boson factor in the larger sectors would not change", "anchors": ["pauxy/estimators/ci.py: simple_fci_bose_fermi, unlabeled_balls_in_labeled_boxes, get_hmatel"]}
{"id": "C107", "title": "The UHF trial is self-consistent and its energy is an upper bound", "statement": "The UHF trial for the Hubbard model is a determinant of orthonormal orbitals with the requested numbers of electrons. They are the lowest orbitals in the mean field of their own density within the threshold, so that no change of the orbitals of one spin lowers the mean-field energy. The reported energies are the expectation values of the Hamiltonian with the effective and the true interaction, and the latter is no lower than the ground state energy. The checkerboard start has one electron on each site and opposite spins on neighbouring sites.", "quantifier": "every lattice, Hermitian hopping, interaction, effective interaction, numbers of electrons, mixing, threshold, numbers of iterations and starts, random numbers; every eigensolver that meets its contract", "why_tests_cant": "a statement about all orthonormal orbitals and all antisymmetric states at the end of a loop of unbounded length; a run that stops at a density which is not self-consistent looks converged", "anchors": ["pauxy/trial_wavefunction/uhf.py: UHF", "pauxy/utils/linalg.py: diagonalise_sorted"]}
{"id": "C108", "title": "The momentum-space option gives the one-body step of the default", "statement": "With `ffts` set, the one-body step of a discrete Hubbard walker multiplies the orbitals by the exponential of the hopping the run was given, as without it.", "quantifier": "every lattice, boundary condition, twist, time step, numbers of electrons, orbitals", "why_tests_cant": "an identity of exponentials of matrices of any size; a test on a square periodic lattice cannot see exchanged directions, a twist or an open boundary", "anchors": ["pauxy/propagation/hubbard.py: kinetic_kspace, Hirsch.__init__, Hirsch.kinetic_importance_sampling", "pauxy/utils/fft.py: fft_wavefunction, ifft_wavefunction"]}
{"id": "C109", "title": "The FCIDUMP of a Hubbard system describes the Hamiltonian of the run", "statement": "The text returned by `fcidump` of a Hubbard system, read with the package's own reader, gives the numbers of electrons, the two-electron integrals and the hopping of the system, so that the energy of any walker computed from the file is the energy the run reports. With pinning fields the hopping is that of the documented lattice: periodic along x, open along y, with opposite staggered fields for the spins on the edges.", "quantifier": "every lattice, boundary condition, twist, pinning, interaction, numbers of electrons, permutational symmetry of the reader, Green's function; every way of printing numbers that keeps t, 2t and U", "why_tests_cant": "the pairs of sites are all those of a lattice of any size; a test of one file compares text and not energies, and none covers pinning or twists", "anchors": ["pauxy/systems/hubbard.py: Hubbard.fcidump, Hubbard.hijkl, kinetic_pinning, kinetic_pinning_alt", "pauxy/utils/hamiltonian_converter.py: read_fcidump"]}
{"id": "C110", "title": "The FCIDUMP of a Hamiltonian with k-points describes the same Hamiltonian", "statement": "The file written from the Cholesky vectors of a Hamiltonian with k-points, read again, holds the integrals that these vectors define, all those above the tolerance and no others, with the orbitals numbered k-point after k-point. What is read from a k-point Hamiltonian file can be written, also if the file stores only one of each pair of opposite momentum transfers, and real integrals can be written as real numbers.", "quantifier": "every number of k-points, orbitals for each k-point, vectors for each momentum transfer, assignment of k-points, integrals, tolerance, permutational symmetry, odd rounding of the printed numbers", "why_tests_cant": "six nested loops with two running counters over sizes that differ from k-point to k-point; a test with equal numbers of orbitals or one k-point cannot see a wrong counter, and none exists for these functions", "anchors": ["pauxy/utils/hamiltonian_converter.py: write_fcidump_kpoint, get_kpoint_chol, read_qmcpack_cholesky_kpoint, check_sym, fmt_integral, read_fcidump"]}
{"id": "C111", "title": "Back-propagated estimates are matrix elements of the exact projection", "statement": "With fully restored weights, the energy, the density matrices and the denominator that the back-propagation estimator accumulates have averages over the auxiliary fields whose ratio is, up to time-step errors that vanish when a window of fixed imaginary time is divided into more steps, the matrix element of the measured operator followed by the exponential of the Hamiltonian between the trial and the walker at the start of the window, over that of the exponential alone: the constraint applied during the window is undone. This does not depend on the force bias nor on when walkers are reorthogonalised. The estimator also works in free projection, with the local-energy weight, for killed walkers and for the Hubbard model with continuous fields.", "quantifier": "every Hamiltonian with symmetric Cholesky vectors, trial, starting walker, force bias, sequence of reorthogonalisations, number of steps and length of the window, every quantity that is a matrix element over an overlap (one- and two-body density matrices, energy, denominator)", "why_tests_cant": "an average over continuous fields of a whole window and a limit of the time step; a test compares one noisy number with a tolerance, and cannot tell a phase that is not restored from noise", "anchors": ["pauxy/estimators/back_propagation.py: BackPropagation.update_uhf", "pauxy/propagation/continuous.py: propagate_walker_phaseless, update_weight_hybrid, update_weight_local_energy", "pauxy/propagation/generic.py: back_propagate_generic", "pauxy/propagation/hubbard.py: construct_propagator_matrix, back_propagate", "pauxy/walkers/stack.py: get_wfac"]}
{"id": "C112", "title": "Reported errors are standard errors of the reported means", "statement": "The mean that an analysis function prints is the mean of the samples kept (for a ratio: the ratio of the means), and the error beside it is the standard error of that mean: for samples that are not correlated the average of its square is the mean square deviation of the mean from the true value; for ratios, to first order in the fluctuations. This holds for density matrices with blocks left out, one-body operators, spin and hole densities, energies at finite temperature, averages over runs at equal imaginary time with the constraint and in free projection.", "quantifier": "every number of samples of at least two, blocks left out, distribution of samples that are not correlated and have a common mean and variance, numerators and denominators with mean not zero", "why_tests_cant": "an error bar that is wrong by a constant factor fails no test: it needs the average over all samples of the square of the error, as a function of the number of samples", "anchors": ["pauxy/analysis/blocking.py: average_rdm, average_fp, average_tau, average_single, average_correlation", "pauxy/analysis/rdm.py: analyse_split, analyse_one_body", "pauxy/analysis/thermal.py: analyse_energy", "pauxy/analysis/extraction.py: extract_rdm"]}
{"id": "C113", "title": "Only runs of the same calculation are averaged together", "statement": "The analysis of the output of several runs uses exactly the lines written after the start time asked for, puts together the lines of runs with the same Hamiltonian and parameters, all of them, and reports the different sets of parameters separately; it works for every file a run writes.", "quantifier": "every list of output files, metadata, start time, number of lines", "why_tests_cant": "depends on which keys the metadata of several files have and lack at the same time; the tests analyse one file of one system", "anchors": ["pauxy/analysis/blocking.py: analyse_estimates, reblock_mixed, analyse_back_prop", "pauxy/analysis/extraction.py: set_info, extract_mixed_estimates", "pauxy/analysis/thermal.py: analyse_energy"]}
{"id": "C114", "title": "The chemical potential reported is the best fit for the density asked for", "statement": "The chemical potential found for a target density is the root of the fit with the smallest residual among the windows of data points tried, and it is reported whenever a window has a root.", "quantifier": "every number of data points, order of the fit, residuals and roots of the windows", "why_tests_cant": "the order in which residuals fall and rise over the windows matters; any test with one or two windows passes", "anchors": ["pauxy/analysis/thermal.py: find_chem_pot"]}
{"id": "C115", "title": "The options that choose the energy routine do not change the energy", "statement": "Whether half-rotated vectors or stored four-index integrals are used, with or without control variates, on any number of ranks, every energy of a run equals the full local energy of the walker; each combination of the options for sampling, control variates, stored integrals and pair natural orbitals that the input accepts gives an energy.", "quantifier": "every Hamiltonian, trial determinant, walker, number of ranks and order of their work, all combinations of options", "why_tests_cant": "the routines are unit tested one by one on arrays built in the test; that the run hands each of them the array it expects holds or fails over the whole product of options and call sites", "anchors": ["pauxy/estimators/mixed.py: local_energy", "pauxy/trial_wavefunction/multi_slater.py: half_rotate", "pauxy/walkers/single_det.py: local_energy", "pauxy/estimators/generic.py: local_energy_generic_opt, local_energy_generic_cholesky_opt_stochastic"]}
{"id": "C116", "title": "Pair natural orbitals change the energy by no more than the threshold allows", "statement": "In a run with pair natural orbitals the energy of a walker differs from its full local energy by at most the threshold times a bound from the walker's and the trial's half-rotated Green's functions; with threshold zero it is the full local energy.", "quantifier": "every Hamiltonian, trial determinant, starting determinant, walker, threshold and singular value decomposition meeting its contract", "why_tests_cant": "the truncation error depends on all singular values of all pairs, and a constant shift of all energies is invisible in any comparison of walkers", "anchors": ["pauxy/estimators/generic.py: local_energy_generic_pno", "pauxy/trial_wavefunction/multi_slater.py: half_rotate", "pauxy/walkers/single_det.py: __init__, local_energy_2body"]}
{"id": "C117", "title": "The integrals of the electron gas between real orbitals describe the same Hamiltonian", "statement": "The transformation to sums and differences of opposite plane waves always exists, is unitary and gives orbitals that are real at every point of the box; the integrals returned for them are real before the real part is taken, have all eight permutational symmetries, and together with the unchanged one-body matrix are the Hamiltonian of the electron gas. With a twist the one-body matrix between these orbitals is real as well.", "quantifier": "every cutoff, volume, momentum unit and operator algebra; every twist for the transformation", "why_tests_cant": "the pairing of plane waves depends on the sorted basis of every cutoff, and a wrong sign in one pair shows only in integrals that mix it with others; there is no test of either routine", "anchors": ["pauxy/systems/ueg.py: compute_real_transformation, eri_4, eri_8"]}
{"id": "C118", "title": "A run set up from the Hamiltonian file of the electron gas has the energies of the electron gas", "statement": "The file written for the electron gas holds the kinetic energy and vectors that reproduce the Coulomb integrals, and a run that reads it gives every determinant the energy it has in the electron gas.", "quantifier": "every cutoff and volume whose entries are above the cutoff of the file, every determinant of plane waves", "why_tests_cant": "the test writes the file and deletes it; which convention a reader applies to vectors that are not symmetric shows only in the exchange energy", "anchors": ["pauxy/systems/ueg.py: write_integrals", "pauxy/utils/io.py: write_qmcpack_sparse, from_qmcpack_sparse", "pauxy/systems/generic.py: read_integrals, hijkl", "pauxy/estimators/generic.py: local_energy_generic_cholesky"]}
{"id": "C119", "title": "The electron step of a Hubbard-Holstein run averages to the split exponential of its Hamiltonian", "statement": "For a coherent-state trial with real coefficients and the spin decomposition, averaging the walker's weight times its determinant over its stored overlap, over all random numbers of one electron step, gives the weight over the overlap times exp(-dt/2 K) exp(-dt V) exp(-dt/2 K) applied to the determinant, where K holds hopping and the coupling to the walker's phonon displacements and V the Hubbard repulsion, whenever no fields are cut by the constraint. False of the charge decomposition (it projects with another interaction), of the third option value (no hopping, no coupling) and of complex coefficients (stored overlap wrong after the second site).", "quantifier": "all numbers of sites, electrons and coherent states, hopping matrices, couplings, displacements, time steps, interactions, walkers and antisymmetric functionals", "why_tests_cant": "an average over all fields and the comparison with an exponential of a many-body operator are out of reach of a run; the constrained weight of a single step agrees with the code's own overlaps even when those are wrong", "anchors": ["pauxy/propagation/hubbard_holstein.py: propagate_walker_constrained, two_body, kinetic_importance_sampling, kinetic_real", "pauxy/walkers/multi_coherent.py: calc_otrial, inverse_overlap, update_inverse_overlap, update_overlap"]}
{"id": "C120", "title": "Constrained runs of Hubbard chains reach the lowest energy", "statement": "For the Hubbard model on a chain with open ends and any numbers of electrons, or on a ring with odd numbers of electrons of both spins, with a repulsive interaction, and a free-electron or UHF trial wave function from which the walkers start: whichever eigenvectors the eigensolver returns and whichever UHF solution is found, the average of weight times local energy over the average weight converges, for many short steps, to the energy of the state evolved in imaginary time, and this to the lowest energy of the Hamiltonian with these numbers of electrons. The energy shifts and the reorthogonalisations have no influence, no walker is ever lost and all weights stay positive.", "quantifier": "all chain lengths, numbers of electrons, hopping amplitudes, interactions, imaginary times, energy shifts, numbers and positions of reorthogonalisations, random numbers, eigensolvers and QR factorisations", "why_tests_cant": "needs the average over all random numbers, the limit of short steps and of long times, and the exact lowest energy", "anchors": ["pauxy/propagation/hubbard.py: propagate_walker_constrained, two_body, kinetic_importance_sampling", "pauxy/trial_wavefunction/free_electron.py", "pauxy/trial_wavefunction/uhf.py", "pauxy/walkers/single_det.py: reortho, greens_function", "pauxy/estimators/hubbard.py: local_energy_hubbard"]}
{"id": "C121", "title": "Population control does not change the projected energy of Hubbard runs", "statement": "Whatever positive weights the walkers have, pair branching replaces every walker by copies whose total weight is on average its weight rescaled to the target, with one random number per walker. In a run of a population of walkers of a Hubbard model, with population controls, reorthogonalisations and energy shifts that may depend on the whole history, in which no weight is capped, no walker is skipped and the run is not stopped: the averages over all random numbers of the sum of weights and of the sum of weight times local energy, with the factors of the energy shifts and of the rescalings put back, are those of the states evolved by the step operator. Their ratio does not depend on the number of walkers, the ranks, the branching thresholds, the energy shifts or the positions of the controls. For open chains and rings with free-electron and UHF trials it converges to the lowest energy. The conditions on the cap, the skip and the exit hold in every run once the thresholds are far enough away.", "quantifier": "all numbers of walkers and ranks, branching thresholds, sequences of steps, controls and reorthogonalisations, energy shifts as functions of the history, random numbers, chain lengths, numbers of electrons, hopping amplitudes, repulsive interactions", "why_tests_cant": "a bias of the branching averages out only over all random numbers, and the factors that control the population are correlated with the weights", "anchors": ["pauxy/qmc/afqmc.py: run", "pauxy/walkers/handler.py: pop_control, pair_branch", "pauxy/propagation/hubbard.py: propagate_walker_constrained"]}
{"id": "C122", "title": "Attractive Hubbard chains with the charge decomposition", "statement": "For an attractive interaction the spin decomposition has no real field strength. With the charge decomposition a constrained step projects, up to a constant factor for every electron, with an interaction U' given by exp(-dt U') = 2 - exp(dt U), which is weaker than U at every positive time step and tends to U for short steps. On open chains with any numbers of electrons and on rings with odd numbers of electrons of both spins, with free-electron and UHF trials, the energy of runs of a population converges for short steps to that of the state evolved in imaginary time with the right interaction, and this to the lowest energy.", "quantifier": "all chain lengths, numbers of electrons, hopping amplitudes, attractive interactions, time steps, imaginary times, populations, controls, energy shifts, eigensolvers and QR factorisations", "why_tests_cant": "the error of the interaction is of the order of the time step and looks like the usual time step error; needs the limit of short steps and the exact lowest energy", "anchors": ["pauxy/propagation/hubbard.py: Hirsch.__init__, propagate_walker_constrained, two_body_single_site, kinetic_importance_sampling", "pauxy/walkers/handler.py: pop_control"]}
{"id": "C123", "title": "Walkers started from the spin-projected determinant keep their spin, and the estimators do not see the spin contamination of the trial", "statement": "With spin projection of the initial walker and no more down than up electrons, every walker of a run with a propagator that treats both spins alike (generic systems with one matrix for both spins, the continuous charge field of the Hubbard model, plane waves, the discrete charge field) stays an eigenfunction of the total spin with s = (nup - ndown)/2, through all steps, fields, force biases and reorthogonalisations. It has no overlap with any state of another spin, and the mixed estimate of any operator that does not act on the spins, from walkers with any weights, is that with the part of the trial that has this spin. For a closed-shell trial the overlap of the trial with the initial walker made from natural orbitals has modulus |det A^T A|^2: one for real orbitals, zero for some complex ones. False of the spin decomposition, which gives walkers without a definite spin; without down electrons the option raises.", "quantifier": "all numbers of orbitals and electrons, tables, fields, force biases, eigensolvers, QR factorisations, trials (sums of determinants of any spins), spin-free operators", "why_tests_cant": "the spin of a walker is not computed anywhere in the code, and a walker of mixed spin gives plausible energies", "anchors": ["pauxy/trial_wavefunction/utils.py: get_trial_wavefunction", "pauxy/estimators/greens_function.py: gab_spin, gab_mod", "pauxy/propagation/continuous.py", "pauxy/propagation/hubbard.py", "pauxy/walkers/single_det.py: reortho"]}
{"id": "C124", "title": "Interrupted Hubbard runs", "statement": "A constrained run of a Hubbard chain that is stopped after its walkers were written and started again from the file, any number of times, with the same number of walkers distributed in any way over any number of ranks, has the energy of the run that was not stopped (weight times local energy over weight, averaged over all random numbers with the factors of shifts and rescalings put back), although the restarted walkers carry the inverse overlap matrices of the trial and the restarted run begins with shift zero and a new total weight. False with the option use_log_shift: the shift is not in the file and the stored overlap of a restarted walker is wrong.", "quantifier": "all runs (sequences of steps, population controls, reorthogonalisations and restarts), energy shifts that may depend on everything before, numbers of walkers and ranks, systems and trials without a sign problem", "why_tests_cant": "a restart that loses part of the state of a walker biases the next steps only, and the bias averages out of sight over random numbers", "anchors": ["pauxy/walkers/handler.py: get_write_buffer, set_walker_from_buffer, write_walkers, read_walkers", "pauxy/qmc/afqmc.py: run"]}
{"id": "C125", "title": "Hubbard runs with trials made of determinants that mix the spins", "statement": "For a trial that is a sum of generalised Hartree-Fock determinants (every orbital may mix the spins) the walker reports the overlap with the whole sum, a Green's function whose element (a, b) is that of c+_a c_b between trial and walker, and an energy that is the mixed energy of the Hubbard Hamiltonian. If the walker itself does not mix the spins, the fields of a site are chosen with the overlap after over before, all stored overlaps and weights belong to the new determinant afterwards, weight over overlap times any quantity of the determinant averages over the random numbers of a whole sweep to the mean over all fields, and the mean over the fields of a site is the action of exp(-dt U n_up n_down). The matrix of a step used in back propagation is the one that the forward step applied, and the back-propagated expansion with its weights has with every determinant the overlap of the trial with the determinant propagated forward. False of walkers that mix the spins, which the code also lets a run start from: half of the entries are not updated and the stored overlap is wrong. The Green's functions used in back propagation are the transposed ones, so the energy is that of the transposed hopping (wrong for twisted boundary conditions).", "quantifier": "all numbers of sites, electrons and determinants, hopping matrices, interactions, walkers, fields, random numbers, numbers of steps, frequencies of the reorthogonalisation", "why_tests_cant": "runs with these trials cannot be started in this version, so no test compares them with anything; a transposed Green's function gives the right energy for every real hopping", "anchors": ["pauxy/walkers/multi_ghf.py: MultiGHFWalker", "pauxy/estimators/hubbard.py: local_energy_hubbard_ghf, local_energy_hubbard_ghf_full", "pauxy/estimators/greens_function.py: gab_multi_ghf, gab_multi_det_full", "pauxy/propagation/hubbard.py: calculate_overlap_ratio_multi_ghf, construct_propagator_matrix_ghf, back_propagate_ghf", "pauxy/propagation/operations.py: kinetic_ghf"]}
{"id": "C126", "title": "Trial wavefunctions in text files", "statement": "A sum of determinants written to a text file and read back for the padded number of orbitals has the same coefficients and the same occupied orbitals, rounded to the digits of the file, for any numbers of determinants, orbitals and padding. A Hartree-Fock trial from a file with nine lines before the orbitals has the lowest orbitals of each spin, for one set of orbitals or two; an excitation into an empty orbital gives a normalised determinant orthogonal to the one without, into an occupied orbital a vanishing one. A free-electron trial from a Fortran file has the orbitals of the file in their order, whatever the order of the spins, if no up orbital has a node. False otherwise: with a node reading raises or gives two electrons the same orbital; files in the format of the routine that writes Hartree-Fock orbitals cannot be read (eight lines before the orbitals); excitations with two sets of orbitals raise.", "quantifier": "all numbers of orbitals, electrons, determinants, all matrices, orders of the columns, rounding functions", "why_tests_cant": "a file format is tested on one file; orbitals with nodes depend on the lattice", "anchors": ["pauxy/utils/io.py: write_phfmol_wavefunction, read_phfmol, dump_qmcpack_trial_wfn, read_qmcpack_wfn", "pauxy/trial_wavefunction/hartree_fock.py: HartreeFock", "pauxy/trial_wavefunction/free_electron.py: FreeElectron"]}
{"id": "C127", "title": "Back-propagated density matrices of Hubbard chains reach those of the ground state", "statement": "In a constrained run of the Hubbard model without a sign problem, the average over all random numbers of weight times any quantity computed from the back-propagated Green's function is exactly the quantity between the trial evolved by the steps of the window and the walker evolved by the steps before it, although the matrices of back propagation lack a factor, whatever the energy shifts and the reorthogonalisations of walkers and back-propagated trial. For many short steps, then for a long run with a long window, the printed one- and two-body density matrices become those of the ground state, which is unique, and the energy computed from them becomes its energy: for chains with open ends and any numbers of electrons, for rings with odd numbers of electrons of each spin, with free-electron or UHF trials, U >= 0. Two options do not work: with `evaluate_energy` the call raises for every system; with `restore_weights` every walker with discrete fields has weight nan (`full`) or zero.", "quantifier": "all lengths, numbers of electrons, hopping > 0, U >= 0, lengths of the run and of the window, energy shifts, places of reorthogonalisations, eigensolvers and QR routines within their contracts, all random numbers", "why_tests_cant": "an integral over all random numbers and two limits; a test sees one run with noise and a finite window", "anchors": ["pauxy/estimators/back_propagation.py: BackPropagation.update_uhf", "pauxy/propagation/hubbard.py: Hirsch.back_propagate, Hirsch.two_body_single_site, Hirsch.propagate_walker_constrained", "pauxy/walkers/stack.py: FieldConfig", "pauxy/walkers/handler.py: Walkers.orthogonalise, copy_historic_wfn"]}
{"id": "C128", "title": "Back-propagated estimates of populations with population control", "statement": "A run of a population of walkers on any number of ranks for the Hubbard model without a sign problem, with pair branching, energy shifts that depend on everything that happened before, reorthogonalisations and any number of back-propagation windows: the average over all random numbers (those of the propagation and those of pair branching, with the factors taken out of the weights put back) of the sum over the walkers of weight times a quantity computed from the back-propagated Green's function is exactly the quantity between the trial evolved by the steps of the last window and the state evolved by the steps before. Copies of a walker carry its old determinant and its history of fields, so population control inside a window does no harm. The estimates are those of a single walker; the density matrices of chains and rings with any population become those of the ground state and their energy becomes the lowest energy. This holds as long as no walker is skipped for a tiny weight, no weight is cut and no run stops, and that is so for every run if the thresholds are far enough away.", "quantifier": "all numbers of walkers and ranks, control options, events in any order, energy shifts, lengths of the run and of the last window, hopping > 0, U >= 0, electrons, eigensolvers and QR routines within their contracts, all random numbers", "why_tests_cant": "an integral over all random numbers of all walkers and of branching; a test cannot tell lost histories from noise", "anchors": ["pauxy/qmc/afqmc.py: AFQMC.run", "pauxy/walkers/handler.py: Walkers.pop_control, Walkers.pair_branch, copy_historic_wfn", "pauxy/walkers/walker.py: Walker.get_buffer, Walker.set_buffer", "pauxy/walkers/stack.py: FieldConfig.get_buffer, FieldConfig.set_buffer", "pauxy/estimators/back_propagation.py: BackPropagation.update_uhf"]}
{"id": "C129", "title": "Thermal runs are at the temperature that was asked for", "statement": "The driver of thermal runs counts round(beta/dt) slices, the trial and the stack of every walker int(beta/dt), the bins of the trial are int(beta/(stack_size*dt)). In exact arithmetic, and for times that are not rounded when they are read, all agree if beta is a whole number n of slices, and the product over the stack at the end of a path is the ordered product of all n slices. In general a run completes exactly if driver and trial have the same number of slices, whatever the stack size and for both updates of the stack, and then its inverse temperature differs from the one asked for by at most half a slice; otherwise the last slice of the first path raises. In floating point, for decimal times that are rounded when they are read, the driver always runs over n slices, but everything computed as int(b/d) (slices of trial and stack, bins, back-propagation windows, equilibration) is n or n - 1, n - 1 exactly if the rounded quotient is below n: beta = 0.3 with dt = 0.1 raises, beta = 0.3 with dt = 0.02 and stacks of five slices silently has a trial density matrix and chemical potential of beta = 0.2, and beta = 0.7, dt = 0.02 with one stack of 35 slices has no bin at all. In reduced units both times are divided by the Fermi energy and the number of slices does not change, but only with the key `dt` (the documented `timestep` raises), only for the electron gas, and the equilibration is counted with the unconverted time step.", "quantifier": "all beta >= 0, dt > 0, stack sizes that divide the slices, numbers of paths, matrices of slices, whole numbers of slices below 2^49 in floating point", "why_tests_cant": "which decimal times lose a slice depends on their binary digits; tests use a few pairs of times", "anchors": ["pauxy/qmc/thermal_afqmc.py: ThermalAFQMC.__init__, ThermalAFQMC.run", "pauxy/trial_density_matrices/onebody.py: OneBody.__init__", "pauxy/walkers/thermal.py: ThermalWalker.__init__", "pauxy/walkers/stack.py: PropagatorStack.update, PropagatorStack.update_full_rank", "pauxy/qmc/options.py: QMCOpts, convert_from_reduced_unit", "pauxy/estimators/back_propagation.py: BackPropagation.__init__"]}
{"id": "C130", "title": "What can be read back from the metadata of an output file", "statement": "A run writes the attributes of the driver, and of all objects and dictionaries it holds, into its output file, and the analysis reads its parameters from there. Every Python integer, float, truth value, string or None of the run is read back unchanged under the names of the objects that hold it, whatever the verbosity, unless its own name is `estimates`, `global_estimates`, `walkers` or `store`; names that the run does not have are not there. So the columns by which the analysis tells Hubbard runs apart hold the parameters of the runs. Integers and truth values of numpy, lists and tuples are left out without notice, and of complex numbers the real part is kept: a Hubbard run whose interaction is a numpy integer is missing from the analysis altogether. The length of the back-propagation window is recorded, but never used to tell runs apart. Writing raises exactly if an object of the run holds a one-dimensional array without elements (unless the verbosity in effect is 3), or something without a first item under the name `walkers`.", "quantifier": "all trees of objects and dictionaries with distinct names, all verbosities, all paths of names", "why_tests_cant": "an unbounded variety of nested objects; a test writes one run", "anchors": ["pauxy/utils/misc.py: serialise, is_class, get_from_dict", "pauxy/utils/io.py: to_json", "pauxy/estimators/handler.py: Estimators.dump_metadata", "pauxy/analysis/extraction.py: get_metadata, get_param, set_info", "pauxy/qmc/afqmc.py: AFQMC.__init__"]}
{"id": "C131", "title": "Attractive Hubbard models with paired electrons have no constraint bias on any lattice", "statement": "Attractive Hubbard model with the charge decomposition, real hopping equal for both spins on any lattice, as many up as down electrons, a trial wave function with the same real orbitals for both spins (as the free-electron trial without twist): for all time steps but countably many, no walker of a constrained run started from the trial is ever lost and no weight becomes negative, whatever the random numbers and reorthogonalisations, both spins of every walker keep the same orbitals, and the average of a step is the unconstrained one. For all imaginary times but countably many, the energies of runs of populations with population control, reorthogonalisations and restarts converge for short steps to the energy of the state evolved in imaginary time, and this for long times to the lowest energy with which the trial overlaps.", "quantifier": "all lattices with real symmetric hopping, all U < 0, numbers of electrons n + n, time steps and imaginary times outside a countable set, numbers of walkers, control options, events, energy shifts, eigensolvers and QR routines within their contracts, all random numbers", "why_tests_cant": "an integral over all random numbers; a bias of the constraint is hidden by noise, and a vanishing overlap needs a special time step", "anchors": ["pauxy/propagation/hubbard.py: Hirsch.__init__, Hirsch.two_body_single_site, Hirsch.kinetic_importance_sampling, Hirsch.propagate_walker_constrained", "pauxy/trial_wavefunction/free_electron.py: FreeElectron", "pauxy/walkers/single_det.py: SingleDetWalker.reortho", "pauxy/systems/hubbard_holstein.py: kinetic"]}
{"id": "C132", "title": "Half-filled repulsive Hubbard models on bipartite lattices have no sign problem where fields are drawn for whole sweeps", "statement": "Take a repulsive Hubbard model with one electron per site on a bipartite lattice (chains and rectangles, open, or of even length where periodic or twisted; any Hermitian hopping between the sublattices, equal for both spins), the spin decomposition, and a trial wave function whose down orbitals are, up to signs on one sublattice, orthogonal to the up orbitals; the free-electron trial is of this kind if all occupied levels lie below zero. Then in free projection the factor weight times phase times overlap, with which a walker enters all averages, is real and not negative whatever fields are drawn. In constrained runs with `single_site_update` off the constraint never acts: with equal numbers of up and down electrons a walker is, for all random numbers, the same as in a run without the constraint. With the default single-site update this is not so: fields can be excluded in the middle of a sweep although every completion of the sweep has a positive overlap.", "quantifier": "all bipartite lattices, hoppings, U and dt with dt*U >= 0 in the field table, numbers of up and down electrons adding up to the number of sites, trial wave functions of the kind named, lengths of runs, fields or random numbers, energy shifts, reorthogonalisations, QR and eigenvalue routines within their contracts", "why_tests_cant": "a statement on all paths of fields; a test samples a few, on lattices with chosen shapes, and a rare negative sign is taken for noise", "anchors": ["pauxy/propagation/hubbard.py: Hirsch.__init__, Hirsch.propagate_walker_free, Hirsch.two_body_direct, Hirsch.two_body_single_site, Hirsch.kinetic_importance_sampling, Hirsch.propagate_walker_constrained", "pauxy/estimators/mixed.py: Mixed.update", "pauxy/trial_wavefunction/free_electron.py: FreeElectron", "pauxy/walkers/single_det.py: SingleDetWalker.reortho", "pauxy/systems/hubbard_holstein.py: kinetic"]}
{"id": "C133", "title": "At half filling every walker has one electron on every site and a real local energy", "statement": "For the half-filled Hubbard models on bipartite lattices of C132 (complex hopping and twisted boundaries included), every walker that survives a constrained run with the default single-site update, and every walker of a free projection with non-vanishing overlap, has Green's functions with n_up(i) + conj(n_down(i)) = 1 on every site i, and the hops of the down electrons are the complex conjugates of those of the up electrons. Its local energy is real: twice the real part of the kinetic energy of the up electrons plus U times (N_up minus the sum of |n_up(i)|^2). So the real parts taken by the estimators discard nothing, and in free projection numerator and denominator of the energy are real walker by walker.", "quantifier": "all lattices, hoppings, U, dt, trial wave functions and electron numbers of C132, all lengths of runs, random numbers in [0,1) or fields, energy shifts, reorthogonalisations, QR routines within their contract", "why_tests_cant": "an exact identity for all walkers along all paths; a test compares averages within error bars, in which an imaginary part or a density off by little is not seen", "anchors": ["pauxy/propagation/hubbard.py: Hirsch.propagate_walker_constrained, Hirsch.two_body_single_site, Hirsch.propagate_walker_free", "pauxy/estimators/hubbard.py: local_energy_hubbard", "pauxy/walkers/single_det.py: SingleDetWalker.greens_function, SingleDetWalker.reortho", "pauxy/estimators/mixed.py: Mixed.update"]}
{"id": "C134", "title": "Attractive Hubbard models with paired electrons: no sign problem in free projection, and the same real Green's function for both spins", "statement": "Take an attractive Hubbard model on any lattice with real hopping equal for both spins (no twist), the charge decomposition, equal numbers of up and down electrons and a real trial wave function with the same orbitals for both spins, such as the free-electron trial. In free projection weight times phase times overlap, with which a walker enters all averages, is real and not negative, whatever fields are drawn and however often walkers are reorthogonalised. Both spins of a walker have the same Green's function, and its elements and the local energy are real, so that numerator and denominator of the energy are real walker by walker. In constrained runs with single-site updates the same holds for every walker, and no walker is ever removed, but for countably many time steps.", "quantifier": "all lattices, real hoppings, U < 0, dt >= 0 (countably many excluded in the constrained case), numbers of electrons, paired real trial wave functions, lengths of runs, fields or random numbers, energy shifts, reorthogonalisations, QR routines within their contract", "why_tests_cant": "a statement on all paths of fields; a test samples a few paths, and cannot tell a rare negative sign or a small imaginary part from noise", "anchors": ["pauxy/propagation/hubbard.py: Hirsch.__init__, Hirsch.propagate_walker_free, Hirsch.propagate_walker_constrained, Hirsch.two_body_single_site", "pauxy/estimators/mixed.py: Mixed.update", "pauxy/estimators/hubbard.py: local_energy_hubbard", "pauxy/trial_wavefunction/free_electron.py: FreeElectron", "pauxy/walkers/single_det.py: SingleDetWalker.greens_function, SingleDetWalker.reortho"]}
{"id": "C135", "title": "Without a sign problem, free projection prints real energies between the local energies and an overlap column of exactly one", "statement": "In free projection of the half-filled repulsive Hubbard models of C132, and of the attractive models with paired electrons of C134, every row printed after the initial one has a positive real weight, a real projected energy between the smallest and the largest local energy of the walkers that entered the block, and the value one in its overlap column (the average of weight times modulus of the overlap, divided by the average of weight times overlap times phase). This holds whatever fields each walker has seen, whatever positive weights population control and the cap have given it, and on any number of ranks. For attractive models no walker ever becomes orthogonal to the trial wave function, but for countably many time steps; at half filling walkers orthogonal to it are excluded.", "quantifier": "all models, trial wave functions, dt of C132 and C134, numbers of ranks, walkers, blocks and steps per block (the evaluation period dividing the block length), histories of fields and reorthogonalisations, positive weights", "why_tests_cant": "the overlap column is a ratio of sums over all walkers and steps; a test sees one value close to one for one seed and cannot tell that no cancellation is possible", "anchors": ["pauxy/estimators/mixed.py: Mixed.update, Mixed.print_step", "pauxy/propagation/hubbard.py: Hirsch.propagate_walker_free", "pauxy/walkers/handler.py: Walkers.orthogonalise, Walkers.pop_control", "pauxy/qmc/afqmc.py: AFQMC.run", "pauxy/estimators/hubbard.py: local_energy_hubbard"]}
{"id": "C136", "title": "In free projection of Hubbard models no walker becomes orthogonal to the trial wave function, but for countably many time steps", "statement": "Take any repulsive Hubbard model with the spin decomposition or any attractive one with the charge decomposition (any lattice, twist, numbers of up and down electrons), and any trial determinant with linearly independent orbitals, from which the walkers start. For all but countably many time steps, no walker of a free projection ever has a vanishing overlap with the trial wave function, whatever the fields, however many steps and reorthogonalisations: Green's function and local energy are always defined, and no inverse of a singular overlap matrix is ever taken. At half filling on bipartite lattices the output rows of C135 are therefore real, bracketed and without cancellation with no exception for walkers orthogonal to the trial. Exceptional time steps do exist: on two sites there is a model, a trial and a time step for which a walker becomes orthogonal to the trial in two steps.", "quantifier": "all sites, hoppings, U > 0 or U < 0, dt >= 0 outside a countable set, electron numbers, trial determinants, fields, lengths of runs, energy shifts, reorthogonalisations, QR routines within their contract", "why_tests_cant": "a statement on all paths of fields of all lengths; a test tries finitely many paths at one time step", "anchors": ["pauxy/propagation/hubbard.py: Hirsch.__init__, Hirsch.propagate_walker_free", "pauxy/walkers/single_det.py: SingleDetWalker.inverse_overlap, SingleDetWalker.greens_function, SingleDetWalker.reortho", "pauxy/trial_wavefunction/free_electron.py: FreeElectron", "pauxy/estimators/mixed.py: Mixed.update"]}
