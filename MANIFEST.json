{
 "claims": [
  {
   "property": "C01",
   "status": "proved",
   "theorems": [
    "Verif.Comb.popControl_rescales",
    "Verif.Comb.popControl_stops",
    "Verif.Comb.popControl_single"
   ],
   "note": "Weights over an ordered field; the error branch (total weight below the cutoff) is the stop theorem."
  },
  {
   "property": "C02",
   "status": "proved",
   "theorems": [
    "Verif.Comb.combSelect_proportional"
   ],
   "note": "Exact arithmetic instead of floats."
  },
  {
   "property": "C03",
   "status": "partial",
   "theorems": [
    "Verif.Comb.comb_realises_counts_iff_partial",
    "Verif.Comb.comb_loses_copies"
   ],
   "note": "False in general: copies are lost when a count is 3 or more. Proved: the exact condition, and a witness."
  },
  {
   "property": "C04",
   "status": "proved",
   "theorems": [
    "Verif.Comb.comb_sends_match_receives",
    "Verif.Comb.comb_exchange_order_independent",
    "Verif.Comb.comb_exchange_effect"
   ],
   "note": "Messages are buffered sends and blocking receives, delivered in order per (source, destination, tag)."
  },
  {
   "property": "C05",
   "status": "proved",
   "theorems": [
    "Verif.PairBranch.pairBranch_population",
    "Verif.PairBranch.pairBranch_pairs",
    "Verif.PairBranch.pairBranch_conserves_weight"
   ],
   "note": "Exact arithmetic instead of floats."
  },
  {
   "property": "C06",
   "status": "proved",
   "theorems": [
    "Verif.PairBranch.pairBranch_sends_match_receives",
    "Verif.PairBranch.pairBranch_exchange_completes"
   ],
   "note": "Same message model as C04."
  },
  {
   "property": "C07",
   "status": "proved",
   "theorems": [
    "Verif.PairBranch.pairBranch_unpaired_in_range"
   ],
   "note": ""
  },
  {
   "property": "C08",
   "status": "proved",
   "theorems": [
    "Verif.PairBranch.pairBranch_unbiased"
   ],
   "note": "Expectation as the integral over a uniform number."
  },
  {
   "property": "C09",
   "status": "proved",
   "theorems": [
    "Verif.Comb.combSelect_unbiased"
   ],
   "note": "Expectation as the integral over a uniform number."
  },
  {
   "property": "C10",
   "status": "proved",
   "theorems": [
    "Verif.Buffer.buffer_round_trip",
    "Verif.Buffer.buffer_round_trip_same_types"
   ],
   "note": "Round trip holds exactly when every number fits the type the receiver holds at that moment; with equal types always."
  },
  {
   "property": "C11",
   "status": "partial",
   "theorems": [
    "Verif.FieldHistory.history_exchange",
    "Verif.FieldHistory.history_exchange_partial",
    "Verif.FieldHistory.history_exchange_loses_factor"
   ],
   "note": "False in general: a receiver whose accumulated factor became the Python integer 0 truncates the received factor. history_exchange states the exact result, history_exchange_partial the lossless case."
  },
  {
   "property": "C12",
   "status": "proved",
   "theorems": [
    "Verif.Restart.restart_round_trip",
    "Verif.Restart.restart_datasets_owned_once",
    "Verif.Restart.restart_missing_kept"
   ],
   "note": "HDF5 file as a map from names to arrays; writes interleaved arbitrarily."
  },
  {
   "property": "C13",
   "status": "proved",
   "theorems": [
    "Verif.FieldHistory.history_refines",
    "Verif.FieldHistory.history_window",
    "Verif.FieldHistory.push_fields"
   ],
   "note": ""
  },
  {
   "property": "C14",
   "status": "partial",
   "theorems": [
    "Verif.FieldHistory.bp_windows_partial",
    "Verif.FieldHistory.bp_windows_overrun",
    "Verif.FieldHistory.bp_windows_dead_walker"
   ],
   "note": "Proved when the split count divides the window and every walker is propagated in every step; both restrictions are necessary, shown by the other two theorems."
  },
  {
   "property": "C15",
   "status": "partial",
   "theorems": [
    "Verif.Slater.backPropagate_adjoint",
    "Verif.Slater.backPropagate_no_ortho",
    "Verif.Slater.forwardPropagate_gauge",
    "Verif.Hirsch.bpMatrix_spin",
    "Verif.Hirsch.bpMatrix_charge_ne",
    "Verif.Slater.forwardStep_ne"
   ],
   "note": "Proved for arbitrary step matrices. The matrices the code uses in back propagation are those of the forward steps for the spin decomposition (up to a constant) and for expansion order 6; not for the charge decomposition nor another order."
  },
  {
   "property": "C16",
   "status": "proved",
   "theorems": [
    "Verif.Stack.stack_update_product",
    "Verif.Stack.stack_update_overrun",
    "Verif.Stack.stack_make_rejects"
   ],
   "note": "One spin component; matrices over a commutative ring; includes the error on the update after the last slice."
  },
  {
   "property": "C17",
   "status": "proved",
   "theorems": [
    "Verif.Stack.stack_full_rank"
   ],
   "note": "One spin component; the diagonal fast path needs diagonal trial matrices."
  },
  {
   "property": "C18",
   "status": "proved",
   "theorems": [
    "Verif.Stack.updateStack_nearest",
    "Verif.Stack.updateStack_zero"
   ],
   "note": "Loops with an explicit bound on the number of tests, shown sufficient; a stack size of zero divides by zero."
  },
  {
   "property": "C19",
   "status": "proved",
   "theorems": [
    "Verif.Thermal.gfStrat_eq",
    "Verif.Thermal.gfQR_eq",
    "Verif.Thermal.gfSVD_eq",
    "Verif.Thermal.gfOfA_eq",
    "Verif.Thermal.oneRdmStable_eq",
    "Verif.Thermal.gfLeftRight_eq"
   ],
   "note": "Factorisations are parameters with contracts (shown satisfiable for all complex matrices in Verif.Thermal.Exist); exact arithmetic, so stability is not addressed."
  },
  {
   "property": "C20",
   "status": "partial",
   "theorems": [
    "Verif.Thermal.invGreensQR_eq",
    "Verif.Thermal.invGreens_partial",
    "Verif.Thermal.invGreens_wrong"
   ],
   "note": "The SVD variant returns the conjugate transpose: right exactly for Hermitian matrices. The QR variant is right."
  },
  {
   "property": "C21",
   "status": "proved",
   "theorems": [
    "Verif.Thermal.thermal_ratio",
    "Verif.Thermal.thermal_site_update",
    "Verif.Thermal.thermal_path"
   ],
   "note": "Ratios and updates per site, and the whole path with stack and recomputation, for a one-body trial (the propagator equals the trial density matrix)."
  },
  {
   "property": "C22",
   "status": "proved",
   "theorems": [
    "Verif.Slater.shermanMorrison_eq",
    "Verif.Slater.updateInverseOverlap_eq"
   ],
   "note": ""
  },
  {
   "property": "C23",
   "status": "proved",
   "theorems": [
    "Verif.Slater.gab_facts",
    "Verif.Slater.gab_mix",
    "Verif.Slater.greensFunction_eq",
    "Verif.Slater.greensFunction_projector"
   ],
   "note": ""
  },
  {
   "property": "C24",
   "status": "partial",
   "theorems": [
    "Verif.Slater.reortho_facts",
    "Verif.Slater.reortho_partial",
    "Verif.Slater.reortho_shift",
    "Verif.Slater.orthogonalise_free",
    "Verif.Hirsch.free_run"
   ],
   "note": "False for walkers with a determinant shift (reortho_shift); proved otherwise, including whole free-projection runs."
  },
  {
   "property": "C25",
   "status": "partial",
   "theorems": [
    "Verif.Slater.greensFunction_det",
    "Verif.Slater.calcOtrial_eq",
    "Verif.Slater.calcOverlap_eq",
    "Verif.Slater.overlap_routines_partial",
    "Verif.Slater.calcOtrial_shift",
    "Verif.Slater.calcOverlap_no_down",
    "Verif.Slater.calcOverlap_unequal"
   ],
   "note": "False for unequal numbers of electrons and for walkers with a log shift; proved for equal numbers without shift."
  },
  {
   "property": "C26",
   "status": "proved",
   "theorems": [
    "Verif.Chol.modifiedCholesky_spec",
    "Verif.Chol.modifiedCholesky_exists",
    "Verif.Chol.modifiedCholesky_limit"
   ],
   "note": "An error is also raised when exactly the allowed number of vectors is needed."
  },
  {
   "property": "C27",
   "status": "proved",
   "theorems": [
    "Verif.Slater.exponential_agree",
    "Verif.Slater.forwardStep_eq",
    "Verif.Slater.forwardStep_ne"
   ],
   "note": "Equal for equal orders; back propagation always uses order 6 (forwardStep_ne)."
  },
  {
   "property": "C28",
   "status": "proved",
   "theorems": [
    "Verif.Energy.localGeneric_eq_chol",
    "Verif.Energy.localCholOpt_eq",
    "Verif.Energy.localOpt_eq",
    "Verif.Energy.localHubbard_eq"
   ],
   "note": "All three components of the energy. The half-rotated routines need the Green's function to be the (conjugated) trial times its half-rotated form, which is how the walkers store it."
  },
  {
   "property": "C29",
   "status": "proved",
   "theorems": [
    "Verif.Energy.avg_stochExx",
    "Verif.Energy.avg_localStoch",
    "Verif.Energy.avg_localStochControl",
    "Verif.Energy.localStochControl_exact",
    "Verif.Energy.avg_kineticStoch"
   ],
   "note": "Expectation as the uniform average over all sign vectors; at least one sample. With control variate the reference exchange energies must be those of the trial orbitals."
  },
  {
   "property": "C30",
   "status": "proved",
   "theorems": [
    "Verif.Hirsch.hs_spin",
    "Verif.Hirsch.hs_charge",
    "Verif.Hirsch.hs_all_sites",
    "Verif.Hirsch.exists_chargeGamma",
    "Verif.Hirsch.thermal_hs"
   ],
   "note": ""
  },
  {
   "property": "C31",
   "status": "partial",
   "theorems": [
    "Verif.Hirsch.site_sampling",
    "Verif.Hirsch.singleSite_overlap",
    "Verif.Hirsch.singleSite_overlap_partial",
    "Verif.Hirsch.constrainedStep_weight_nonneg",
    "Verif.Hirsch.constrained_weight_partial",
    "Verif.Hirsch.chargeWfac_ne_one",
    "Verif.Hirsch.charge_weight_wrong"
   ],
   "note": "False for the charge decomposition: the stored overlap contains the scalar factors, which then cancel from the weight."
  },
  {
   "property": "C32",
   "status": "partial",
   "theorems": [
    "Verif.Hirsch.fbLoop_factor",
    "Verif.Hirsch.fbLoop_fields",
    "Verif.Hirsch.force_bias_partial",
    "Verif.Hirsch.force_bias_wrong",
    "Verif.Hirsch.direct_weight"
   ],
   "note": "False: an extra factor one half per site and cos^2 of the imaginary part of the exponent."
  },
  {
   "property": "C33",
   "status": "proved",
   "theorems": [
    "Verif.Weights.updateHybrid_bound",
    "Verif.Weights.runHybrid_bound",
    "Verif.Weights.boundHybrid_within",
    "Verif.Weights.boundHybrid_of_within",
    "Verif.Weights.bound_attained",
    "Verif.Weights.updateHybrid_bound_changed",
    "Verif.Weights.bound_fails_when_shift_changes",
    "Verif.Weights.no_bound_before_shift"
   ],
   "note": "With a constant shift. When the shift changes between two steps the factor is larger by the exponential of the change, and before a shift is set there is no bound: both stated as theorems."
  },
  {
   "property": "C34",
   "status": "partial",
   "theorems": [
    "Verif.Weights.updateHybrid_keeps",
    "Verif.Weights.updateHybrid_keeps_cos",
    "Verif.Weights.updateLocal_weight_at_shift",
    "Verif.Weights.updateLocal_keeps_iff",
    "Verif.Weights.updateLocal_drift",
    "Verif.Weights.updateLocal_nonneg"
   ],
   "note": "Proved for the hybrid update; false for the local-energy update, which counts only half of the shift."
  },
  {
   "property": "C35",
   "status": "partial",
   "theorems": [
    "Verif.Mixed.blockRow_eproj",
    "Verif.Mixed.blockRow_eproj_free",
    "Verif.Mixed.blockRow_eproj_thermal",
    "Verif.Mixed.blockRow_averages",
    "Verif.Mixed.blockRow_averages_free",
    "Verif.Mixed.blockRow_nav",
    "Verif.Mixed.rows_independent_of_ranks",
    "Verif.Mixed.blockRow_eproj_average",
    "Verif.Mixed.blockRow_no_evaluation"
   ],
   "note": "False with averaged Green's functions (the denominator is never accumulated) and for blocks without an energy evaluation."
  },
  {
   "property": "C36",
   "status": "partial",
   "theorems": [
    "Verif.Mixed.run_eq",
    "Verif.Mixed.loop_blocks",
    "Verif.Mixed.run_quiet_eq",
    "Verif.Mixed.run_quiet_leaks",
    "Verif.Mixed.run_quiet_depends"
   ],
   "note": "Proved for verbose runs; in a quiet run the first block also contains the initial evaluation."
  },
  {
   "property": "C37",
   "status": "proved",
   "theorems": [
    "Verif.Mixed.blockRow_bracket",
    "Verif.Mixed.blockRow_bracket_thermal"
   ],
   "note": ""
  },
  {
   "property": "C38",
   "status": "partial",
   "theorems": [
    "Verif.Output.search_spec",
    "Verif.Output.search_overwrite",
    "Verif.Output.search_not_exists",
    "Verif.Output.nextIndex_dotted",
    "Verif.Output.search_dotted_never_ends",
    "Verif.Output.search_dotted_error"
   ],
   "note": "False for base names containing a dot: the search never ends or raises."
  },
  {
   "property": "C39",
   "status": "partial",
   "theorems": [
    "Verif.Output.extract_pushAll",
    "Verif.Output.padded_lt",
    "Verif.Output.padded_overflow",
    "Verif.Output.pushAll_nav"
   ],
   "note": "Up to 10^9 blocks; the order breaks beyond, and averaging over two or more blocks never writes."
  },
  {
   "property": "C40",
   "status": "partial",
   "theorems": [
    "Verif.Energy.varOrthoDet_re_partial",
    "Verif.Energy.varOrthoDet_real_partial",
    "Verif.Energy.varOrthoDet_complex"
   ],
   "note": "The real part is right for all complex coefficients; the imaginary part is wrong because the element is added twice instead of with its conjugate."
  },
  {
   "property": "C41",
   "status": "partial",
   "theorems": [
    "Verif.Energy.contractOrtho_partial",
    "Verif.Energy.contractNonOrtho_partial",
    "Verif.Energy.contractOrtho_complex"
   ],
   "note": "Proved when all coefficients have one phase; false otherwise (both coefficients are conjugated)."
  },
  {
   "property": "C42",
   "status": "partial",
   "theorems": [
    "Verif.Energy.localHubbard_expectation",
    "Verif.Energy.localHubbard_symmetric_missing",
    "Verif.Energy.localHubbard_symmetric_wrong"
   ],
   "note": "Proved for the plain form; in the symmetric form the extra term is computed and overwritten."
  },
  {
   "property": "C43",
   "status": "proved",
   "theorems": [
    "Verif.Input.getInputValue_key",
    "Verif.Input.getInputValue_alias",
    "Verif.Input.getInputValue_default",
    "Verif.Input.get_eq_some_iff"
   ],
   "note": ""
  },
  {
   "property": "C44",
   "status": "proved",
   "theorems": [
    "Verif.Input.mergeDicts_fails_iff",
    "Verif.Input.mergeDicts_paths",
    "Verif.Input.getFromDict_leaf",
    "Verif.Input.getFromDict_node",
    "Verif.Input.getFromDict_missing"
   ],
   "note": ""
  },
  {
   "property": "C45",
   "status": "proved",
   "theorems": [
    "Verif.Files.sparse_roundtrip",
    "Verif.Files.sparse_error",
    "Verif.Files.sparse_roundtrip_real",
    "Verif.Files.chunks_roundtrip"
   ],
   "note": "For every chunk layout; complex and real data."
  },
  {
   "property": "C46",
   "status": "proved",
   "theorems": [
    "Verif.Files.fcidump_roundtrip",
    "Verif.Files.four_exists_unique",
    "Verif.Files.eight_exists_unique"
   ],
   "note": "Printing with nine digits is an arbitrary odd function with relative error at most epsilon. Exactly one line per orbit of the index symmetry."
  },
  {
   "property": "C47",
   "status": "partial",
   "theorems": [
    "Verif.Files.nomsd_single_partial",
    "Verif.Files.nomsd_rhf",
    "Verif.Files.nomsd_uhf",
    "Verif.Files.cut_close",
    "Verif.Files.nomsd_two_wrong",
    "Verif.Files.nomsd_unequal_refused",
    "Verif.Files.nomsd_unequal_error",
    "Verif.Files.nomsd_no_beta"
   ],
   "note": "Holds for one determinant with equal electron numbers and for restricted expansions. False in general: with several unrestricted determinants the alpha orbitals are taken from the wrong dataset; different electron numbers are refused; no beta electrons cannot be read."
  },
  {
   "property": "C48",
   "status": "partial",
   "theorems": [
    "Verif.Files.phmsd_roundtrip",
    "Verif.Files.phmsd_unequal_refused"
   ],
   "note": "Holds for equal electron numbers, or when the reader is not given the electron numbers. With different numbers the reader's assertion fails (phmsd_unequal_refused)."
  },
  {
   "property": "C49",
   "status": "proved",
   "theorems": [
    "Verif.Setup.walkersPerRank_pos",
    "Verif.Setup.totalWalkers_bounds",
    "Verif.Setup.seeds_nodup",
    "Verif.Setup.seeds_given"
   ],
   "note": ""
  },
  {
   "property": "C50",
   "status": "proved",
   "theorems": [
    "Verif.Driver.schedule",
    "Verif.Driver.schedule_periods",
    "Verif.Driver.moves",
    "Verif.Driver.flow",
    "Verif.Driver.thermal_flow",
    "Verif.Driver.capped",
    "Verif.Driver.thermal_schedule",
    "Verif.Driver.thermal_capped",
    "Verif.Driver.thermal_reset",
    "Verif.Driver.run_completes"
   ],
   "note": "For all operations, as functions of step and walker position."
  },
  {
   "property": "C51",
   "status": "proved",
   "theorems": [
    "Verif.Setup.columns_partition",
    "Verif.Setup.halfRotateAll_entry",
    "Verif.Setup.rotCholRows_spec"
   ],
   "note": "Also proves the content of the shared array for every order of the ranks."
  },
  {
   "property": "C52",
   "status": "proved",
   "theorems": [
    "Verif.UEG.lookup_exact",
    "Verif.UEG.lookup_untwisted",
    "Verif.UEG.setupOk_untwisted",
    "Verif.UEG.mem_basis",
    "Verif.UEG.mapIx_inj"
   ],
   "note": "For every set-up that passes the constructor's own check; without a twist every set-up passes."
  },
  {
   "property": "C53",
   "status": "partial",
   "theorems": [
    "Verif.Lattice.encode_decode",
    "Verif.Lattice.decode_encode",
    "Verif.Lattice.kinetic_hermitian",
    "Verif.Lattice.chain_eigen",
    "Verif.Lattice.rect_eigen",
    "Verif.Lattice.table_eigen_partial",
    "Verif.Lattice.wave_orth",
    "Verif.Lattice.kpoints_length",
    "Verif.Lattice.nodup_kpoints",
    "Verif.Lattice.kinetic_translate",
    "Verif.Lattice.kinetic_translate_chain",
    "Verif.Lattice.column_wrong",
    "Verif.Lattice.single_site_wrong"
   ],
   "note": "Proved for at least two sites along x, with every twist for the eigenvectors. With one site along x the table of energies is wrong (column_wrong, single_site_wrong)."
  },
  {
   "property": "C54",
   "status": "proved",
   "theorems": [
    "Verif.Setup.mem_ballsInBoxes",
    "Verif.Setup.nodup_ballsInBoxes",
    "Verif.Setup.enumerate_spec",
    "Verif.Setup.enumerate_nonempty"
   ],
   "note": ""
  },
  {
   "property": "C55",
   "status": "proved",
   "theorems": [
    "Verif.CI.hmatel_parts",
    "Verif.CI.hmatel",
    "Verif.CI.ham_transpose",
    "Verif.CI.one_body_matel",
    "Verif.CI.mem_fciDets",
    "Verif.CI.nodup_fciDets",
    "Verif.CI.fciDets_lex",
    "Verif.CI.fci_matrix",
    "Verif.CI.spin_flip_wrong",
    "Verif.CI.transposed"
   ],
   "note": "For all basis sizes, electron numbers and integrals with the exchange symmetry <pq|rs> = <qp|sr>, and determinants with equal numbers of up and of down electrons (the only ones the code generates). The code's element for (di, dj) is <dj|H|di>; equal to <di|H|dj> for real symmetric integrals (hmatel). transposed and spin_flip_wrong show that the two conditions are needed."
  },
  {
   "property": "C56",
   "status": "partial",
   "theorems": [
    "Verif.Analysis.blockMeans_mean",
    "Verif.Analysis.blockMeans_constant",
    "Verif.Analysis.reblock_spec",
    "Verif.Analysis.reblock_constant_segment",
    "Verif.Analysis.reblock_constant",
    "Verif.Analysis.averageRatio_mean",
    "Verif.Analysis.averageRatio_error"
   ],
   "note": "The routine raises an exception for a constant series, and whenever the first two or three samples are equal; the block averaging itself is proved."
  },
  {
   "property": "C57",
   "status": "partial",
   "theorems": [
    "Verif.Analysis.nextPowTwo_spec",
    "Verif.Analysis.autoWindow_partial",
    "Verif.Analysis.autoWindow_none_met",
    "Verif.Analysis.autoWindow_all_met",
    "Verif.Analysis.acf_eq",
    "Verif.Analysis.acfNorm_eq",
    "Verif.Analysis.autocorrTime_eq"
   ],
   "note": "The window is right if some lag, but not lag zero, meets the criterion; otherwise the wrong end is returned. The FFT route is proved equal to the direct lag sums."
  },
  {
   "property": "C58",
   "status": "partial",
   "theorems": [
    "Verif.Setup.findChemPot_partial",
    "Verif.Setup.fitLoop_best_none",
    "Verif.Setup.findChemPot_wrong",
    "Verif.Setup.findChemPot_last_window"
   ],
   "note": "False of the code: the smallest residual is not updated. Proved for residuals that do not increase."
  },
  {
   "property": "C59",
   "status": "partial",
   "theorems": [
    "Verif.Setup.thresholdDets_iff",
    "Verif.Setup.thresholdDets_sorted_partial",
    "Verif.Setup.thresholdDets_unsorted"
   ],
   "note": "False of the code for unsorted expansions; proved for coefficients of decreasing magnitude."
  },
  {
   "property": "C60",
   "status": "partial",
   "theorems": [
    "Verif.ChemPot.finds_sound",
    "Verif.ChemPot.finds_partial",
    "Verif.ChemPot.finds_unique",
    "Verif.ChemPot.finds_fermi_partial",
    "Verif.ChemPot.navAt_fermi",
    "Verif.ChemPot.finds_exact_end"
   ],
   "note": "Fails when the target is met exactly at an end of an interval tried; proved otherwise, also for the Fermi-Dirac particle number of a one-body density matrix."
  },
  {
   "property": "C61",
   "status": "proved",
   "theorems": [
    "Verif.Setup.uhfResult_spec",
    "Verif.Setup.uhfResult_exists",
    "Verif.Setup.uhfResult_dens"
   ],
   "note": "The densities returned are those of the last attempt (finding)."
  },
  {
   "property": "C62",
   "status": "partial",
   "theorems": [
    "Verif.Restart.restart_same_file_loses",
    "Verif.Restart.restart_other_file_partial"
   ],
   "note": "False: the output file is emptied before the input file is read."
  },
  {
   "property": "C63",
   "status": "partial",
   "theorems": [
    "Verif.Stack.stack_reset_partial",
    "Verif.Stack.stack_reset_mid_bin"
   ],
   "note": "False in the middle of a bin (the counter survives); true when full bins were written."
  },
  {
   "property": "C64",
   "status": "proved",
   "theorems": [
    "Verif.Thermal.woodburyG_eq",
    "Verif.Thermal.woodburyOvlp_eq"
   ],
   "note": ""
  },
  {
   "property": "C65",
   "status": "proved",
   "theorems": [
    "Verif.Thermal.adjustNstblz_eq"
   ],
   "note": ""
  },
  {
   "property": "C66",
   "status": "proved",
   "theorems": [
    "Verif.Thermal.thermal_site_sampling"
   ],
   "note": "Expectation as the integral over a uniform number."
  },
  {
   "property": "C67",
   "status": "partial",
   "theorems": [
    "Verif.Hirsch.thermal_site_partial",
    "Verif.Hirsch.thermal_charge_wrong"
   ],
   "note": "False for the charge decomposition: the scalar factor is left out."
  },
  {
   "property": "C68",
   "status": "proved",
   "theorems": [
    "Verif.Hirsch.thermalSlice_mu"
   ],
   "note": ""
  },
  {
   "property": "C69",
   "status": "proved",
   "theorems": [
    "Verif.Weights.prod_importances",
    "Verif.Weights.weight_run_le",
    "Verif.Weights.updateHybrid_pushed"
   ],
   "note": ""
  },
  {
   "property": "C70",
   "status": "proved",
   "theorems": [
    "Verif.Weights.integral_density",
    "Verif.Weights.integral_one_field",
    "Verif.Weights.force_bias_unbiased",
    "Verif.Weights.rescaled_force_bias_unbiased",
    "Verif.Weights.force_bias_unbiased_real",
    "Verif.Weights.rescale_spec",
    "Verif.Step.force_bias_polynomial"
   ],
   "note": "Observables that are exponentials of a linear form in the fields times any polynomial in the shifted fields (overlaps after the truncated exponential are of this form), for complex shifts, and every integrable observable for real shifts."
  },
  {
   "property": "C71",
   "status": "proved",
   "theorems": [
    "Verif.Energy.oneBody_eq",
    "Verif.Energy.twoBody_eq",
    "Verif.Energy.localChol_expectation"
   ],
   "note": "Matrix elements are defined by applying the operators to the orbitals."
  },
  {
   "property": "C72",
   "status": "proved",
   "theorems": [
    "Verif.Energy.varMultiDet_rayleigh"
   ],
   "note": ""
  },
  {
   "property": "C73",
   "status": "partial",
   "theorems": [
    "Verif.UEG.hamiltonian_eq",
    "Verif.UEG.eri4_eq",
    "Verif.UEG.hijkl_swap",
    "Verif.UEG.modOneBody_eq",
    "Verif.UEG.zero_mem_qvecs"
   ],
   "note": "Proved in full without a twist. With a twist the code keeps the zero momentum transfer (zero_mem_qvecs) and divides by zero."
  },
  {
   "property": "C74",
   "status": "partial",
   "theorems": [
    "Verif.UEG.localUEG_partial",
    "Verif.UEG.localUEG_thermal",
    "Verif.UEG.localUEG_trial",
    "Verif.UEG.localUEG_more_down"
   ],
   "note": "True for thermal Green's functions and for trials whose occupied plane waves are among the first nup; false for ndown > nup (localUEG_more_down)."
  },
  {
   "property": "C75",
   "status": "partial",
   "theorems": [
    "Verif.UEG.fock_partial",
    "Verif.UEG.fock_eq",
    "Verif.UEG.fockExact_derivative",
    "Verif.UEG.fock_wrong"
   ],
   "note": "True for symmetric density matrices; for complex Hermitian ones the exchange part is transposed (fock_wrong)."
  },
  {
   "property": "C76",
   "status": "partial",
   "theorems": [
    "Verif.Driver.shift_used",
    "Verif.Driver.shift_hybrid_partial",
    "Verif.Driver.shift_local_wrong"
   ],
   "note": "Holds for hybrid propagation; false for local-energy propagation after equilibration (shift_local_wrong)."
  },
  {
   "property": "C77",
   "status": "partial",
   "theorems": [
    "Verif.Driver.cap_share_partial",
    "Verif.Driver.cap_share",
    "Verif.Driver.cap_uniform",
    "Verif.Driver.cap_escape",
    "Verif.Driver.cap_acts"
   ],
   "note": "Holds when the total equals the target; otherwise the threshold is total/(10 target) (cap_share), so uniform populations are cut (cap_uniform) and heavy walkers escape (cap_escape)."
  },
  {
   "property": "C78",
   "status": "partial",
   "theorems": [
    "Verif.Files.nothing_lost_partial",
    "Verif.Files.full_real_refused",
    "Verif.Files.nothing_lost_wrong",
    "Verif.Files.eri_imag_lost",
    "Verif.Files.hcore_imag_lost",
    "Verif.Files.paren_unreadable"
   ],
   "note": "Holds without parentheses when the format can hold the integrals. False in general: negative imaginary parts pass the check, one-electron integrals are not checked, files with parentheses cannot be read."
  },
  {
   "property": "C79",
   "status": "partial",
   "theorems": [
    "Verif.Step.generic_first_order",
    "Verif.Step.charge_first_order",
    "Verif.Step.planeWave_first_order",
    "Verif.Step.spin_first_order_partial",
    "Verif.Step.spin_exact",
    "Verif.Step.spin_wrong",
    "Verif.Step.generic_exact",
    "Verif.Step.hermitian_wrong",
    "Verif.Step.free_first_order",
    "Verif.Step.FirstOrder.unique",
    "Verif.Step.avg_step"
   ],
   "note": "Proved for generic systems with symmetric (real) Cholesky vectors, the charge decomposition with either sign of U and the electron gas without a twist. False for the spin decomposition with a spin-polarised trial (spin_wrong) and for Hermitian vectors that are not symmetric (hermitian_wrong)."
  },
  {
   "property": "C80",
   "status": "partial",
   "theorems": [
    "Verif.Step.generic_bounded",
    "Verif.Step.generic_bounded_fast",
    "Verif.Step.forceBias_fast",
    "Verif.Step.generic_trial",
    "Verif.Step.generic_limit",
    "Verif.Step.charge_bounded",
    "Verif.Step.planeWave_bounded",
    "Verif.Step.spin_bounded_partial",
    "Verif.Step.spin_limit",
    "Verif.Step.spin_unbounded",
    "Verif.Step.hybrid_linear",
    "Verif.Step.HybridLimit.bounded_iff",
    "Verif.Step.HybridLimit.unique"
   ],
   "note": "Proved for the generic, charge and plane-wave propagators. False for the spin decomposition: its force bias has the opposite sign to its field potential, so the leading fluctuation is doubled (spin_limit) and the hybrid energy is unbounded for every spin-polarised walker (spin_bounded_partial, spin_unbounded)."
  },
  {
   "property": "C81",
   "status": "proved",
   "theorems": [
    "Verif.Step.generic_importance",
    "Verif.Step.charge_importance",
    "Verif.Step.importance_first_order",
    "Verif.Step.importance_eq",
    "Verif.Step.bias_unbiased",
    "Verif.Step.biased_first_order",
    "Verif.Step.hubbardElem_local"
   ],
   "note": "Generic systems with symmetric Cholesky vectors and the Hubbard charge decomposition; capping of the energy switched off (shift zero). For a vanishing new overlap, where the code fails, the importance factor is zero."
  },
  {
   "property": "C82",
   "status": "partial",
   "theorems": [
    "Verif.Step.generic_converges",
    "Verif.Step.charge_converges",
    "Verif.Step.planeWave_converges",
    "Verif.Step.spin_converges_partial",
    "Verif.Step.generic_projects",
    "Verif.Step.charge_projects",
    "Verif.Step.planeWave_projects",
    "Verif.Step.spin_projects_partial",
    "Verif.Step.generic_run",
    "Verif.Step.charge_run",
    "Verif.Step.planeWave_run",
    "Verif.Step.spin_run_partial",
    "Verif.Step.signal_localChol",
    "Verif.Step.signal_localHubbard",
    "Verif.Step.free_converges",
    "Verif.Step.lowest_exists",
    "Verif.Step.hamOp_elem",
    "Verif.Step.hubOp_elem",
    "Verif.Step.coulombOp_elem"
   ],
   "note": "Proved for generic systems with symmetric Cholesky vectors (real ones for the energy and reorthogonalisations), the charge decomposition and the electron gas without a twist; with reorthogonalisations for the default order of the truncated exponential, where it is always invertible. For the spin decomposition only without mean-field shift: otherwise already one step is wrong (spin_wrong of C79)."
  },
  {
   "property": "C83",
   "status": "partial",
   "theorems": [
    "Verif.Grand.hub_averages",
    "Verif.Grand.hub_averages_partial",
    "Verif.Grand.symmetric_wrong",
    "Verif.Grand.ueg_averages",
    "Verif.Grand.averages",
    "Verif.Grand.runMean_eq",
    "Verif.Grand.avgPath_eq",
    "Verif.Grand.avgPathB_eq",
    "Verif.Grand.runMeanB_eq",
    "Verif.Grand.hub_averages_bias",
    "Verif.Grand.freeStep_ok",
    "Verif.Grand.gibbs_pos",
    "Verif.Grand.wick_hub",
    "Verif.Grand.wick_coulomb",
    "Verif.Grand.wick_number",
    "Verif.Grand.sector_mul",
    "Verif.Grand.tr_sector"
   ],
   "note": "Proved for the Hubbard model with continuous fields (charge decomposition, Green's functions recomputed at the current slice) and the electron gas without twist (diagonal trial density matrix; stratified and left-right schemes). With symmetric Hubbard input the chemical potential of the ensemble is off by U (symmetric_wrong). With force bias the mean of a run is the same, whatever the force bias is (runMeanB_eq, hub_averages_bias). Not the low-rank code; discrete fields are C84, the phaseless constraint is C104."
  },
  {
   "property": "C84",
   "status": "proved",
   "theorems": [
    "Verif.Grand.disc_averages",
    "Verif.Grand.discMean_eq",
    "Verif.Grand.discPath_eq",
    "Verif.Grand.disc_converges",
    "Verif.Grand.avg_fields",
    "Verif.Grand.disc_gen",
    "Verif.Grand.lie_product",
    "Verif.Grand.stepWith_ok",
    "Verif.Grand.dimer_run"
   ],
   "note": "All decompositions, signs of U and conventions. Hypothesis: no singular field configuration (where the code divides by zero); it holds for real two-site models with the real decomposition and a diagonal trial (dimer_run). A trial chemical potential different from the system's by at most 1e-16 is excluded."
  },
  {
   "property": "C85",
   "status": "partial",
   "theorems": [
    "Verif.MultiDet.calcOverlap_eq",
    "Verif.MultiDet.overlapDirect_eq",
    "Verif.MultiDet.calcOtrial_eq",
    "Verif.MultiDet.greens_overlap_error",
    "Verif.MultiDet.greens_overlap",
    "Verif.MultiDet.contract_partial",
    "Verif.MultiDet.localEnergy_partial",
    "Verif.MultiDet.zero_variance",
    "Verif.MultiDet.split_energy_partial",
    "Verif.MultiDet.energy_start",
    "Verif.MultiDet.energy_wrong",
    "Verif.MultiDet.generic_importance",
    "Verif.MultiDet.hybrid_linear",
    "Verif.MultiDet.force_bias_skips",
    "Verif.MultiDet.generic_bounded_partial",
    "Verif.MultiDet.bias_unbounded",
    "Verif.MultiDet.reortho_facts",
    "Verif.MultiDet.generic_projects",
    "Verif.MultiDet.charge_projects"
   ],
   "note": "Overlaps, average of the importance factor, reorthogonalisation and free projection hold in general. Energies and force bias hold if no determinant is orthogonal to the walker; determinants orthogonal to it are skipped although they contribute, so both are wrong for a walker started from one determinant of an orthonormal expansion (energy_wrong, bias_unbounded)."
  },
  {
   "property": "C86",
   "status": "partial",
   "theorems": [
    "Verif.CI.Bridge.hamOp_fock",
    "Verif.CI.Bridge.hmatel_hamil",
    "Verif.CI.Bridge.recompute_matrix",
    "Verif.CI.Bridge.recompute_variational",
    "Verif.CI.Bridge.reported_energy",
    "Verif.CI.Bridge.reported_recomputed",
    "Verif.CI.Bridge.recompute_transposed",
    "Verif.CI.Bridge.recompute_complex",
    "Verif.CI.Bridge.recompute_unsorted",
    "Verif.CI.Bridge.fci_complete",
    "Verif.CI.Bridge.fci_eigenstate",
    "Verif.CI.Bridge.fci_zero_variance",
    "Verif.CI.Bridge.fci_projects",
    "Verif.CI.Bridge.fci_trial_projects",
    "Verif.CI.Bridge.hub_ham",
    "Verif.CI.Bridge.hub_zero_variance",
    "Verif.CI.Bridge.hub_projects"
   ],
   "note": "Proved for generic systems with real symmetric integrals and for the Hubbard model, with occupations listed in increasing order. For complex Hermitian integrals the matrix diagonalised is the transposed one and the coefficients come out conjugated (recompute_transposed; recompute_complex: the highest instead of the lowest energy). For occupations not in increasing order the matrix elements are those of the sorted determinants while the orbitals keep their order (recompute_unsorted)."
  },
  {
   "property": "C87",
   "status": "partial",
   "theorems": [
    "Verif.CI.Nonortho.recompute_variational_partial",
    "Verif.CI.Nonortho.hub_recompute_partial",
    "Verif.CI.Nonortho.matrices_singular",
    "Verif.CI.Nonortho.recompute_small_overlap"
   ],
   "note": "Proved when all overlaps exceed 1e-12 (any Hamiltonian whose local energy is the mixed expectation; instance: Hubbard). Two exactly orthogonal determinants raise LinAlgError (matrices_singular), an overlap below 1e-12 drops the coupling (recompute_small_overlap: energy 0 instead of -1). For generic systems this branch cannot run (rchol is not a method), which is read, not proved."
  },
  {
   "property": "C88",
   "status": "partial",
   "theorems": [
    "Verif.Freeze.freeze_local_energy",
    "Verif.Freeze.freeze_hamil",
    "Verif.Freeze.freeze_superposition",
    "Verif.Freeze.fill_ovl",
    "Verif.Freeze.cas_electrons",
    "Verif.Freeze.freeze_complex"
   ],
   "note": "All sizes, complex one-body integrals and any symmetric Cholesky vectors (those of real orbitals are). For complex Hermitian Cholesky vectors the exchange part of the core potential is transposed and energies differ (freeze_complex). cas_electrons: if the electrons outside the active space do not come in pairs, one more electron than asked for stays."
  },
  {
   "property": "C89",
   "status": "partial",
   "theorems": [
    "Verif.AoChol.shellOf_spec",
    "Verif.AoChol.column_eq",
    "Verif.AoChol.diag_eq",
    "Verif.AoChol.chunked_eq",
    "Verif.AoChol.chunked_error",
    "Verif.AoChol.chunked_exists",
    "Verif.AoChol.outcore_rows",
    "Verif.AoChol.outcore_empty"
   ],
   "note": "The in-core version is proved to equal the dense factorisation with its error bound, and to succeed while fewer vectors than buffer rows are needed. False for the version writing to disk: it never writes the last incomplete chunk (outcore_rows), so the file stays zero if fewer vectors than one chunk are found (outcore_empty)."
  },
  {
   "property": "C90",
   "status": "partial",
   "theorems": [
    "Verif.OrthoAO.ortho_ao",
    "Verif.OrthoAO.ortho_ovl",
    "Verif.OrthoAO.ortho_energy",
    "Verif.OrthoAO.aoEnergy_near",
    "Verif.OrthoAO.rohf_fails",
    "Verif.OrthoAO.dump_energy_partial"
   ],
   "note": "Proved for real orbitals with all overlap eigenvalues kept. A restricted calculation with unequal electron numbers raises (rohf_fails)."
  },
  {
   "property": "C91",
   "status": "partial",
   "theorems": [
    "Verif.CasWfn.weight_below",
    "Verif.CasWfn.weight_next",
    "Verif.CasWfn.dominant",
    "Verif.CasWfn.heaviest",
    "Verif.CasWfn.lines_partial",
    "Verif.CasWfn.default_norb_fails",
    "Verif.CasWfn.open_shell_fails",
    "Verif.CasWfn.open_shell_electrons"
   ],
   "note": "Heaviest determinants first, right coefficients and orbitals for equal numbers of active electrons and norb at least core plus active orbitals. The weight stays below the cutoff (weight_below; one more would reach it, weight_next), so the file is empty if the first determinant reaches it (dominant). Wrong orbital numbers with the default norb and a core, wrong or missing strings for unequal numbers."
  },
  {
   "property": "C92",
   "status": "partial",
   "theorems": [
    "Verif.PWFFT.localPW_eq",
    "Verif.PWFFT.hijkl_eq",
    "Verif.PWFFT.waves_energy",
    "Verif.PWFFT.exists_pv",
    "Verif.PWFFT.lookup_eq",
    "Verif.PWFFT.constructs_iff",
    "Verif.PWFFT.trial_lowest",
    "Verif.PWFFT.convolve_eq",
    "Verif.PWFFT.convolveValid_eq",
    "Verif.PWFFT.large_box_wrong"
   ],
   "note": "Proved for every twist when the square of the grid spacing is at least 1e-10; below it neighbouring plane waves do not interact (large_box_wrong). Cutoffs below 1/2 raise (constructs_iff). Exact arithmetic; the estimator's call of this routine misses an argument (Findings)."
  },
  {
   "property": "C93",
   "status": "partial",
   "theorems": [
    "Verif.PWFFT.twoBody_eq",
    "Verif.PWFFT.kinetic_eq",
    "Verif.PWFFT.forceBias_eq",
    "Verif.PWFFT.hamiltonian_eq",
    "Verif.PWFFT.free_eq",
    "Verif.PWFFT.free_first_order",
    "Verif.PWFFT.free_current",
    "Verif.PWFFT.phaseless_eq",
    "Verif.PWFFT.phaseless_general",
    "Verif.PWFFT.bound_zero_differs"
   ],
   "note": "Same step as the general propagator; with an energy shift of zero the hybrid energy is bounded where the general propagator does not (bound_zero_differs). Infinite magnitudes not modelled."
  },
  {
   "property": "C94",
   "status": "partial",
   "theorems": [
    "Verif.Itcf.code_partial",
    "Verif.Itcf.down_wrong",
    "Verif.Itcf.later_wrong",
    "Verif.Itcf.unstable_raises",
    "Verif.Itcf.stable_correct",
    "Verif.Itcf.unstableRepaired_correct",
    "Verif.Itcf.greater_eq",
    "Verif.Itcf.lesser_eq",
    "Verif.Itcf.estimate_perm",
    "Verif.Itcf.estimate_const",
    "Verif.Itcf.wfac_restores"
   ],
   "note": "The code is right at equal times and, after one slice, for the greater functions and the up lesser function (code_partial); the down lesser function (down_wrong) and all later times (later_wrong) are wrong, and the naive algorithm raises (unstable_raises). With two indices corrected it is right at every time (stable_correct). GHF routines and reading of the input not modelled."
  },
  {
   "property": "C95",
   "status": "partial",
   "theorems": [
    "Verif.Holstein.gradient_eq",
    "Verif.Holstein.laplacian_eq",
    "Verif.Holstein.localEnergy_eq",
    "Verif.Holstein.gradientP_eq",
    "Verif.Holstein.laplacianP_eq",
    "Verif.Holstein.localEnergyP_eq",
    "Verif.Holstein.several_laplacian",
    "Verif.Holstein.several_gradient_partial",
    "Verif.Holstein.several_energy",
    "Verif.Holstein.several_one",
    "Verif.Holstein.drift_wrong",
    "Verif.Holstein.walkerEnergy_eq_partial",
    "Verif.Holstein.stale_wrong"
   ],
   "note": "Proved for oscillators in coordinates and momenta and for any number of coherent states; the drift needs real coefficients (wrong for complex ones, drift_wrong), and the walker's energy needs weights computed at its present coordinates (the phonon step leaves them stale, stale_wrong)."
  },
  {
   "property": "C96",
   "status": "partial",
   "theorems": [
    "Verif.Holstein.meanAfter_eq",
    "Verif.Holstein.evolve_zero",
    "Verif.Holstein.evolve_deriv",
    "Verif.Holstein.meanAfter_limit",
    "Verif.Holstein.metropolis_invariant",
    "Verif.Holstein.sorella_split",
    "Verif.Holstein.sorella_wrong"
   ],
   "note": "Proved for a trial with one coherent state. The class HirschDMC cannot be constructed as it is (undefined name inputs, Findings). The sorella option adds the square of the Laplacians where the kinetic energy needs the Laplacian (sorella_wrong)."
  },
  {
   "property": "C97",
   "status": "partial",
   "theorems": [
    "Verif.Holstein.energySeveral_eq_partial",
    "Verif.Holstein.energyPermuted_eq_partial",
    "Verif.Holstein.permuted_wrong"
   ],
   "note": "Proved for real coefficients and orbitals, symmetric hopping and nonzero overlaps; for permuted copies only if the permutations leave the hopping unchanged. With all permutations of a ring of four sites, as the code sets up, the energy is wrong (permuted_wrong). Complex orbitals not covered."
  },
  {
   "property": "C98",
   "status": "partial",
   "theorems": [
    "Verif.LangFirsov.objective_eq_partial",
    "Verif.LangFirsov.objective_diff",
    "Verif.LangFirsov.reported_eq_partial",
    "Verif.LangFirsov.reported_diff",
    "Verif.LangFirsov.gammaLF_decouples",
    "Verif.LangFirsov.transformed_inner",
    "Verif.LangFirsov.momentum_eq_partial",
    "Verif.LangFirsov.momentum_asserts",
    "Verif.LangFirsov.reported_wrong",
    "Verif.LangFirsov.diagonal_wrong"
   ],
   "note": "The minimised energy is right for every symmetric hopping without diagonal; the reported one only if m w = 1 (the default), otherwise it is off by the amount of reported_diff (reported_wrong). A hopping with a diagonal (pinning fields) is damped wrongly (diagonal_wrong). The energy in momenta is right if m w = 1, and for other masses its assertion fails (momentum_asserts). The minimisation and gradient are not modelled."
  },
  {
   "property": "C99",
   "status": "partial",
   "theorems": [
    "Verif.Ekt.genFock1h_eq",
    "Verif.Ekt.genFock1p_eq",
    "Verif.Ekt.fockOpt_eq_partial",
    "Verif.Ekt.ueg_fock",
    "Verif.Ekt.fock1hOpt_diff",
    "Verif.Ekt.fock1pOpt_diff",
    "Verif.Ekt.fock1hOpt_wrong",
    "Verif.Ekt.fock1pOpt_wrong",
    "Verif.Ekt.generic_fails",
    "Verif.Ekt.readFock_iff"
   ],
   "note": "gen_fock_1h and gen_fock_1p are right for all determinants, but no code calls them. The functions that are called are right if both spins have the same density matrix (fockOpt_eq_partial; ueg_fock for the electron gas); otherwise they are off by the amounts of fock1hOpt_diff and fock1pOpt_diff (fock1hOpt_wrong, fock1pOpt_wrong). For molecules their assertion fails (generic_fails), and without the density matrix the output is read from the wrong place (readFock_iff)."
  },
  {
   "property": "C100",
   "status": "proved",
   "theorems": [
    "Verif.Ekt.orthoMod_metric",
    "Verif.Ekt.roots",
    "Verif.Ekt.ionisation",
    "Verif.Ekt.affinity",
    "Verif.Ekt.ionisation_bound",
    "Verif.Ekt.affinity_bound",
    "Verif.Ekt.one_case"
   ],
   "note": "eigh is a parameter with its contract (it diagonalises the Hermitian matrix of the lower triangle it reads). Averaging, screening by the error bars and matrices with statistical noise, which need not be Hermitian, are not modelled. one_case meets all hypotheses."
  },
  {
   "property": "C101",
   "status": "partial",
   "theorems": [
    "Verif.Convert.dense_real",
    "Verif.Convert.dense_cplx",
    "Verif.Convert.read_real8",
    "Verif.Convert.cholesky_real",
    "Verif.Convert.convert_real",
    "Verif.Convert.convert_hermitian",
    "Verif.Convert.convert_succeeds",
    "Verif.Convert.small_case",
    "Verif.Convert.conjugate_missing",
    "Verif.Convert.hcore_dropped"
   ],
   "note": "Proved for files of real integrals read with the eight symmetries (convert_real; small_case meets its hypotheses). For other integrals the vectors reproduce them with a conjugate (convert_hermitian), but hijkl has none, and a run sees a wrong sign (conjugate_missing). An imaginary one-body element is dropped if the two-electron integrals are real (hcore_dropped). Success is proved for fewer than twenty orbitals (convert_succeeds); beyond, the fixed number of rows may run out."
  },
  {
   "property": "C102",
   "status": "partial",
   "theorems": [
    "Verif.TrialRho.onebody_ensemble",
    "Verif.TrialRho.onebody_slices",
    "Verif.TrialRho.onebody_temperature",
    "Verif.TrialRho.onebody_number",
    "Verif.TrialRho.onebody_succeeds",
    "Verif.TrialRho.onebody_raises",
    "Verif.TrialRho.entropy_eq",
    "Verif.TrialRho.dimer_case"
   ],
   "note": "All parts are proved but the temperature: it is that of the whole slices that fit into beta, so it is the requested one exactly if beta is a whole number of slices (onebody_temperature); beta=1 with dt=0.3 silently gives 0.9 (dimer_case). Without a stack size the constructor raises for a condition number of one or above 1000 (onebody_raises). entropy needs equal Hamiltonians of both spins, as the code asserts. The search for the chemical potential is that of C60."
  },
  {
   "property": "C103",
   "status": "partial",
   "theorems": [
    "Verif.TrialRho.scf_stops",
    "Verif.TrialRho.mf_trace",
    "Verif.TrialRho.mf_ensemble",
    "Verif.TrialRho.mf_number",
    "Verif.TrialRho.omega_bound",
    "Verif.TrialRho.hub_min",
    "Verif.TrialRho.hub_min_paired",
    "Verif.TrialRho.mf_hubbard",
    "Verif.TrialRho.mf_free_same",
    "Verif.TrialRho.site_case",
    "Verif.TrialRho.unconverged",
    "Verif.TrialRho.alt_wrong",
    "Verif.TrialRho.alt_case",
    "Verif.TrialRho.alpha_one",
    "Verif.TrialRho.generic_raises"
   ],
   "note": "Proved if both loops converge, alpha is below one and the convention is the usual one; site_case meets the hypotheses with an interaction. The density matrix belongs to the chemical potential before the last, so the number of particles is off by up to (1 + m beta/2) thresholds (mf_number). If the iterations run out the result is returned without a warning (unconverged). In the alternate convention the sign of the chemical potential is wrong (alt_wrong). For Generic systems the Fock matrix cannot be computed (generic_raises). The minimum is proved for the Hubbard model (hub_min, with the term of unpaired changes; hub_min_paired)."
  },
  {
   "property": "C104",
   "status": "partial",
   "theorems": [
    "Verif.Grand.hub_averages_phaseless",
    "Verif.Grand.averages_phaseless",
    "Verif.Grand.phMean_eq",
    "Verif.Grand.avgPh_eq",
    "Verif.Grand.phNext_eq",
    "Verif.Grand.phSecond_eq",
    "Verif.Grand.later_path_differs",
    "Verif.Grand.phStep_nonneg"
   ],
   "note": "Proved for systems with real matrices equal for both spins, instantiated for the attractive Hubbard model; with force bias. A later path does not repeat the first: the stored determinants are not reset, so its weights are multiplied by a factor from the path before (phNext_eq, later_path_differs); the ratio of the means is unchanged (phSecond_eq). Only the full-rank code; population control and the cap on large weights are not part of this model."
  },
  {
   "property": "C105",
   "status": "partial",
   "theorems": [
    "Verif.LowRank.lowRank_full",
    "Verif.LowRank.update_exact",
    "Verif.LowRank.update_truncated",
    "Verif.LowRank.lowGreen_rows",
    "Verif.LowRank.exists_qrpr",
    "Verif.LowRank.exPar_regular",
    "Verif.LowRank.low_rank_free",
    "Verif.LowRank.low_rank_reset",
    "Verif.LowRank.low_rank_second",
    "Verif.LowRank.free_low_rank_twice",
    "Verif.LowRank.free_low_rank_none",
    "Verif.LowRank.low_rank_order"
   ],
   "note": "Without truncation the first path is that of the full-rank code (lowRank_full; exPar_regular meets its hypotheses, exists_qrpr gives the factorisation). With truncation the error of each update is bounded by the threshold (update_truncated), if the diagonal of the trial is sorted; otherwise not (low_rank_order). Later paths start with overlaps and Green's functions of the path before (low_rank_reset, low_rank_second). free_projection is ignored (low_rank_free). The error of a whole truncated run is not bounded: it grows with the condition of the factors."
  },
  {
   "property": "C106",
   "status": "partial",
   "theorems": [
    "Verif.BoseCI.mem_perms",
    "Verif.BoseCI.nodup_perms",
    "Verif.BoseCI.sectors_none",
    "Verif.BoseCI.range_basisOf",
    "Verif.BoseCI.matrix_element",
    "Verif.BoseCI.commutator",
    "Verif.BoseCI.number",
    "Verif.BoseCI.number_matrix",
    "Verif.BoseCI.space_default",
    "Verif.BoseCI.dets_default",
    "Verif.BoseCI.lowest",
    "Verif.BoseCI.returns",
    "Verif.BoseCI.returns_of_three",
    "Verif.BoseCI.monotone",
    "Verif.BoseCI.energy_ge",
    "Verif.BoseCI.bounds",
    "Verif.BoseCI.converges",
    "Verif.BoseCI.parts",
    "Verif.BoseCI.sign_symmetry",
    "Verif.BoseCI.occupations",
    "Verif.BoseCI.exists_solver",
    "Verif.BoseCI.dimer_converges",
    "Verif.BoseCI.refused",
    "Verif.BoseCI.displacement_negative",
    "Verif.BoseCI.displacement_monte_carlo",
    "Verif.BoseCI.complex_dropped"
   ],
   "note": "Proved for real symmetric integrals and more than three basis states (lowest, monotone, bounds, converges, parts; dimer_converges meets the hypotheses). Three or fewer basis states are refused (returns, refused). Complex hopping loses its imaginary part (complex_dropped). The displacement has the sign opposite to the Monte Carlo code (displacement_negative, displacement_monte_carlo); otherwise the sign of the coupling does not matter (sign_symmetry)."
  },
  {
   "property": "C107",
   "status": "partial",
   "theorems": [
    "Verif.Uhf.aufbau",
    "Verif.Uhf.determinant",
    "Verif.Uhf.orbitals_lowest",
    "Verif.Uhf.self_consistent_partial",
    "Verif.Uhf.expectation",
    "Verif.Uhf.variational",
    "Verif.Uhf.eigh_exists",
    "Verif.Uhf.free_converges",
    "Verif.Uhf.apart_converges",
    "Verif.Uhf.not_self_consistent",
    "Verif.Uhf.pair_lattice",
    "Verif.Uhf.checkerboard_trial",
    "Verif.Uhf.checkerboard_four_partial",
    "Verif.Uhf.checkerboard_width_wrong",
    "Verif.Uhf.checkerboard_filling_wrong",
    "Verif.Uhf.checkerboard_doped"
   ],
   "note": "Orbitals, energies and the upper bound are proved for every mixing; that the mean field is that of the trial's own density only without mixing (self_consistent_partial; apart_converges meets its hypotheses). With mixing the new density is compared with the previous result and not with the density that went in, so a solution that is not self-consistent can be accepted (not_self_consistent, on a lattice without hopping and alpha above 1/2). The checkerboard is right for lattices of width four at half filling (checkerboard_four_partial), and wrong for all other widths (checkerboard_width_wrong) and fillings (checkerboard_filling_wrong)."
  },
  {
   "property": "C108",
   "status": "partial",
   "theorems": [
    "Verif.Fft.kpoints_eq",
    "Verif.Fft.column_lattice",
    "Verif.Fft.column_chain",
    "Verif.Fft.column_iff",
    "Verif.Fft.kspace_square",
    "Verif.Fft.kspace_iff",
    "Verif.Fft.ffts_raises",
    "Verif.Fft.kspace_rect_wrong",
    "Verif.Fft.kspace_twist_wrong"
   ],
   "note": "With the option every step of a lattice of two sites or more raises an exception: the step is given the matrices instead of the factors for the momenta (ffts_raises). With the factors it would be right for a single row (column_chain) and for square periodic lattices without a twist (kspace_square), and for no other Hermitian hopping (kspace_iff): wrong for rectangles (kspace_rect_wrong), twists and open boundaries (kspace_twist_wrong)."
  },
  {
   "property": "C109",
   "status": "partial",
   "theorems": [
    "Verif.HubDump.alt_spec",
    "Verif.HubDump.doc_spec",
    "Verif.HubDump.hopping_hermitian",
    "Verif.HubDump.pinning_symmetry",
    "Verif.HubDump.read_text",
    "Verif.HubDump.read_exact",
    "Verif.HubDump.energy_diag",
    "Verif.HubDump.energy_partial",
    "Verif.HubDump.exSys_exact",
    "Verif.HubDump.pinning_lost",
    "Verif.HubDump.twist_unreadable",
    "Verif.HubDump.to_string_wrong",
    "Verif.HubDump.pinning_row",
    "Verif.HubDump.pinning_documented_wrong",
    "Verif.HubDump.pinning_ignores"
   ],
   "note": "Proved without twist and pinning (energy_partial, read_exact; exSys_exact meets the hypotheses). Pinning fields are not written (pinning_lost), a file with a twist cannot be read (twist_unreadable), to_string is inverted (to_string_wrong). The pinned hopping is periodic along y and open along x with a field of t/10 on the first column (alt_spec), not the documented one (doc_spec, pinning_documented_wrong); a single row raises (pinning_row), boundary options are ignored (pinning_ignores)."
  },
  {
   "property": "C110",
   "status": "partial",
   "theorems": [
    "Verif.KPoint.read_write_kpoint",
    "Verif.KPoint.kEri_block",
    "Verif.KPoint.paired_exchange",
    "Verif.KPoint.all_stored",
    "Verif.KPoint.missing_right_iff",
    "Verif.KPoint.example_two",
    "Verif.KPoint.real_exits",
    "Verif.KPoint.read_not_writable",
    "Verif.KPoint.missing_wrong"
   ],
   "note": "The complex file of vectors given as matrices is proved right (read_write_kpoint, example_two meets its hypotheses; paired_exchange gives the symmetry it needs). Writing real numbers always exits (real_exits); what the reader returns is not split into rows and columns and cannot be written (read_not_writable); a momentum transfer that is not stored is the conjugate of the opposite one at the wrong k-point and pair, right only in the case of missing_right_iff (missing_wrong)."
  },
  {
   "property": "C111",
   "status": "partial",
   "theorems": [
    "Verif.BackProp.window_estimate",
    "Verif.BackProp.part_full",
    "Verif.BackProp.total_estimate",
    "Verif.BackProp.update_estimate",
    "Verif.BackProp.measures_weight",
    "Verif.BackProp.measures_rdm",
    "Verif.BackProp.measures_twoRdm",
    "Verif.BackProp.measures_energy",
    "Verif.BackProp.avg_window",
    "Verif.BackProp.average_estimate_partial",
    "Verif.BackProp.average_contribution_partial",
    "Verif.BackProp.ratio_estimate_partial",
    "Verif.BackProp.limit_estimate_partial",
    "Verif.BackProp.generic_ratio_partial",
    "Verif.BackProp.generic_energy_partial",
    "Verif.BackProp.boundary_factor",
    "Verif.BackProp.ex_hypotheses",
    "Verif.BackProp.free_never",
    "Verif.BackProp.kill_nan",
    "Verif.BackProp.local_no_phase",
    "Verif.BackProp.local_modulus",
    "Verif.BackProp.hubbard_same",
    "Verif.BackProp.hubbard_raises",
    "Verif.BackProp.hubbard_discrete",
    "Verif.BackProp.hubbard_differ"
   ],
   "note": "Proved for every sequence of fields (window_estimate), for the averages over the fields of a window (average_estimate_partial), their ratio and the limit (generic_ratio_partial), with the hybrid weight, one determinant, equal numbers of electrons and order 6 of the expansion; ex_hypotheses meets the hypotheses, also those of average_contribution_partial, where nothing is put right. Missing: the factor exp(dt/2 (E_N - E_0)) from the averaging of successive hybrid energies is divided out (it is within exp(+-sqrt(2 dt)), boundary_factor), and steps in which an energy is capped, a cosine cut off or a factor below 1e-16 dropped are put right. False of the code: nothing in free projection (free_never), one killed walker makes all fully restored estimates nan (kill_nan), no phase is restored with the local-energy weight (local_no_phase, local_modulus), the Hubbard model with continuous fields uses the matrices of the discrete ones (hubbard_same, hubbard_differ, hubbard_raises)."
  },
  {
   "property": "C112",
   "status": "partial",
   "theorems": [
    "Verif.Stats.sem_unbiased",
    "Verif.Stats.mean_unbiased",
    "Verif.Stats.rdm_mean",
    "Verif.Stats.rdm_error",
    "Verif.Stats.rdm_error_partial",
    "Verif.Stats.rdm_error_average",
    "Verif.Stats.rdm_error_small",
    "Verif.Stats.split_mean",
    "Verif.Stats.split_trace",
    "Verif.Stats.one_body_skip",
    "Verif.Stats.one_body_differs",
    "Verif.Stats.correlation_mean",
    "Verif.Stats.tau_error",
    "Verif.Stats.tau_columns",
    "Verif.Stats.tau_weight_error",
    "Verif.Stats.fp_energy",
    "Verif.Stats.fp_error_partial",
    "Verif.Stats.fp_error_nan",
    "Verif.Stats.fp_error_wrong",
    "Verif.Stats.energy_group",
    "Verif.Stats.samples_example"
   ],
   "note": "sem_unbiased: the square of the standard error is right on average for samples that are not correlated (met by samples_example for every number of samples); energy_group, tau_columns, split and correlation report that error; tau_error: the error of a ratio is the standard error of num - E den over the mean denominator, never nan. False of the code: average_rdm with blocks left out reports an error too small by sqrt((n-skip)/n) (rdm_error, rdm_error_average, rdm_error_small); average_tau's errors of weight and numerator are sqrt(n) times too large (tau_weight_error); average_fp divides the covariance by the number of iterations (fp_error_nan, fp_error_wrong; fp_error_partial when the two numbers agree); analyse_one_body ignores skip."
  },
  {
   "property": "C113",
   "status": "partial",
   "theorems": [
    "Verif.Stats.kept_lines",
    "Verif.Stats.kept_restart",
    "Verif.Stats.estimates_group",
    "Verif.Stats.estimates_all",
    "Verif.Stats.pooled_agree",
    "Verif.Stats.pooled_dt",
    "Verif.Stats.pooled_hubbard",
    "Verif.Stats.setInfo_dt",
    "Verif.Stats.setInfo_hubbard",
    "Verif.Stats.setInfo_ueg",
    "Verif.Stats.groupBy_spec",
    "Verif.Stats.groupBy_mem",
    "Verif.Stats.groupBy_keys",
    "Verif.Stats.energy_group",
    "Verif.Stats.estimates_several",
    "Verif.Stats.estimates_free",
    "Verif.Stats.setInfo_blind",
    "Verif.Stats.hopping_pooled",
    "Verif.Stats.rows_lost",
    "Verif.Stats.bp_start",
    "Verif.Stats.no_tau_bp",
    "Verif.Stats.bp_raises",
    "Verif.Stats.bp_no_energies",
    "Verif.Stats.exRun_key",
    "Verif.Stats.two_files"
   ],
   "note": "Proved: the lines kept are those after the start time; lines averaged together agree in every grouping column, for Hubbard models in U, lattice and electrons; with one set of parameters all lines enter (met by two_files). False of the code: with two sets of parameters analyse_estimates raises (estimates_several), as in free projection (estimates_free); parameters not looked at such as the hopping are averaged over (setInfo_blind, hopping_pooled); rows of files lacking a key of the last file are lost (rows_lost); analyse_back_prop raises for every file and ignores the start time (bp_raises, bp_no_energies, bp_start)."
  },
  {
   "property": "C114",
   "status": "partial",
   "theorems": [
    "Verif.Stats.windows_spec",
    "Verif.Stats.chem_root_partial",
    "Verif.Stats.chem_two_partial",
    "Verif.Stats.chem_one_partial",
    "Verif.Stats.chem_not_min",
    "Verif.Stats.chem_last",
    "Verif.Stats.chem_few"
   ],
   "note": "Proved: a value returned is a root of the fit in one of the windows, with a residual not above that of the first window with a root; the smallest one for up to two windows. False of the code: with three windows not the smallest residual (chem_not_min), nothing is returned if the last window has no root (chem_last), an unbound name with too few points (chem_few). Fits and roots are parameters."
  },
  {
   "property": "C115",
   "status": "partial",
   "theorems": [
    "Verif.LocalOpts.runEnergy_full",
    "Verif.LocalOpts.localEnergy_full",
    "Verif.LocalOpts.setupTrial_one",
    "Verif.LocalOpts.optEri_eq",
    "Verif.LocalOpts.reshape4_ravel4",
    "Verif.LocalOpts.block_a",
    "Verif.LocalOpts.block_b",
    "Verif.LocalOpts.stoch_fails",
    "Verif.LocalOpts.runEnergy_stochastic",
    "Verif.LocalOpts.runEnergy_control",
    "Verif.LocalOpts.runEnergy_pno_needs",
    "Verif.LocalOpts.runEnergy_pno_free",
    "Verif.LocalOpts.setupTrial_many"
   ],
   "note": "Proved: without sampling and pair natural orbitals, with stored integrals or without control variates, every energy of a run is the full local energy on any number of ranks. False of the code: sampling fails for every system with more than one entry in the half-rotated Green's function, since the array of both spins is taken for a pair of arrays (stoch_fails, runEnergy_stochastic); control variates without stored integrals fail at the first estimate (runEnergy_control); pair natural orbitals fail without control variates or stored integrals, and in free projection (runEnergy_pno_needs, runEnergy_pno_free); with several determinants control variates fail in the set-up, as do pair natural orbitals (setupTrial_many)."
  },
  {
   "property": "C116",
   "status": "partial",
   "theorems": [
    "Verif.LocalOpts.runEnergy_pno",
    "Verif.LocalOpts.runEnergy_pno_start",
    "Verif.LocalOpts.runEnergy_pno_wrong",
    "Verif.LocalOpts.truncate_error",
    "Verif.LocalOpts.e2Half_pairs",
    "Verif.LocalOpts.exists_svdSpec"
   ],
   "note": "Proved: the energy is the full local energy plus a shift common to all walkers plus an error within the threshold times a bound; no shift for orthonormal trial orbitals and walkers starting from them. False of the code for other starts: the reference energy is that of the walker's first Green's function, the subtracted terms are those of the trial orbitals (runEnergy_pno_wrong: energies of all walkers off by 3). The decomposition is a parameter with contract IsSVD, met by exists_svdSpec."
  },
  {
   "property": "C117",
   "status": "partial",
   "theorems": [
    "Verif.UEG.realTrans_eq",
    "Verif.UEG.realTrans_unitary",
    "Verif.UEG.realTrans_real",
    "Verif.UEG.eri8c_real",
    "Verif.UEG.eri8_symmetric",
    "Verif.UEG.eri8_hamiltonian",
    "Verif.UEG.kinetic_twist",
    "Verif.UEG.twist_not_real"
   ],
   "note": "Proved for every twist: the transformation exists, is unitary and its orbitals are real functions; without twist the integrals are real, have the eight symmetries and give the same Hamiltonian with the unchanged one-body matrix. False with a twist: the kinetic energy between the two orbitals of a pair is imaginary (kinetic_twist, twist_not_real)."
  },
  {
   "property": "C118",
   "status": "partial",
   "theorems": [
    "Verif.UEG.file_roundtrip",
    "Verif.UEG.file_coulomb",
    "Verif.UEG.file_generic",
    "Verif.UEG.file_wrong",
    "Verif.UEG.file_case"
   ],
   "note": "Proved: the file holds the kinetic energy and vectors whose products with a conjugate transposed partner are the Coulomb integrals. False of the code: the generic system uses neither conjugate nor transposition, and a run set up from the file gives every determinant of plane waves no two-body energy at all (file_wrong)."
  },
  {
   "property": "C119",
   "status": "partial",
   "theorems": [
    "Verif.HolStep.spin_step",
    "Verif.HolStep.positive_step",
    "Verif.HolStep.electron_average",
    "Verif.HolStep.charge_step",
    "Verif.HolStep.charge_other",
    "Verif.HolStep.sorella_rows",
    "Verif.HolStep.complex_overlap",
    "Verif.Fields.strang_limit"
   ],
   "note": "Proved for the spin decomposition and real coefficients, under the condition that no field is cut by the constraint (StepOk), met by all one-plus-one-electron systems of the positive class (positive_step). False of the code otherwise: the charge decomposition projects with another interaction (charge_step, charge_other), the option sorella applies neither hopping nor coupling (sorella_rows), complex coefficients give wrong stored overlaps (complex_overlap)."
  },
  {
   "property": "C120",
   "status": "proved",
   "theorems": [
    "Verif.HubRun.spin_step",
    "Verif.HubRun.run_average",
    "Verif.HubRun.run_estimates",
    "Verif.HubRun.run_tendsto",
    "Verif.HubRun.sign_free_run",
    "Verif.HubRun.sign_free_alive",
    "Verif.HubRun.freeElectron_signFree",
    "Verif.HubRun.uhf_signFree",
    "Verif.HubRun.open_chain_free",
    "Verif.HubRun.ring_free",
    "Verif.HubRun.open_chain_uhf",
    "Verif.HubRun.ring_uhf",
    "Verif.HubRun.chain_case",
    "Verif.Fields.perron",
    "Verif.Fields.lowest_pos",
    "Verif.Fields.hops_open",
    "Verif.Fields.hops_closed",
    "Verif.Fields.stoquastic",
    "Verif.Fields.ground"
   ],
   "note": "Spin decomposition; energy shifts given, no population control; averages over random numbers are nested integrals. The general theorem (sign_free_run) is for any hopping matrix whose hops have no positive sign between ordered configurations and any trial of one phase; chains and rings are instances."
  },
  {
   "property": "C121",
   "status": "proved",
   "theorems": [
    "Verif.HubRun.branched_average",
    "Verif.HubRun.population_average",
    "Verif.HubRun.population_estimates",
    "Verif.HubRun.popEnergy_formula",
    "Verif.HubRun.popEnergy_eq",
    "Verif.HubRun.pop_tendsto",
    "Verif.HubRun.calm_eventually",
    "Verif.HubRun.popExact_of_signFree",
    "Verif.HubRun.pop_open_free",
    "Verif.HubRun.pop_ring_free",
    "Verif.HubRun.pop_open_uhf",
    "Verif.HubRun.pop_ring_uhf",
    "Verif.HubRun.population_case",
    "Verif.PairBranch.rows"
   ],
   "note": "Pair branching only (the comb is wrong for three or more copies, C03); runs in which the cap on weights, the skip of small weights and the exit of population control do not act (Calm; calm_eventually shows when). The factors of shifts and rescalings are put back in the average: the code's block averages do not do this, so they keep the usual population control bias."
  },
  {
   "property": "C122",
   "status": "proved",
   "theorems": [
    "Verif.HubRun.charge_steps",
    "Verif.HubRun.effU_spec",
    "Verif.HubRun.effU_ne",
    "Verif.HubRun.effU_tendsto",
    "Verif.HubRun.strang_limit_coupling",
    "Verif.HubRun.charge_popExact",
    "Verif.HubRun.charge_open_free",
    "Verif.HubRun.charge_ring_free",
    "Verif.HubRun.charge_open_uhf",
    "Verif.HubRun.charge_ring_uhf",
    "Verif.HubRun.no_spin_gamma",
    "Verif.HubRun.charge_case"
   ],
   "note": "Same conditions as C121. The wrong interaction at finite time steps (effU_ne) is a finding: the scalar factors of the decomposition cancel from weight over overlap (C31)."
  },
  {
   "property": "C123",
   "status": "proved",
   "theorems": [
    "Verif.SpinProj.spinSq_wave",
    "Verif.SpinProj.inner_wave",
    "Verif.SpinProj.wave_component",
    "Verif.SpinProj.spinInit_pure",
    "Verif.SpinProj.run_spinPure",
    "Verif.SpinProj.hubbard_run_spinPure",
    "Verif.SpinProj.gen_alike",
    "Verif.SpinProj.charge_alike",
    "Verif.SpinProj.planeWave_alike",
    "Verif.SpinProj.chargePar_alike",
    "Verif.SpinProj.mixed_contamination",
    "Verif.SpinProj.exists_parts",
    "Verif.SpinProj.mixed_projected",
    "Verif.SpinProj.natural_overlap",
    "Verif.SpinProj.natural_overlap_real",
    "Verif.SpinProj.natural_conjugate",
    "Verif.SpinProj.spin_decomposition_mixes",
    "Verif.SpinProj.polarised",
    "Verif.SpinProj.run_case"
   ],
   "note": "S^2, S_+, S_- and S_z are defined on wave functions of all electrons (orbital and spin), not through the code; operators that do not act on spins are arbitrary matrices between orbital configurations. natural_conjugate (complex trials), spin_decomposition_mixes and polarised are findings."
  },
  {
   "property": "C124",
   "status": "proved",
   "theorems": [
    "Verif.HubRun.restart_energy",
    "Verif.HubRun.restart_calm",
    "Verif.HubRun.population_average",
    "Verif.HubRun.popEnergy_formula",
    "Verif.HubRun.calm_eventually",
    "Verif.HubRun.restart_shift",
    "Verif.HubRun.population_case",
    "Verif.HubRun.charge_case"
   ],
   "note": "Same conditions as C121 (pair branching, Calm); restarts that change the number of walkers are not covered (walkers missing in the file start from the trial, C12). restart_shift is the case of use_log_shift."
  },
  {
   "property": "C125",
   "status": "proved",
   "theorems": [
    "Verif.Ghf.overlap_eq",
    "Verif.Ghf.green_eq",
    "Verif.Ghf.local_energy",
    "Verif.Ghf.probs_eq",
    "Verif.Ghf.Good.site",
    "Verif.Ghf.good_fresh",
    "Verif.Ghf.site_average",
    "Verif.Ghf.sweep_average",
    "Verif.Ghf.field_average",
    "Verif.Ghf.step_matrix",
    "Verif.Ghf.back_propagation",
    "Verif.Ghf.gab_energy",
    "Verif.Ghf.full_energy",
    "Verif.Ghf.gab_energy_fails",
    "Verif.Ghf.mixed_walker"
   ],
   "note": "Overlaps and matrix elements of operators are those of Energy (derivatives of overlaps, no Green's functions). Ratios have to be positive along the sweep (the constraint). gab_energy_fails and mixed_walker are the cases in which the code is wrong. By reading, the classes cannot be constructed in this version (missing imports)."
  },
  {
   "property": "C126",
   "status": "proved",
   "theorems": [
    "Verif.TrialFile.phf_roundtrip",
    "Verif.TrialFile.hartree_fock_file",
    "Verif.TrialFile.excite_rhf",
    "Verif.TrialFile.excite_uhf",
    "Verif.TrialFile.dump_unreadable",
    "Verif.TrialFile.fortran_read",
    "Verif.TrialFile.fortran_node",
    "Verif.TrialFile.fortran_repeat"
   ],
   "note": "Files are lists of lines of words; formatting and parsing of a number is an arbitrary rounding function. fortran_node, fortran_repeat, dump_unreadable and excite_uhf are findings."
  },
  {
   "property": "C127",
   "status": "proved",
   "theorems": [
    "Verif.HubBack.green_path",
    "Verif.HubBack.share_average",
    "Verif.HubBack.back_average",
    "Verif.HubBack.quotient_eq",
    "Verif.HubBack.back_tendsto",
    "Verif.HubBack.ground_projector",
    "Verif.HubBack.reaches_of_signFree",
    "Verif.HubBack.energy_op",
    "Verif.HubBack.printed_of_reaches",
    "Verif.HubBack.open_chain_free",
    "Verif.HubBack.ring_free",
    "Verif.HubBack.open_chain_uhf",
    "Verif.HubBack.ring_uhf",
    "Verif.HubBack.printed_case",
    "Verif.HubBack.energies_raise",
    "Verif.HubBack.restore_weights",
    "Verif.HubBack.restore_case"
   ],
   "note": "Spin decomposition; energy shifts given, no population control; averages over random numbers are nested integrals; the estimate is the ratio of the averaged numerator and denominator. energies_raise and restore_weights are findings."
  },
  {
   "property": "C128",
   "status": "proved",
   "theorems": [
    "Verif.HubBack.bbranched_average",
    "Verif.HubBack.bbranched_all",
    "Verif.HubBack.expect_run",
    "Verif.HubBack.expect_value",
    "Verif.HubBack.population_back",
    "Verif.HubBack.popQuotient_eq",
    "Verif.HubBack.bcalm_eventually",
    "Verif.HubBack.popPrinted",
    "Verif.HubBack.pop_open_free",
    "Verif.HubBack.pop_ring_free",
    "Verif.HubBack.pop_open_uhf",
    "Verif.HubBack.pop_ring_uhf",
    "Verif.HubBack.population_back_case"
   ],
   "note": "The estimate is the ratio of averages with the factors of the energy shifts and of the scalings put back; runs in which no walker is skipped and no weight is cut."
  },
  {
   "property": "C129",
   "status": "proved",
   "theorems": [
    "Verif.Slices.fl_near",
    "Verif.Slices.slices_general",
    "Verif.Slices.slices_exact",
    "Verif.Slices.slices_float",
    "Verif.Slices.bins_float",
    "Verif.Slices.slices_representable",
    "Verif.Slices.run_completes",
    "Verif.Slices.run_temperature",
    "Verif.Slices.times_reduced",
    "Verif.Slices.times_raise",
    "Verif.Slices.three_tenths",
    "Verif.Slices.three_tenths_raises",
    "Verif.Slices.one_completes",
    "Verif.Slices.bins_case",
    "Verif.Slices.bins_none",
    "Verif.Slices.window_case",
    "Verif.Slices.remainder_case",
    "Verif.Slices.reduced_case",
    "Verif.Slices.representable_case"
   ],
   "note": "The statement gives the exceptions; three_tenths_raises, bins_case, bins_none, window_case, remainder_case, times_raise and reduced_case are findings. Floating point without overflow and denormal numbers; reduced units in exact arithmetic."
  },
  {
   "property": "C130",
   "status": "proved",
   "theorems": [
    "Verif.Meta.param_read_back",
    "Verif.Meta.complex_real",
    "Verif.Meta.numpy_lost",
    "Verif.Meta.nothing_invented",
    "Verif.Meta.raises_iff",
    "Verif.Meta.columns_hubbard",
    "Verif.Meta.numpy_run_lost",
    "Verif.Meta.window_recorded",
    "Verif.Meta.meta_case",
    "Verif.Meta.empty_array"
   ],
   "note": "The statement gives the exceptions; complex_real, numpy_lost, numpy_run_lost, empty_array are findings. json.dumps and json.loads are taken to be inverse to each other; objects without cycles; string keys."
  },
  {
   "property": "C131",
   "status": "proved",
   "theorems": [
    "Verif.HubRun.clear_countable",
    "Verif.HubRun.paired_step",
    "Verif.HubRun.paired_run",
    "Verif.HubRun.lattice_plain",
    "Verif.HubRun.cols_paired",
    "Verif.HubRun.realEig_exists",
    "Verif.HubRun.paired_case"
   ],
   "note": "Runs as in C121 and C122 (thresholds as in Calm). That eigh returns real eigenvectors of real matrices is a contract (RealEig). Countably many time steps and imaginary times are excluded, for which an overlap vanishes somewhere."
  },
  {
   "property": "C132",
   "status": "proved",
   "theorems": [
    "Verif.HubHalf.free_no_sign",
    "Verif.HubHalf.direct_not_cut",
    "Verif.HubHalf.kinetic_not_cut",
    "Verif.HubHalf.direct_run",
    "Verif.HubHalf.rect_bipartite",
    "Verif.HubHalf.chain_bipartite",
    "Verif.HubHalf.free_trial",
    "Verif.HubHalf.single_site_cut",
    "Verif.HubHalf.pair_free",
    "Verif.HubHalf.pair_runs"
   ],
   "note": "The statement gives the exception; single_site_cut is a finding. The proofs do not need the sign of U: for dt*U < 0 (where numpy.arccosh is nan) the model says nothing about the code. log_shift off."
  },
  {
   "property": "C133",
   "status": "proved",
   "theorems": [
    "Verif.HubHalf.half_green",
    "Verif.HubHalf.half_energy",
    "Verif.HubHalf.run_energy",
    "Verif.HubHalf.free_energy",
    "Verif.HubHalf.chain_energy",
    "Verif.HubHalf.pair_density",
    "Verif.HubHalf.pair_energy"
   ],
   "note": "As for C132: log_shift off, one walker, energy shifts given; dt*U >= 0 is where gamma is the one of the code."
  },
  {
   "property": "C134",
   "status": "proved",
   "theorems": [
    "Verif.HubRun.paired_free",
    "Verif.HubRun.paired_energy",
    "Verif.HubRun.paired_free_energy",
    "Verif.HubRun.paired_run_energy",
    "Verif.HubRun.paired_free_case"
   ],
   "note": "One walker, energy shifts given, log_shift off. For dt*U > 0 the gamma of the code is complex and the model says nothing about it. Energies of walkers with vanishing overlap (possible in free projection) are left out."
  },
  {
   "property": "C135",
   "status": "proved",
   "theorems": [
    "Verif.HubHalf.clean_row",
    "Verif.HubHalf.clean_run",
    "Verif.HubHalf.half_rows",
    "Verif.HubHalf.paired_rows",
    "Verif.HubHalf.free_alive",
    "Verif.HubHalf.free_unit",
    "Verif.HubHalf.rows_case"
   ],
   "note": "Verbose runs (C36 tells what differs in quiet ones). A walker is given by its history; that population control only copies walkers and changes weights is C01-C05 and is not derived again here. log_shift off."
  },
  {
   "property": "C136",
   "status": "proved",
   "theorems": [
    "Verif.HubHalf.spin_alive",
    "Verif.HubHalf.charge_alive",
    "Verif.HubHalf.charge_alive_case",
    "Verif.HubHalf.half_rows_all",
    "Verif.HubHalf.free_electron_alive",
    "Verif.HubHalf.alive_case",
    "Verif.HubHalf.node_met",
    "Verif.HubHalf.node_excluded"
   ],
   "note": "Exact arithmetic; one walker by its history; log_shift off. The countable set of time steps is not computed."
  }
 ]
}