{
 "claims": [
  {
   "property": "C01",
   "status": "proved",
   "theorems": [
    "Verif.Props.perm_correct",
    "Verif.Props.perm_not_array",
    "Verif.Props.perm_raises_iff"
   ],
   "note": ""
  },
  {
   "property": "C02",
   "status": "proved",
   "theorems": [
    "Verif.Props.perm_ryser_correct",
    "Verif.Props.perm_bbfg_correct",
    "Verif.Props.perm_ryser_eq_bbfg",
    "Verif.Props.gray_lookup_succeeds"
   ],
   "note": ""
  },
  {
   "property": "C03",
   "status": "proved",
   "theorems": [
    "Verif.Props.reference_hafnian_correct",
    "Verif.Props.reference_hafnian_odd",
    "Verif.Props.reference_hafnian_raises"
   ],
   "note": ""
  },
  {
   "property": "C04",
   "status": "proved",
   "theorems": [
    "Verif.Props.pmp_enumerates",
    "Verif.Props.spm_enumerates",
    "Verif.Props.telephone_involutions",
    "Verif.Props.spm_short_raises"
   ],
   "note": ""
  },
  {
   "property": "C05",
   "status": "proved",
   "theorems": [
    "Verif.Props.hafnian_correct",
    "Verif.Props.hafnian_tolerance"
   ],
   "note": ""
  },
  {
   "property": "C06",
   "status": "proved",
   "theorems": [
    "Verif.Props.hafnian_loop_correct",
    "Verif.Props.hafnian_loop_zero_diag",
    "Verif.Props.hafnian_tolerance"
   ],
   "note": ""
  },
  {
   "property": "C07",
   "status": "proved",
   "theorems": [
    "Verif.Props.hafnianRepeated_correct",
    "Verif.Props.hafnianRepeated_raises"
   ],
   "note": ""
  },
  {
   "property": "C08",
   "status": "proved",
   "theorems": [
    "Verif.Props.hafnianSparse_correct",
    "Verif.Props.hafnianSparse_empty_zero"
   ],
   "note": ""
  },
  {
   "property": "C09",
   "status": "proved",
   "theorems": [
    "Verif.Props.hafnianBanded_correct",
    "Verif.Props.bandwidth_correct",
    "Verif.Props.hafnianBanded_value",
    "Verif.Props.hafnianBanded_empty"
   ],
   "note": ""
  },
  {
   "property": "C10",
   "status": "proved",
   "theorems": [
    "Verif.Props.recursiveHafnian_correct",
    "Verif.Props.recursiveHafnian_raises"
   ],
   "note": ""
  },
  {
   "property": "C100",
   "status": "proved",
   "theorems": [
    "Verif.Props.fidelity_symm",
    "Verif.Props.fidelity_range",
    "Verif.Props.fidelity_invariant",
    "Verif.Props.fidelity_units",
    "Verif.Props.hasFidelity_symm",
    "Verif.Props.hasFidelity_bound",
    "Verif.Props.fockMatrix_faithful"
   ],
   "note": "scipy.linalg.sqrtm by a contract on diagonalisable matrices with non-negative eigenvalues (existence proved); np.allclose in the branch before sqrtm is exact (only 0 is close to 0)."
  },
  {
   "property": "C101",
   "status": "proved",
   "theorems": [
    "Verif.Props.fidelity_tolerance",
    "Verif.Props.fidelity_near_pure",
    "Verif.Props.fidelity_branch"
   ],
   "note": "Exact real arithmetic except for the tolerance; scipy.linalg.sqrtm by a contract on diagonalisable matrices with non-negative eigenvalues (existence proved). fidelity_near_pure needs no contract: sqrtm is not called."
  },
  {
   "property": "C102",
   "status": "proved",
   "theorems": [
    "Verif.Props.logNegativity_traceNorm",
    "Verif.Props.logNegativity_ppt",
    "Verif.Props.hasTraceNorm_unique",
    "Verif.Props.fockTranspose_gaussian",
    "Verif.Props.gaussian_signed"
   ],
   "note": "Exact arithmetic (tol = 0, exact closeness in is_valid_cov); eigvals by its contract, as in C67."
  },
  {
   "property": "C103",
   "status": "proved",
   "theorems": [
    "Verif.Props.passive_dilation",
    "Verif.Props.passive_channel",
    "Verif.Props.dilation_exists",
    "Verif.Props.vacuum_fock"
   ],
   "note": "Exact real arithmetic."
  },
  {
   "property": "C104",
   "status": "proved",
   "theorems": [
    "Verif.Props.fock_independent",
    "Verif.Props.entropy_additive",
    "Verif.Props.logNegativity_additive",
    "Verif.Props.fidelity_multiplicative",
    "Verif.Props.hasFidelity_product",
    "Verif.Props.sympSpectrum_joint",
    "Verif.Props.independent_exists"
   ],
   "note": "Exact arithmetic (tol = 0); eigvals and sqrtm by their contracts (existence proved)."
  },
  {
   "property": "C105",
   "status": "proved",
   "theorems": [
    "Verif.Props.fidelity_reduced",
    "Verif.Props.fidelity_passive",
    "Verif.Props.fidelity_loss",
    "Verif.Props.fidelity_channel",
    "Verif.Props.hasFidelity_monotone"
   ],
   "note": "Exact arithmetic; scipy.linalg.sqrtm by its contract (existence proved), np.allclose in the branch before sqrtm exact (see C101 for the tolerance)."
  },
  {
   "property": "C106",
   "status": "proved",
   "theorems": [
    "Verif.Props.entropy_subadditive"
   ],
   "note": "subadditivity, the triangle inequality and the characterisation of equality, for the results of reduced_state and vonneumann_entropy; Klein's inequality in the Fock basis and the purification (entropy_marginals, entropy_consecutive, entropy_triangle)"
  },
  {
   "property": "C107",
   "status": "proved",
   "theorems": [
    "Verif.Props.logNegativity_reduced",
    "Verif.Props.logNegativity_loss"
   ],
   "note": "for reduced_state and for loss; the partial trace does not increase the trace norm of the partially transposed density matrix (traceNorm_partial)"
  },
  {
   "property": "C108",
   "status": "proved",
   "theorems": [
    "Verif.Props.groupedRun_error",
    "Verif.Props.grouped_radicand",
    "Verif.Props.groupedRun_error_zero",
    "Verif.Props.groupedClickProbabilities_error",
    "Verif.Props.groupedClickProbabilitiesSqueezed_error",
    "Verif.Props.grouped_radicand_negative",
    "Verif.Props.contribution_moments"
   ],
   "note": "For every run: the second result is the standard deviation of the averages of the groups. In the mean (np.random.normal by the standard normal distribution): its square is the variance of the first result times num_groups - 1. If num_groups does not divide num_samples the radicand may be negative (finding)."
  },
  {
   "property": "C109",
   "status": "proved",
   "theorems": [
    "Verif.Props.entropy_le_thermal"
   ],
   "note": "by subadditivity (C106) mode by mode, the inequality between the symplectic eigenvalue and the mean of the variances of a single mode, and the monotonicity of the entropy of thermal states; eigvals by its contract, exact arithmetic (tol = 0)"
  },
  {
   "property": "C11",
   "status": "proved",
   "theorems": [
    "Verif.Props.hafnianBatched_correct"
   ],
   "note": ""
  },
  {
   "property": "C110",
   "status": "proved",
   "theorems": [
    "Verif.Props.pure_entanglement",
    "Verif.Props.pure_negativity",
    "Verif.Props.partialTranspose_pure"
   ],
   "note": "eigvals by its contract, exact arithmetic (tol = 0); modes without repetition"
  },
  {
   "property": "C12",
   "status": "proved",
   "theorems": [
    "Verif.Props.hermite_recurrence",
    "Verif.Props.hermite_value",
    "Verif.Props.hermite_renorm",
    "Verif.Props.hermite_raises"
   ],
   "note": "renormalised arrays for cutoffs up to 1000, the size of the code's square-root table"
  },
  {
   "property": "C13",
   "status": "proved",
   "theorems": [
    "Verif.Props.grad_hermite_correct"
   ],
   "note": "stated as the total derivative along arbitrary differentiable curves of symmetric R, y, C with C nonzero"
  },
  {
   "property": "C14",
   "status": "proved",
   "theorems": [
    "Verif.Props.loopHafnianBatch_correct",
    "Verif.Props.loopHafnianBatch_assert",
    "Verif.Props.loopHafnianBatch_zero",
    "Verif.Props.loopHafnianBatch_zero_wrong"
   ],
   "note": "the case of an odd fixed total with N_cutoff=0 is excluded: the code returns [0] there (proved)"
  },
  {
   "property": "C15",
   "status": "proved",
   "theorems": [
    "Verif.Props.batchGamma_rows"
   ],
   "note": ""
  },
  {
   "property": "C16",
   "status": "proved",
   "theorems": [
    "Verif.Props.permanentRepeated_correct",
    "Verif.Props.permanentRepeated_exact",
    "Verif.Props.permanentRepeated_nonsquare"
   ],
   "note": "rpt is a list (rpt*2 is list repetition)"
  },
  {
   "property": "C17",
   "status": "proved",
   "theorems": [
    "Verif.Props.charpoly_correct",
    "Verif.Props.powertrace_correct",
    "Verif.Props.reduce_to_hessenberg_correct"
   ],
   "note": "out-of-bounds stores of _charpoly on 0x0/1x1 inputs are outside the model (they hit cells nothing reads)"
  },
  {
   "property": "C18",
   "status": "proved",
   "theorems": [
    "Verif.Props.mtl_correct",
    "Verif.Props.lmtl_correct",
    "Verif.Props.reference_mtl",
    "Verif.Props.reference_lmtl",
    "Verif.Props.rpmp_enumerates",
    "Verif.Props.rspm_enumerates",
    "Verif.Props.mtl_eq_reference",
    "Verif.Props.lmtl_eq_reference",
    "Verif.Props.reference_mtl_empty"
   ],
   "note": "Symmetric matrices of positive even dimension; exact arithmetic; the parallel loops of the fast version are executed sequentially in the model."
  },
  {
   "property": "C19",
   "status": "proved",
   "theorems": [
    "Verif.Props.tor_correct",
    "Verif.Props.ltor_correct",
    "Verif.Props.numbaTor_correct",
    "Verif.Props.numbaLtor_correct",
    "Verif.Props.recTorontonian_correct",
    "Verif.Props.recLtorontonian_correct",
    "Verif.Props.cholesky_contract"
   ],
   "note": "np.linalg.cholesky is a parameter with its contract; cholesky_contract shows the contract is satisfiable"
  },
  {
   "property": "C20",
   "status": "proved",
   "theorems": [
    "Verif.Props.thresholdProb_correct",
    "Verif.Props.thresholdProb_total",
    "Verif.Props.thresholdProb_marginal",
    "Verif.Props.mem_patterns",
    "Verif.Props.thresholdProb_fock"
   ],
   "note": "physical states; the means test is exact or, in thresholdProb_correct, any tolerance with means treated as zero when it passes; thresholdProb_fock: the value is the total weight of the photon-number patterns with support on the clicked modes, hence in [0,1]"
  },
  {
   "property": "C21",
   "status": "proved",
   "theorems": [
    "Verif.Props.lowRankHafnian_correct",
    "Verif.Props.lowRankHafnian_empty",
    "Verif.Props.lowRankHafnian_noColumns"
   ],
   "note": "Every shape with at least one column, and every matrix; the two shapes on which the code raises are theorems too."
  },
  {
   "property": "C22",
   "status": "proved",
   "theorems": [
    "Verif.Props.partitions_correct",
    "Verif.Props.partitions_zero"
   ],
   "note": "All r >= 1 and n, any recursion limit that is at least r; r = 0 never returns."
  },
  {
   "property": "C23",
   "status": "proved",
   "theorems": [
    "Verif.Props.matched_reps_correct"
   ],
   "note": ""
  },
  {
   "property": "C24",
   "status": "proved",
   "theorems": [
    "Verif.Props.find_kept_edges_bijective"
   ],
   "note": ""
  },
  {
   "property": "C25",
   "status": "proved",
   "theorems": [
    "Verif.Props.reduction_matrix_correct",
    "Verif.Props.reduction_vector_correct",
    "Verif.Props.repeatedIndices_count",
    "Verif.Props.repeatedIndices_sorted"
   ],
   "note": ""
  },
  {
   "property": "C26",
   "status": "proved",
   "theorems": [
    "Verif.Props.interferometer_action",
    "Verif.Props.interferometer_symplectic_iff",
    "Verif.Props.rotation_action",
    "Verif.Props.rotation_symplectic",
    "Verif.Props.beamSplitter_action",
    "Verif.Props.beamSplitter_symplectic",
    "Verif.Props.twoModeSqueezing_action",
    "Verif.Props.twoModeSqueezing_symplectic",
    "Verif.Props.squeezing_action",
    "Verif.Props.squeezing_symplectic"
   ],
   "note": ""
  },
  {
   "property": "C27",
   "status": "proved",
   "theorems": [
    "Verif.Props.expand_symplectic",
    "Verif.Props.expand_mul",
    "Verif.Props.expand_one",
    "Verif.Props.expand_commute",
    "Verif.Props.expand_entries",
    "Verif.Props.expand_single_entries",
    "Verif.Props.expand_raises",
    "Verif.Props.expandVector_amp",
    "Verif.Props.expandVector_raises",
    "Verif.Props.expandPassive_entries",
    "Verif.Props.expandPassive_mul",
    "Verif.Props.expandPassive_raises"
   ],
   "note": ""
  },
  {
   "property": "C28",
   "status": "proved",
   "theorems": [
    "Verif.Props.xxppToXpxp_vec",
    "Verif.Props.xxppToXpxp_mat",
    "Verif.Props.xpxpToXxpp_vec",
    "Verif.Props.xpxpToXxpp_mat",
    "Verif.Props.reorder_roundtrip",
    "Verif.Props.reorder_omega",
    "Verif.Props.reorder_raises"
   ],
   "note": ""
  },
  {
   "property": "C29",
   "status": "proved",
   "theorems": [
    "Verif.Props.loss_eq",
    "Verif.Props.loss_comp",
    "Verif.Props.loss_comm",
    "Verif.Props.loss_one",
    "Verif.Props.loss_zero",
    "Verif.Props.loss_raises",
    "Verif.Props.loss_eq_passive",
    "Verif.Props.passive_comp",
    "Verif.Props.passive_unitary",
    "Verif.Props.passive_vacuum",
    "Verif.Props.passive_raises"
   ],
   "note": "non-negative transmissions"
  },
  {
   "property": "C30",
   "status": "proved",
   "theorems": [
    "Verif.Props.Covmat_Qmat",
    "Verif.Props.Qmat_husimi",
    "Verif.Props.Qmat_Covmat",
    "Verif.Props.complexToReal_entries",
    "Verif.Props.realToComplex_complexToReal",
    "Verif.Props.complexToReal_realToComplex"
   ],
   "note": ""
  },
  {
   "property": "C31",
   "status": "proved",
   "theorems": [
    "Verif.Props.AmatQ_correct",
    "Verif.Props.Amat_correct",
    "Verif.Props.Amat_singular",
    "Verif.Props.Qmat_vacuum",
    "Verif.Props.Amat_vacuum"
   ],
   "note": ""
  },
  {
   "property": "C32",
   "status": "proved",
   "theorems": [
    "Verif.Props.isSymplectic_iff",
    "Verif.Props.isSymplectic_accepts",
    "Verif.Props.isSymplectic_rejects",
    "Verif.Props.isSymplectic_mul"
   ],
   "note": ""
  },
  {
   "property": "C33",
   "status": "partial",
   "theorems": [
    "Verif.Props.reducedState_eq",
    "Verif.Props.reducedState_comp",
    "Verif.Props.reducedState_raises",
    "Verif.Props.reducedGaussian_partial",
    "Verif.Props.reducedGaussian_raises_partial",
    "Verif.Props.reducedGaussian_unpermuted"
   ],
   "note": "complete for reduced_state; reduced_gaussian returns the unpermuted state for a list of N modes other than 0..N-1 (negation proved)"
  },
  {
   "property": "C34",
   "status": "proved",
   "theorems": [
    "Verif.Props.lossMat_correct",
    "Verif.Props.lossMat_error",
    "Verif.Props.lossMat_stochastic",
    "Verif.Props.lossMat_extremes",
    "Verif.Props.lossMat_mul"
   ],
   "note": ""
  },
  {
   "property": "C35",
   "status": "proved",
   "theorems": [
    "Verif.Props.updateLoss_correct",
    "Verif.Props.updateLoss_total",
    "Verif.Props.updateLoss_nonneg",
    "Verif.Props.updateLoss_comp",
    "Verif.Props.updateLoss_length",
    "Verif.Props.updateLoss_ten_modes",
    "Verif.Props.updateLoss_eleven_modes"
   ],
   "note": "up to 9 modes; the wrong result with 10 modes and the exception with 11 are proved"
  },
  {
   "property": "C36",
   "status": "proved",
   "theorems": [
    "Verif.Props.updateNoise_correct",
    "Verif.Props.updateNoise_total",
    "Verif.Props.updateNoise_length"
   ],
   "note": ""
  },
  {
   "property": "C37",
   "status": "partial",
   "theorems": [
    "Verif.Props.nBodyMarginals_exact",
    "Verif.Props.nBodyMarginals_partial",
    "Verif.Props.nBodyMarginals_two",
    "Verif.Props.nBodyMarginals_raises",
    "Verif.Props.nBodyMarginals_cyclic_false"
   ],
   "note": "False of the code as stated: the array of three or more modes in cyclic order has its photon-number axes permuted by the square of the sorting permutation (nBodyMarginals_exact says what the arrays contain; nBodyMarginals_cyclic_false refutes the property). Proved for all orders whose sorting permutation is an involution, hence for all one- and two-body marginals. list(set(ind)) is assumed ascending, which CPython guarantees only for values below 8."
  },
  {
   "property": "C38",
   "status": "proved",
   "theorems": [
    "Verif.Props.findClassicalSubsystem_correct",
    "Verif.Props.findClassicalSubsystem_exact",
    "Verif.Props.isClassicalCov_prefix"
   ],
   "note": ""
  },
  {
   "property": "C39",
   "status": "proved",
   "theorems": [
    "Verif.Props.generateHafnianSample_post",
    "Verif.Props.collect_iff",
    "Verif.Props.hafnianSampleState_correct",
    "Verif.Props.hafnianSampleStateParallel_correct",
    "Verif.Props.generateTorontonianSample_post",
    "Verif.Props.torontonianSampleState_correct",
    "Verif.Props.torontonianSampleStateParallel_correct",
    "Verif.Props.sampleState_errors",
    "Verif.Props.covChecks_iff",
    "Verif.Props.sampleState_zero",
    "Verif.Props.classicalSamples",
    "Verif.Props.classicalSamples_error",
    "Verif.Props.hafnianSampleRankOne_correct",
    "Verif.Props.hafnianSampleRankOne_runs",
    "Verif.Props.hafnianSampleGraphRankOne_correct"
   ],
   "note": "Every random stream, every outcome of the linear-algebra routines; a call that never gets enough accepted draws does not return (collect_iff). samples=0 raises ValueError (theorem)."
  },
  {
   "property": "C40",
   "status": "proved",
   "theorems": [
    "Verif.Props.invertPermutation_correct",
    "Verif.Props.invertPermutation_error",
    "Verif.Props.photonMeansOrder_correct"
   ],
   "note": "All permutations; photon_means_order returns a permutation that sorts the means."
  },
  {
   "property": "C41",
   "status": "proved",
   "theorems": [
    "Verif.Props.photonNumberSampler_correct",
    "Verif.Props.photonNumberSampler_marker",
    "Verif.Props.photonNumberSampler_error",
    "Verif.Props.choice_law",
    "Verif.Props.choice_spec",
    "Verif.Props.photonNumberSampler_shape_wrong"
   ],
   "note": "The law is stated as Lebesgue measure of the set of uniform numbers that give a pattern. photonNumberSampler_shape_wrong: for a shape that is not hypercubic (outside the documented inputs) the returned pattern is wrong."
  },
  {
   "property": "C42",
   "status": "partial",
   "theorems": [
    "Verif.Props.memo_transparent",
    "Verif.Props.limitedDict_bounded_partial",
    "Verif.Props.memo_limit_not_enforced"
   ],
   "note": "the size bound is false of the code: memoized passes the wrong keyword; the negation is proved"
  },
  {
   "property": "C43",
   "status": "proved",
   "theorems": [
    "Verif.Props.fockProb_value",
    "Verif.Props.fockProb_normalised",
    "Verif.Props.fockProb_raises"
   ],
   "note": ""
  },
  {
   "property": "C44",
   "status": "proved",
   "theorems": [
    "Verif.Props.brs_correct",
    "Verif.Props.ubrs_correct",
    "Verif.Props.fockThresholdProb_eq_sum",
    "Verif.Props.fockThresholdProb_normalised",
    "Verif.Props.fockThresholdProb_vacuum_wrong",
    "Verif.Props.fockThresholdProb_raises"
   ],
   "note": "vacuum input through a unitary is excluded: the code returns 0 for no click (proved)"
  },
  {
   "property": "C45",
   "status": "partial",
   "theorems": [
    "Verif.Props.coeffNormalOrdered_correct",
    "Verif.Props.pow_eq_coeff_sum",
    "Verif.Props.photonNumberMoment_partial",
    "Verif.Props.photonNumberMoment_zero_exponent",
    "Verif.Props.photonNumberMoment_raises"
   ],
   "note": "complete for the coefficients; photon_number_moment returns 0 instead of the moment when an exponent is 0 (negation proved), so the moment theorem needs positive exponents"
  },
  {
   "property": "C46",
   "status": "proved",
   "theorems": [
    "Verif.Props.partition_correct",
    "Verif.Props.partition_count",
    "Verif.Props.partition_map",
    "Verif.Props.partition_nil",
    "Verif.Props.photonNumberCumulant_correct",
    "Verif.Props.photonNumberCumulant_nil"
   ],
   "note": "the empty list raises"
  },
  {
   "property": "C47",
   "status": "proved",
   "theorems": [
    "Verif.Props.preIwasawa_correct",
    "Verif.Props.preIwasawa_raises",
    "Verif.Props.iwasawa_correct",
    "Verif.Props.iwasawa_raises",
    "Verif.Props.sqrtm_exists",
    "Verif.Props.qr_exists"
   ],
   "note": "sqrtm and qr are parameters with their contracts; the triangular block is lower triangular, the docstring says upper"
  },
  {
   "property": "C48",
   "status": "partial",
   "theorems": [
    "Verif.Props.takagi_correct_partial",
    "Verif.Props.takagi_diagonal_wrong",
    "Verif.Props.takagiDiag_value",
    "Verif.Props.takagi_raises",
    "Verif.Props.blochmessiah_correct_partial",
    "Verif.Props.blochmessiah_single_mode",
    "Verif.Props.blochmessiah_wrong",
    "Verif.Props.blochmessiah_raises"
   ],
   "note": "false as stated: on diagonal matrices that are not a real matrix times a phase and whose diagonal is not of strictly descending modulus, takagi (and blochmessiah through it) returns factors that do not multiply back; negations proved; everything else proved"
  },
  {
   "property": "C49",
   "status": "proved",
   "theorems": [
    "Verif.Props.displacement_correct",
    "Verif.Props.squeezing_correct",
    "Verif.Props.twoModeSqueezing_correct",
    "Verif.Props.beamsplitter_correct",
    "Verif.Props.mzgate_correct",
    "Verif.Props.displacement_exists",
    "Verif.Props.squeezing_exists",
    "Verif.Props.twoModeSqueezing_exists",
    "Verif.Props.interferometer2_exists",
    "Verif.Props.gradDisplacement_correct",
    "Verif.Props.gradSqueezing_correct",
    "Verif.Props.gradTwoModeSqueezing_correct",
    "Verif.Props.gradBeamsplitter_correct",
    "Verif.Props.gradMzgate_correct",
    "Verif.Props.gates_selection",
    "Verif.Props.gates_fockAmp",
    "Verif.Props.beamsplitter_unitary",
    "Verif.Props.mzgate_unitary",
    "Verif.Props.interferometer2_mul"
   ],
   "note": "exact complex arithmetic; the dtype argument is not modelled; cutoff >= 1 (for cutoff 0 the source stores out of bounds); grad_squeezing with cutoff 1 reads T[-2] out of bounds and multiplies it by 0 (harmless in exact arithmetic); independence of the cutoff follows because the operator on the right has no cutoff"
  },
  {
   "property": "C50",
   "status": "proved",
   "theorems": [
    "Verif.Props.randomInterferometer_correct",
    "Verif.Props.randomInterferometer_defined",
    "Verif.Props.positiveQR_unique",
    "Verif.Props.randomInterferometer_haar",
    "Verif.Props.randomInterferometer_ae",
    "Verif.Props.randomSymplectic_correct",
    "Verif.Props.randomCovariance_correct",
    "Verif.Props.randomBlockInterferometer_correct",
    "Verif.Props.randomBanded_correct",
    "Verif.Props.randomBanded_error",
    "Verif.Props.randomSymplectic_total",
    "Verif.Props.randomCovariance_total",
    "Verif.Props.randomBlockInterferometer_total",
    "Verif.Props.randomBanded_total",
    "Verif.Props.nonsingularDraws_eye",
    "Verif.Props.qrC_exists"
   ],
   "note": "scipy.linalg.qr is a parameter with its contract; the generator is an arbitrary sequence of arrays (Haar: independent standard normal entries)"
  },
  {
   "property": "C51",
   "status": "proved",
   "theorems": [
    "Verif.Props.photonNumberMean_correct",
    "Verif.Props.photonNumberMean_raises",
    "Verif.Props.photonNumberCovar_correct",
    "Verif.Props.photonNumberCovar_symm",
    "Verif.Props.photonNumberCovar_stats",
    "Verif.Props.photonNumberMeanVector_correct",
    "Verif.Props.photonNumberMeanVector_sum",
    "Verif.Props.meanPhotonNumber_correct",
    "Verif.Props.photonNumberCovmat_correct",
    "Verif.Props.photonNumber_vacuum",
    "Verif.Props.photonNumberExpectation_correct",
    "Verif.Props.photonNumberSquared_correct",
    "Verif.Props.numberMean_stats",
    "Verif.Props.numberCorr_stats",
    "Verif.Props.numberStats_exists"
   ],
   "note": ""
  },
  {
   "property": "C52",
   "status": "proved",
   "theorems": [
    "Verif.Props.getPartition_ok_iff",
    "Verif.Props.getPartition_range",
    "Verif.Props.getPartition_error"
   ],
   "note": ""
  },
  {
   "property": "C53",
   "status": "proved",
   "theorems": [
    "Verif.Props.parallelFor_eq_sequential",
    "Verif.Props.parallelFor_exists",
    "Verif.Props.calcHafnian_schedule",
    "Verif.Props.calcLoopHafnian_schedule",
    "Verif.Props.calcBatchEven_schedule",
    "Verif.Props.calcBatchOdd_schedule",
    "Verif.Props.calcGammaEven_schedule",
    "Verif.Props.calcGammaOdd_schedule",
    "Verif.Props.brs_schedule",
    "Verif.Props.ubrs_schedule",
    "Verif.Props.numbaTor_schedule",
    "Verif.Props.numbaLtor_schedule"
   ],
   "note": "numba reduction semantics: every thread has a private accumulator; exact arithmetic"
  },
  {
   "property": "C54",
   "status": "proved",
   "theorems": [
    "Verif.Props.hafnian_tolerance",
    "Verif.Props.hafnian_shortcut",
    "Verif.Props.hafnian_default_tolerance_wrong"
   ],
   "note": "the default tolerances do change results: witness proved"
  },
  {
   "property": "C55",
   "status": "proved",
   "theorems": [
    "Verif.Props.inputValidation_accepts_iff",
    "Verif.Props.inputValidation_raises",
    "Verif.Props.tor_raises"
   ],
   "note": ""
  },
  {
   "property": "C56",
   "status": "proved",
   "theorems": [
    "Verif.Props.meanClicks_correct",
    "Verif.Props.varianceClicks_correct",
    "Verif.Props.clickStats_exists"
   ],
   "note": ""
  },
  {
   "property": "C57",
   "status": "proved",
   "theorems": [
    "Verif.Props.nb_binom_correct",
    "Verif.Props.precompute_binoms_correct"
   ],
   "note": ""
  },
  {
   "property": "C58",
   "status": "proved",
   "theorems": [
    "Verif.Props.f_correct",
    "Verif.Props.f_loop_correct",
    "Verif.Props.f_loop_odd_correct",
    "Verif.Props.f_loop_general",
    "Verif.Props.f_loop_odd_general",
    "Verif.Props.expCoeff_stable"
   ],
   "note": ""
  },
  {
   "property": "C59",
   "status": "proved",
   "theorems": [
    "Verif.Props.interferometer_eq_hermite"
   ],
   "note": "integer cutoff"
  },
  {
   "property": "C60",
   "status": "proved",
   "theorems": [
    "Verif.Props.powerset_enumerates",
    "Verif.Props.bitstrings_enumerates",
    "Verif.Props.bitstrings_zero",
    "Verif.Props.dec2bin_correct",
    "Verif.Props.dec2bin_raises"
   ],
   "note": "bitstrings(0) raises ValueError"
  },
  {
   "property": "C61",
   "status": "proved",
   "theorems": [
    "Verif.Props.sOrdered_correct"
   ],
   "note": ""
  },
  {
   "property": "C62",
   "status": "proved",
   "theorems": [
    "Verif.Props.isValidCov_exact",
    "Verif.Props.isClassicalCov_exact",
    "Verif.Props.isPureCov_exact",
    "Verif.Props.physical_pure_iff",
    "Verif.Props.isPureCov_symplectic",
    "Verif.Props.isPureCov_gate",
    "Verif.Props.nonnegEig_iff"
   ],
   "note": "exact comparisons for symmetry and determinant; the eigenvalue threshold atol is exact in nonnegEig_iff"
  },
  {
   "property": "C63",
   "status": "proved",
   "theorems": [
    "Verif.Props.physical_vacuum",
    "Verif.Props.physical_symplectic",
    "Verif.Props.physical_reduced",
    "Verif.Props.physical_passive",
    "Verif.Props.physical_loss"
   ],
   "note": ""
  },
  {
   "property": "C64",
   "status": "proved",
   "theorems": [
    "Verif.Props.williamson_correct",
    "Verif.Props.williamson_raises",
    "Verif.Props.symplecticEigenvals_correct",
    "Verif.Props.charpoly_omega_williamson",
    "Verif.Props.williamson_theorem",
    "Verif.Props.symplecticEigenvals_posDef",
    "Verif.Props.sqrtm_exists",
    "Verif.Props.schur_exists",
    "Verif.Props.eigvals_exists"
   ],
   "note": "sqrtm, schur and eigvals are parameters with their contracts; *_exists show that routines with these contracts exist"
  },
  {
   "property": "C65",
   "status": "proved",
   "theorems": [
    "Verif.Props.vonneumannEntropy_correct",
    "Verif.Props.vonneumannEntropy_fock",
    "Verif.Props.entropy_unique",
    "Verif.Props.gaussian_entropy",
    "Verif.Props.vonneumannEntropy_error",
    "Verif.Props.vonneumannEntropy_nonneg",
    "Verif.Props.vonneumannEntropy_invariant",
    "Verif.Props.sympSpectrum_exists",
    "Verif.Props.sympSpectrum_unique",
    "Verif.Props.physical_iff_spectrum"
   ],
   "note": "np.linalg.eigvals is a parameter with its contract; comparisons exact"
  },
  {
   "property": "C66",
   "status": "proved",
   "theorems": [
    "Verif.Props.entanglementEntropy_correct",
    "Verif.Props.entanglementEntropy_fock",
    "Verif.Props.entanglementEntropy_symmetric",
    "Verif.Props.bipartite_spectrum",
    "Verif.Props.entanglementEntropy_duplicate"
   ],
   "note": "bipartition without repetitions and with two nonempty parts; with repeated modes the result is wrong (entanglementEntropy_duplicate)"
  },
  {
   "property": "C67",
   "status": "proved",
   "theorems": [
    "Verif.Props.logNegativity_correct",
    "Verif.Props.logNegativity_zero_iff",
    "Verif.Props.logNegativity_error",
    "Verif.Props.logNegativity_symmetric",
    "Verif.Props.logNegativity_local",
    "Verif.Props.logNegativity_separable",
    "Verif.Props.physical_partialTranspose"
   ],
   "note": ""
  },
  {
   "property": "C68",
   "status": "proved",
   "theorems": [
    "Verif.Props.generateHafnianSample_born",
    "Verif.Props.decomposeCov_correct",
    "Verif.Props.hafnianStep_born",
    "Verif.Props.outcomeDensity_all",
    "Verif.Props.outcomeDensity_none",
    "Verif.Props.goodSampler_exists"
   ],
   "note": "Equality of programs over an arbitrary random stream; sqrtm, schur, cholesky by contract. That the marginal law of the accepted patterns is then the photon-number distribution of the state is not part of the statement."
  },
  {
   "property": "C69",
   "status": "proved",
   "theorems": [
    "Verif.Props.fockMatrix_unique",
    "Verif.Props.densityMatrixElement_correct",
    "Verif.Props.densityMatrixElement_documented_false"
   ],
   "note": "rho is characterised by its Husimi function; the characterisation determines it (fockMatrix_unique). The code returns <j|rho|i>; the docstring order is refuted by densityMatrixElement_documented_false (coherent state)."
  },
  {
   "property": "C70",
   "status": "proved",
   "theorems": [
    "Verif.Props.densityMatrixAll_correct",
    "Verif.Props.densityMatrixPost_correct",
    "Verif.Props.fockMatrix_hermitian"
   ],
   "note": "Exact comparisons inside the Hermite functions; sqrt table of 1000 entries limits the cutoff of the branch without post-selection; normalize is ignored by that branch."
  },
  {
   "property": "C71",
   "status": "proved",
   "theorems": [
    "Verif.Props.pureState_correct",
    "Verif.Props.pureState_raises"
   ],
   "note": "The branch of state_vector with choi_r (used by fock_tensor) is not covered by these theorems."
  },
  {
   "property": "C72",
   "status": "proved",
   "theorems": [
    "Verif.Props.fockMatrix_posSemidef",
    "Verif.Props.fockMatrix_diag",
    "Verif.Props.probabilities_correct",
    "Verif.Props.coherent_fock"
   ],
   "note": "Positivity is proved by writing rho as a Gram matrix for the Fischer inner product."
  },
  {
   "property": "C73",
   "status": "proved",
   "theorems": [
    "Verif.Props.fockMatrix_trace",
    "Verif.Props.reducedState_trace",
    "Verif.Props.partialTrace_marginal",
    "Verif.Props.probabilities_sum"
   ],
   "note": "Partial traces are proved by averaging the Husimi function over phases (orthogonality on the torus) and integrating out Gaussian variables (Schur complement)."
  },
  {
   "property": "C74",
   "status": "proved",
   "theorems": [
    "Verif.Props.tvdCutoffBounds_correct",
    "Verif.Props.tvDist_truncated"
   ],
   "note": "Any outcome of the allclose test on the means under which only zero means pass."
  },
  {
   "property": "C75",
   "status": "proved",
   "theorems": [
    "Verif.Props.adjToQmat_correct",
    "Verif.Props.adjToQmat_fock",
    "Verif.Props.adjScaling_raises",
    "Verif.Props.adjToQmat_raises",
    "Verif.Props.adjToQmat_nonsquare",
    "Verif.Props.adjLib_exists"
   ],
   "note": "SVD and root finder by contract (existence proved)."
  },
  {
   "property": "C76",
   "status": "proved",
   "theorems": [
    "Verif.Props.adjScalingTorontonian_correct",
    "Verif.Props.meanClicksAdj_correct",
    "Verif.Props.meanF_mono",
    "Verif.Props.adjScalingTorontonian_raises",
    "Verif.Props.adjScalingTorontonian_degenerate"
   ],
   "note": "The degenerate theorem is a finding: a request that no scaling meets is answered with 1/s_max."
  },
  {
   "property": "C77",
   "status": "proved",
   "theorems": [
    "Verif.Props.rescale_correct",
    "Verif.Props.rescale_raises",
    "Verif.Props.rescaleThermal_eq"
   ],
   "note": "Eigendecomposition and root finder by contract; eigenvalues strictly between 0 and atol (cut to zero by the code) are not covered."
  },
  {
   "property": "C78",
   "status": "proved",
   "theorems": [
    "Verif.Props.fockTensor_correct",
    "Verif.Props.fockTensor_raises"
   ],
   "note": "U is a unitary infinite matrix satisfying the Heisenberg relations (Spec/GaussianUnitary). Exact arithmetic; the tolerance tests of the interferometer branch must not accept inputs that are not exactly interferometers; choi_r = 0 divides by tanh 0."
  },
  {
   "property": "C79",
   "status": "proved",
   "theorems": [
    "Verif.Props.gaussianUnitary_exists",
    "Verif.Props.gaussianUnitary_unique",
    "Verif.Props.gaussianUnitary_vacuum",
    "Verif.Props.gaussianUnitary_mul",
    "Verif.Props.gaussianUnitary_adjoint",
    "Verif.Props.gaussianUnitary_pure"
   ],
   "note": "Statements about the unitary of which fockTensor_correct says that fock_tensor returns its entries."
  },
  {
   "property": "C80",
   "status": "proved",
   "theorems": [
    "Verif.Props.gaussianUnitary_state",
    "Verif.Props.gaussian_thermal"
   ],
   "note": "Statements about the density matrix and the unitary of which densityMatrixAll_correct and fockTensor_correct say that density_matrix and fock_tensor return their entries."
  },
  {
   "property": "C81",
   "status": "proved",
   "theorems": [
    "Verif.Props.fidelity_correct",
    "Verif.Props.fidelity_uhlmann",
    "Verif.Props.hasFidelity_unique",
    "Verif.Props.fidelity_value",
    "Verif.Props.fidelity_pure",
    "Verif.Props.fidelity_pure_pure",
    "Verif.Props.fidelity_commuting",
    "Verif.Props.fidelity_self",
    "Verif.Props.fidelity_raises",
    "Verif.Props.fidelity_mu2_unchecked"
   ],
   "note": "scipy.linalg.sqrtm by a contract on diagonalisable matrices with non-negative eigenvalues (existence proved; the argument of the code is proved to be such a matrix)."
  },
  {
   "property": "C82",
   "status": "proved",
   "theorems": [
    "Verif.Props.displacement_gaussian",
    "Verif.Props.squeezing_gaussian",
    "Verif.Props.beamsplitter_gaussian",
    "Verif.Props.mzgate_gaussian",
    "Verif.Props.twoModeSqueezing_gaussian"
   ],
   "note": "np.allclose in fock_tensor's branch test by exact equality; np.sqrt table as in C78."
  },
  {
   "property": "C83",
   "status": "proved",
   "theorems": [
    "Verif.Props.expand_gaussian",
    "Verif.Props.expand_gaussian_single",
    "Verif.Props.expandVector_gaussian"
   ],
   "note": "The statement about the Gaussian unitary holds for whatever unitary U satisfies the Heisenberg relations of S."
  },
  {
   "property": "C84",
   "status": "proved",
   "theorems": [
    "Verif.Props.loss_dilation",
    "Verif.Props.loss_fock",
    "Verif.Props.passive_loss_photons",
    "Verif.Props.updateLoss_state",
    "Verif.Props.product_fock"
   ],
   "note": "update_probabilities_with_loss is limited to 9 modes by its einsum letters (see the findings)."
  },
  {
   "property": "C85",
   "status": "proved",
   "theorems": [
    "Verif.Props.total_gf",
    "Verif.Props.pureStateDistribution_correct",
    "Verif.Props.pureStateDistribution_raises",
    "Verif.Props.pureStateDistribution_hbar"
   ],
   "note": "The eigenvalues of the covariance matrix by Mathlib's Hermitian eigenvalues, in any order; hbar = 2 for the code, any hbar for the generating function."
  },
  {
   "property": "C86",
   "status": "proved",
   "theorems": [
    "Verif.Props.totalPhotonNumberDistribution_correct",
    "Verif.Props.characteristicFunction_correct"
   ],
   "note": "hyp2f1 by its series, binom by Gamma functions; k >= 1 since scipy's binom(-1, 0) is nan."
  },
  {
   "property": "C87",
   "status": "proved",
   "theorems": [
    "Verif.Props.joint_gf",
    "Verif.Props.source_gf",
    "Verif.Props.numberMeans_correct",
    "Verif.Props.numberCov_correct",
    "Verif.Props.sampleOne_gf",
    "Verif.Props.sampleOne_limit",
    "Verif.Props.sample_independent"
   ],
   "note": "Random programs as expectation functionals; numpy's choice and binomial by the distributions they document; T square with columns of norm at most one (a contraction for the link to states)."
  },
  {
   "property": "C88",
   "status": "proved",
   "theorems": [
    "Verif.Props.gaussian_mixture",
    "Verif.Props.mixture_law",
    "Verif.Props.hafnianSampleClassical_law",
    "Verif.Props.hafnianSampleClassical_prob",
    "Verif.Props.torontonianSampleClassical_prob",
    "Verif.Props.factor_exists",
    "Verif.Props.thermal_law",
    "Verif.Props.thermal_perm",
    "Verif.Props.generateThermalSamples_prob"
   ],
   "note": "Random programs as expectation functionals; multivariate_normal's factor by contract (FactorContract, existence proved); poisson and normal by the distributions they document."
  },
  {
   "property": "C89",
   "status": "proved",
   "theorems": [
    "Verif.Props.rankOneSample_law",
    "Verif.Props.hafnianSampleGraphRankOne_prob",
    "Verif.Props.rankOneSample_state",
    "Verif.Props.lh_rank_one",
    "Verif.Props.rankFold_law"
   ],
   "note": "Random programs as expectation functionals; negative_binomial and choice by the distributions they document; G = 0, for which the code divides by zero, is excluded."
  },
  {
   "property": "C90",
   "status": "proved",
   "theorems": [
    "Verif.Props.oneDet_mean",
    "Verif.Props.hafnianApprox_mean",
    "Verif.Props.hafnianApproxFront_correct",
    "Verif.Props.hafnianApproxFront_raises",
    "Verif.Props.hafnianApproxFront_loop",
    "Verif.Props.expected_det"
   ],
   "note": "Random program as expectation functional; np.random.normal by the standard normal distribution; real input arrays. The loop theorem is a finding: approx=True ignores loop=True."
  },
  {
   "property": "C91",
   "status": "proved",
   "theorems": [
    "Verif.Props.groupedClickProbabilities_unbiased",
    "Verif.Props.groupedClickProbabilitiesSqueezed_unbiased",
    "Verif.Props.groupedClickProbabilities_mean",
    "Verif.Props.groupedRun_total",
    "Verif.Props.contribution_total",
    "Verif.Props.groupedRun_not_normalised",
    "Verif.Props.groupedClickProbabilities_raises",
    "Verif.Props.click_count_fock",
    "Verif.Props.grouped_mean"
   ],
   "note": "Random program as expectation functional; np.random.normal by the standard normal distribution. The bias when num_groups does not divide num_samples is a finding. For the second result see C108."
  },
  {
   "property": "C92",
   "status": "proved",
   "theorems": [
    "Verif.Props.generateHafnianSample_law",
    "Verif.Props.generateHafnianSample_limit",
    "Verif.Props.returns_setup",
    "Verif.Props.drawEvent_lower",
    "Verif.Props.drawEvent_measure",
    "Verif.Props.pure_sampler",
    "Verif.Lemmas.Chain.pure_chain",
    "Verif.Lemmas.GInt.het_change",
    "Verif.Lemmas.GInt.plane_bessel"
   ],
   "note": "hbar = 2 (the sampler is wrong for other values, see the findings); no symplectic eigenvalue may exceed 1 by less than 1e-10. The normal and uniform numbers that numpy draws are independent with the standard normal and the uniform law; exact arithmetic. The bounds are exact statements about the finite cutoff; the limit of large cutoff is proved as well."
  },
  {
   "property": "C93",
   "status": "proved",
   "theorems": [
    "Verif.Props.generateTorontonianSample_born_all",
    "Verif.Props.generateTorontonianSample_law",
    "Verif.Props.generateTorontonianSample_limit",
    "Verif.Props.channel_draw",
    "Verif.Props.modes_born",
    "Verif.Props.splitState_totals",
    "Verif.Props.getHeterodyneFanout_eq",
    "Verif.Props.generateTorontonianSample_fanout_biased",
    "Verif.Props.herm_sq",
    "Verif.Props.bornModes_one",
    "Verif.Props.clicks_draws",
    "Verif.Props.events_setup",
    "Verif.Lemmas.Fan.fan_outcome",
    "Verif.Lemmas.Fan.channelDensity_flat"
   ],
   "note": "hbar = 2; no symplectic eigenvalue may exceed 1 by less than 1e-10. The Born rule for the channels is stated in Spec/Fanout (channelDensity of splitState, which has the photon statistics of the modes by splitState_totals). The law is for fanout = 1, where no extra noise is drawn."
  },
  {
   "property": "C94",
   "status": "proved",
   "theorems": [
    "Verif.Props.sOrdered_normal",
    "Verif.Props.sOrdered_antinormal",
    "Verif.Props.sOrdered_symmetrised",
    "Verif.Props.wick_words",
    "Verif.Props.fock_moments",
    "Verif.Props.photonNumberMean_fock",
    "Verif.Props.photonNumberCovmat_fock",
    "Verif.Props.photonNumberExpectation_fock",
    "Verif.Props.photonNumberSquared_fock",
    "Verif.Props.photonNumberMoment_fock",
    "Verif.Props.photonNumberCumulant_fock",
    "Verif.Props.factorial_moments",
    "Verif.Props.fock_stats",
    "Verif.Props.lossy_matrix"
   ],
   "note": "The ladder operators act on Fock amplitudes as in Spec/LadderWords; rho is any matrix with the Husimi function of the state (unique, C69). s_ordered_expectation for s other than -1, 0, 1 is covered by C61 only."
  },
  {
   "property": "C95",
   "status": "proved",
   "theorems": [
    "Verif.Props.hafnianSampleState_law",
    "Verif.Props.hafnianSampleState_limit",
    "Verif.Props.row_bounds",
    "Verif.Props.row_total",
    "Verif.Props.acceptance_bounds",
    "Verif.Props.hafnianSampleGraph_limit",
    "Verif.Props.hafnianSampleGraph_nonsquare",
    "Verif.Props.round_events",
    "Verif.Props.generate_round",
    "Verif.Props.collect_rounds",
    "Verif.Props.pure_spectrum",
    "Verif.Lemmas.Rej.runs_law"
   ],
   "note": "hbar = 2; no symplectic eigenvalue may exceed 1 by less than 1e-10. The random numbers of the rounds are independent with the standard normal and the uniform law (infinite product measure); exact arithmetic. The joint law with parallel=True is C98."
  },
  {
   "property": "C96",
   "status": "proved",
   "theorems": [
    "Verif.Props.torontonianSampleState_law",
    "Verif.Props.torontonianSampleState_limit",
    "Verif.Props.torontonianSampleState_threshold",
    "Verif.Props.click_acceptance",
    "Verif.Props.click_round_events",
    "Verif.Props.torontonianSampleGraph_limit",
    "Verif.Props.torontonianSampleGraph_nonsquare",
    "Verif.Props.collect_stops",
    "Verif.Props.pick_preserving",
    "Verif.Props.bornModes_none",
    "Verif.Lemmas.Rej.stops_law"
   ],
   "note": "hbar = 2 and fanout = 1 (with more channels the sampler is biased, C93); no symplectic eigenvalue may exceed 1 by less than 1e-10. The calls of the generator are independent (infinite product measure); exact arithmetic. The joint law with parallel=True is C98."
  },
  {
   "property": "C97",
   "status": "proved",
   "theorems": [
    "Verif.Props.thermal_point_process",
    "Verif.Props.gradMeanPhotonNumber_correct",
    "Verif.Props.gradMeanPhotonThermal_correct"
   ],
   "note": "eigh and root_scalar by contract; eigenvalues zero or at least atol (smaller ones make the code raise or drop them). The derivative formula of the code divides by x, so x must not be 0. Exact arithmetic."
  },
  {
   "property": "C98",
   "status": "proved",
   "theorems": [
    "Verif.Props.hafnianSampleStateParallel_law",
    "Verif.Props.hafnianSampleStateParallel_fair",
    "Verif.Props.hafnianSampleStateParallel_limit",
    "Verif.Props.hafnianSampleState_calls",
    "Verif.Props.torontonianSampleStateParallel_law",
    "Verif.Props.torontonianSampleStateParallel_fair",
    "Verif.Props.torontonianSampleStateParallel_limit",
    "Verif.Props.hafnianSampleGraphParallel_law",
    "Verif.Props.torontonianSampleGraphParallel_law",
    "Verif.Props.parallelRows_iff",
    "Verif.Props.parallelClicks_iff",
    "Verif.Props.tasks_iff",
    "Verif.Props.rowsCalls_events",
    "Verif.Props.returnsClickRows_measurable",
    "Verif.Lemmas.Rej.shared_stream",
    "Verif.Lemmas.Rej.merge_preserving",
    "Verif.Lemmas.Rej.isNth_of_fair",
    "Verif.Lemmas.Rej.roundRobin_fair"
   ],
   "note": "hbar = 2, fanout = 1; each call to the generator is atomic (NumPy's generator holds a lock); the schedule is a measurable function of the draws made so far. The law theorems need only that each thread is served the draws that decide its row; the graph versions are stated for schedules that turn to every thread again and again."
  },
  {
   "property": "C99",
   "status": "proved",
   "theorems": [
    "Verif.Props.clickCumulant_fock",
    "Verif.Props.clickCumulant_small",
    "Verif.Props.clickBlock_fock",
    "Verif.Props.cumulant_sum",
    "Verif.Props.clicks_reduced",
    "Verif.Props.clickStats_fock",
    "Verif.Props.clicks_fock",
    "Verif.Props.clickCumulant_nil"
   ],
   "note": "np.isclose(mu, 0) is exact (true only for 0); Cholesky by contract; list(set(B)) is an arbitrary ordering of the elements of B. Exact arithmetic."
  }
 ]
}