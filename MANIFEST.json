{
 "claims": [
  {
   "property": "C01",
   "status": "proved",
   "theorems": [
    "Verif.Props.C01_build_denotes_history"
   ],
   "note": "all call histories"
  },
  {
   "property": "C02",
   "status": "proved",
   "theorems": [
    "Verif.Props.C02_build_normal_form",
    "Verif.Props.C02_build_idempotent",
    "Verif.Props.C02_rejection_atomic",
    "Verif.Props.C02_accepts_iff",
    "Verif.Props.C02_build_eq_fresh"
   ],
   "note": "normal form, idempotence, atomic rejection, acceptance condition, cache coherence"
  },
  {
   "property": "C03",
   "status": "proved",
   "theorems": [
    "Verif.Props.C03_named_tuple_round_trip",
    "Verif.Props.C03_named_tuple_is_plain",
    "Verif.Props.C03_named_tuple_injective"
   ],
   "note": "all events; model of attrs/namedtuple conversion"
  },
  {
   "property": "C04",
   "status": "proved",
   "theorems": [
    "Verif.Props.C04_ledger_is_history",
    "Verif.Props.C04_rdp_ledger",
    "Verif.Props.C04_pld_ledger"
   ],
   "note": "generic over accountants with the documented dry-run contract, instantiated for RDP and PLD"
  },
  {
   "property": "C05",
   "status": "proved",
   "theorems": [
    "Verif.Props.C05_rdp_supports_exact",
    "Verif.Props.C05_pld_supports_exact",
    "Verif.Props.C05_pld_supports_total",
    "Verif.Props.C05_rdp_supports_raises"
   ],
   "note": "exactness and purity for RDP and PLD; also records that RDP supports() itself can raise ZeroDivisionError"
  },
  {
   "property": "C06",
   "status": "partial",
   "theorems": [
    "Verif.Props.C06_rdp_exception_loses_loss",
    "Verif.Props.C06_rdp_exception_keeps_loss_partial",
    "Verif.Props.C06_pld_exception_keeps_loss"
   ],
   "note": "false for RepeatAndSelect in the RDP accountant (C06_rdp_exception_loses_loss); proved for every other event, and for the PLD accountant"
  },
  {
   "property": "C07",
   "status": "partial",
   "theorems": [
    "Verif.Props.C07_rdp_self_composed",
    "Verif.Props.C07_pld_randomized_response_count_ignored",
    "Verif.Props.C07_pld_randomized_response_undercount",
    "Verif.Props.C07_pld_accounts_every_application_partial"
   ],
   "note": "proved for RDP and, for any sound PLD library, for PLD; false for PLD randomized response under a count > 1, whose count is ignored (C07_pld_randomized_response_count_ignored)"
  },
  {
   "property": "C08",
   "status": "proved",
   "theorems": [
    "Verif.Props.C08_rdp_order_independent"
   ],
   "note": "all lists of events, all permutations"
  },
  {
   "property": "C09",
   "status": "proved",
   "theorems": [
    "Verif.Props.C09_rdp_nonprivate_absorbing",
    "Verif.Props.C09_pld_nonprivate_absorbing"
   ],
   "note": "RDP values infinite / PLD accountant reports epsilon inf and delta 1"
  },
  {
   "property": "C10",
   "status": "proved",
   "theorems": [
    "Verif.Props.C10_rdp_additive",
    "Verif.Props.C10_noop_neutral",
    "Verif.Props.C10_rdp_monotone",
    "Verif.Props.C10_negative_count_decreases"
   ],
   "note": "neutrality, exact additivity, monotonicity; counts inside events must be positive (C10_negative_count_decreases shows why)"
  },
  {
   "property": "C11",
   "status": "proved",
   "theorems": [
    "Verif.Props.C11_delta_exact",
    "Verif.Props.C11_delta_vectorised",
    "Verif.Props.C11_unsorted_rejected",
    "Verif.Props.C11_delta_monotone_bounded"
   ],
   "note": "scalar, vectorised, sparse and dense paths; unsorted epsilons rejected; monotone and bounded"
  },
  {
   "property": "C12",
   "status": "partial",
   "theorems": [
    "Verif.Props.C12_epsilon_valid",
    "Verif.Props.C12_epsilon_smallest_partial",
    "Verif.Props.C12_zero_mass_not_smallest"
   ],
   "note": "validity and smallest proved when infinity_mass < delta or the top loss carries mass; C12_zero_mass_not_smallest shows the remaining case is false"
  },
  {
   "property": "C13",
   "status": "proved",
   "theorems": [
    "Verif.Props.C13_compose_convolution",
    "Verif.Props.C13_compose_delta",
    "Verif.Props.C13_compose_succeeds",
    "Verif.Props.C13_compose_comm",
    "Verif.Props.C13_compose_assoc",
    "Verif.Props.C13_compose_identity",
    "Verif.Props.C13_compose_mass",
    "Verif.Props.C13_convolve_dictionary"
   ],
   "note": "convolution, monoid laws up to distribution, mass, all four sparse/dense combinations"
  },
  {
   "property": "C14",
   "status": "proved",
   "theorems": [
    "Verif.Props.C14_composed_delta",
    "Verif.Props.C14_composed_delta_succeeds"
   ],
   "note": "all dense/sparse pairs on a common grid, all epsilon"
  },
  {
   "property": "C15",
   "status": "proved",
   "theorems": [
    "Verif.Props.C15_truncation_pessimistic",
    "Verif.Props.C15_truncation_optimistic",
    "Verif.Props.C15_truncation_mass"
   ],
   "note": "pessimistic and optimistic bounds and mass preservation"
  },
  {
   "property": "C16",
   "status": "proved",
   "theorems": [
    "Verif.Props.C16_self_compose_exact",
    "Verif.Props.C16_self_compose_eq_copies",
    "Verif.Props.C16_self_compose_succeeds",
    "Verif.Props.C16_self_convolve_dictionary"
   ],
   "note": "sparse and dense, all n; FFT modelled by the exact DFT with any next_fast_len"
  },
  {
   "property": "C17",
   "status": "partial",
   "theorems": [
    "Verif.Props.C17_self_compose_truncated",
    "Verif.Props.C17_window_mass",
    "Verif.Props.C17_dense_succeeds",
    "Verif.Props.C17_optimistic_not_lower_bound"
   ],
   "note": "pessimistic estimates sound with error at most 2t and window mass at most t; for optimistic dense PMFs the result may exceed the exact delta (C17_optimistic_not_lower_bound)"
  },
  {
   "property": "C18",
   "status": "proved",
   "theorems": [
    "Verif.Props.C18_dictionary_to_list",
    "Verif.Props.C18_roundtrip",
    "Verif.Props.C18_list_to_dictionary",
    "Verif.Props.C18_list_to_dictionary_truncation"
   ],
   "note": "all dictionaries and lists, truncation included"
  },
  {
   "property": "C19",
   "status": "proved",
   "theorems": [
    "Verif.Props.C19_pessimistic",
    "Verif.Props.C19_optimistic",
    "Verif.Props.C19_asymmetric",
    "Verif.Props.C19_exact_on_grid",
    "Verif.Props.C19_mass",
    "Verif.Props.C19_indist"
   ],
   "note": "pessimistic, optimistic and asymmetric estimates; mass; exact on the grid; measure-level guarantee"
  },
  {
   "property": "C20",
   "status": "proved",
   "theorems": [
    "Verif.Props.C20_accepts",
    "Verif.Props.C20_dominates",
    "Verif.Props.C20_at_least_dots",
    "Verif.Props.C20_exact_at_dots",
    "Verif.Props.C20_interpolates",
    "Verif.Props.C20_fixed_gap_agrees",
    "Verif.Props.C20_isHs_finite"
   ],
   "note": "acceptance, domination of every pair below the dots, exactness and mass one for exact deltas, interpolation, fixed-gap agreement; all lists"
  },
  {
   "property": "C21",
   "status": "proved",
   "theorems": [
    "Verif.Props.C21_dominates",
    "Verif.Props.C21_exact_on_grid",
    "Verif.Props.C21_succeeds"
   ],
   "note": "dominates every (eps, delta)-DP pair, tight when eps is a multiple of the interval, never raises on valid input"
  },
  {
   "property": "C22",
   "status": "proved",
   "theorems": [
    "Verif.Props.C22_adaptive_composition",
    "Verif.Props.C22_compose_sound",
    "Verif.Props.C22_history_sound",
    "Verif.Props.C22_epsilon_valid",
    "Verif.Props.C22_truncation_over_one_unsound",
    "Verif.Props.C22_tight"
   ],
   "note": "adaptive composition for arbitrary measurable spaces and Markov kernels; compose/self_compose histories of any shape, with truncation as long as no truncated result has infinity mass above 1 (counterexample proved otherwise); post-processing"
  },
  {
   "property": "C23",
   "status": "proved",
   "theorems": [
    "Verif.Props.C23_replace_one",
    "Verif.Props.C23_replace_one_optimistic",
    "Verif.Props.C23_exact_on_grid",
    "Verif.Props.C23_replace_special",
    "Verif.Props.C23_rejects"
   ],
   "note": "replace-one and replace-special, both estimates, rejected parameters"
  },
  {
   "property": "C24",
   "status": "proved",
   "theorems": [
    "Verif.Props.C24_incompatible_rejected",
    "Verif.Props.C24_compose_valid",
    "Verif.Props.C24_delta_max",
    "Verif.Props.C24_epsilon_valid",
    "Verif.Props.C24_composed_delta",
    "Verif.Props.C24_self_compose_valid",
    "Verif.Props.C24_validate_rejects_composable"
   ],
   "note": "all operations on a PLD; also records that validate_composable rejects pairs compose accepts"
  },
  {
   "property": "C25",
   "status": "partial",
   "theorems": [
    "Verif.Props.C25_none_iff",
    "Verif.Props.C25_none_no_feasible",
    "Verif.Props.C25_found_feasible",
    "Verif.Props.C25_found_in_range",
    "Verif.Props.C25_found_extremal",
    "Verif.Props.C25_discrete_exact_partial",
    "Verif.Props.C25_discrete_end_missed",
    "Verif.Props.C25_terminates",
    "Verif.Props.C25_zero_guess_diverges"
   ],
   "note": "soundness, infeasibility, extremality to tolerance and termination for all monotone functions; discrete mode misses a feasible far end and a non-positive guess diverges (both proved as disagreements)"
  },
  {
   "property": "C26",
   "status": "partial",
   "theorems": [
    "Verif.Props.C26_calibrate_within_budget",
    "Verif.Props.C26_calibrate_near_boundary",
    "Verif.Props.C26_calibrate_optimal",
    "Verif.Props.C26_bracket_search_sound",
    "Verif.Props.C26_bracket_search_complete",
    "Verif.Props.C26_bisect_terminates",
    "Verif.Props.C26_bisect_sound",
    "Verif.Props.C26_discrete_not_optimal"
   ],
   "note": "soundness unconditional, any brentq; optimality within tol for continuous and tol+1 for discrete; documented discrete tolerance is false (C26_discrete_not_optimal)"
  },
  {
   "property": "C27",
   "status": "proved",
   "theorems": [
    "Verif.Props.C27_none_iff",
    "Verif.Props.C27_sound",
    "Verif.Props.C27_least",
    "Verif.Props.C27_smallest_defined",
    "Verif.Props.C27_smallest_sound",
    "Verif.Props.C27_smallest_total"
   ],
   "note": "exact (least) epsilon on the grid eps*(k-2i) for k-fold adaptive composition of (eps, delta)-DP, None exactly when no finite value, search inverse sound and total"
  },
  {
   "property": "C28",
   "status": "partial",
   "theorems": [
    "Verif.Props.C28_parameter_feasible",
    "Verif.Props.C28_parameter_tight",
    "Verif.Props.C28_parameter_none",
    "Verif.Props.C28_parameter_private",
    "Verif.Props.C28_laplace",
    "Verif.Props.C28_laplace_returns",
    "Verif.Props.C28_discrete_laplace",
    "Verif.Props.C28_discrete_laplace_returns",
    "Verif.Props.C28_gaussian",
    "Verif.Props.C28_gaussian_smallest",
    "Verif.Props.C28_gaussian_finds",
    "Verif.Props.C28_subsampled_gaussian_partial",
    "Verif.Props.C28_subsampled_gaussian_near",
    "Verif.Props.C28_subsampled_gaussian_returns"
   ],
   "note": "get_smallest_parameter: the returned parameter is in range, feasible and extremal up to the tolerance; None only if the range has no feasible upper end. Laplace, discrete Laplace and Gaussian wrappers: always return (for positive epsilon, sensitivity and 1..10^21 queries) and the returned noise makes any n adaptively chosen queries (epsilon, delta)-DP; the Gaussian standard deviation is the smallest private one up to 1e-7. Partial because for the subsampled Gaussian wrapper with a sampling probability whose log(1-q) is math.isclose to a grid point the guarantee only holds with an additional delta of 1e-9 |log(1-q)| per query (C28_subsampled_gaussian_near)."
  },
  {
   "property": "C29",
   "status": "proved",
   "theorems": [
    "Verif.Props.C29_log_add",
    "Verif.Props.C29_log_sub_sign",
    "Verif.Props.C29_log_sub_sign_true",
    "Verif.Props.C29_pld_log_add",
    "Verif.Props.C29_pld_log_sub",
    "Verif.Props.C29_log_a_times_exp_b_plus_c",
    "Verif.Props.C29_log_a_times_exp_b_plus_c_undefined"
   ],
   "note": "All log-domain helpers shared by the accountants. Disagreement proved: log_a_times_exp_b_plus_c returns NaN or -inf instead of raising ValueError when a*exp(b)+c <= 0 and (a = 0, or a > 0 and b = 0)."
  },
  {
   "property": "C30",
   "status": "partial",
   "theorems": [
    "Verif.Props.C30_laplace_partial",
    "Verif.Props.C30_gaussian_partial",
    "Verif.Props.C30_discrete_laplace_partial",
    "Verif.Props.C30_discrete_gaussian_partial"
   ],
   "note": "Laplace, Gaussian, discrete Laplace, discrete Gaussian, both adjacencies, every sampling probability, all finite losses except those that math.isclose identifies with the limit of the loss of a sub-sampled mechanism (there the cut-off is replaced by -inf/inf). Monotonicity has no exception."
  },
  {
   "property": "C31",
   "status": "partial",
   "theorems": [
    "Verif.Props.C31_laplace_partial",
    "Verif.Props.C31_gaussian_partial",
    "Verif.Props.C31_discrete_laplace_partial",
    "Verif.Props.C31_discrete_gaussian_partial",
    "Verif.Props.C31_laplace_near",
    "Verif.Props.C31_gaussian_near",
    "Verif.Props.C31_discrete_laplace_near",
    "Verif.Props.C31_discrete_gaussian_near",
    "Verif.Props.C31_isclose_wrong"
   ],
   "note": "Exact value proved for the four additive noise mechanisms at every epsilon except those close (math.isclose, 1e-9) to the limit of the loss when sampling_prob < 1. C31_isclose_wrong proves that the excluded case really fails: delta 0 is returned although the mechanism is not (epsilon,0)-private. Without any exception the reported delta is never above the divergence and below it by at most 1e-9 |log(1-q)| (C31_*_near)."
  },
  {
   "property": "C32",
   "status": "partial",
   "theorems": [
    "Verif.Props.C32_laplace_near",
    "Verif.Props.C32_gaussian_near",
    "Verif.Props.C32_discrete_laplace_near",
    "Verif.Props.C32_discrete_gaussian_near",
    "Verif.Props.C32_laplace_partial",
    "Verif.Props.C32_laplace_accepts",
    "Verif.Props.C32_gaussian_partial",
    "Verif.Props.C32_gaussian_accepts",
    "Verif.Props.C32_discrete_laplace_partial",
    "Verif.Props.C32_discrete_laplace_accepts",
    "Verif.Props.C32_discrete_gaussian_partial",
    "Verif.Props.C32_discrete_gaussian_accepts",
    "Verif.Props.C32_gaussian_unsampled",
    "Verif.Props.C32_laplace_unsampled"
   ],
   "note": "Laplace, Gaussian, discrete Laplace, discrete Gaussian; connect-the-dots and privacy buckets; Poisson sampling, vector queries. For q<1 no multiple of the discretization interval may be math.isclose to log(1-q), where the code's delta is wrong (C31_isclose_wrong). norm.ppf is only assumed <= 0 at the tail mass. Complete for q = 1 (C32_*_unsampled). Without the condition on the grid, for connect-the-dots (the default), the deltas are valid up to 1e-9 |log(1-q)| (C32_*_near)."
  },
  {
   "property": "C33",
   "status": "proved",
   "theorems": [
    "Verif.Props.C33_laplace",
    "Verif.Props.C33_gaussian",
    "Verif.Props.C33_discrete_laplace",
    "Verif.Props.C33_discrete_gaussian"
   ],
   "note": "All four additive noise mechanisms; includes infinite losses and the ValueError where the loss is undefined. Continuous case: ratio of the continuous densities."
  },
  {
   "property": "C34",
   "status": "partial",
   "theorems": [
    "Verif.Props.C34_pessimistic",
    "Verif.Props.C34_optimistic",
    "Verif.Props.C34_terminates",
    "Verif.Props.C34_diverges_with_infinite_mass"
   ],
   "note": "pessimistic / optimistic estimates for every cdf with limits 0 and 1, termination; diverges if a cdf stays below 1 (C34_diverges_with_infinite_mass)"
  },
  {
   "property": "C35",
   "status": "proved",
   "theorems": [
    "Verif.Props.C35_compute_delta_sound",
    "Verif.Props.C35_compute_delta_value",
    "Verif.Props.C35_compute_delta_raises"
   ],
   "note": "Soundness for arbitrary probability measures (orders >= 1, infinite RDP values allowed), exact value, and exact conditions for raising."
  },
  {
   "property": "C36",
   "status": "proved",
   "theorems": [
    "Verif.Props.C36_compute_epsilon_sound",
    "Verif.Props.C36_zero_delta_unchecked",
    "Verif.Props.C36_antitone_in_delta",
    "Verif.Props.C36_monotone_in_rdp",
    "Verif.Props.C36_consistent",
    "Verif.Props.C36_compute_epsilon_raises"
   ],
   "note": "Soundness, monotonicity in delta and rdp, consistency with compute_delta. Disagreement proved: delta = 0 with an empty curve answers 0 instead of raising. C36_compute_epsilon_raises: exactly when it raises."
  },
  {
   "property": "C37",
   "status": "proved",
   "theorems": [
    "Verif.Props.C37_adaptive_composition",
    "Verif.Props.C37_sequence"
   ],
   "note": "Adaptive composition of arbitrary probability measures with Markov kernels, any order >= 1, any number of mechanisms."
  },
  {
   "property": "C38",
   "status": "proved",
   "theorems": [
    "Verif.Props.C38_replace_one_exact",
    "Verif.Props.C38_replace_special_exact",
    "Verif.Props.C38_replace_one_infinite_order",
    "Verif.Props.C38_replace_special_infinite_order",
    "Verif.Props.C38_replace_one_mechanism",
    "Verif.Props.C38_replace_special_mechanism"
   ],
   "note": "Exact for every real order > 1, every noise parameter in [0,1] and every number of buckets, both neighbouring relations; at order infinity the value is the least pure-DP epsilon."
  },
  {
   "property": "C39",
   "status": "proved",
   "theorems": [
    "Verif.Props.C39_gaussian_exact",
    "Verif.Props.C39_poisson_exact",
    "Verif.Props.C39_gaussian_mechanism",
    "Verif.Props.C39_poisson_mechanism"
   ],
   "note": "Gaussian: order*1/(2z^2) equals the Renyi divergence of the worst pair and bounds every vector query of unit L2 sensitivity. Poisson-subsampled Gaussian: the integer-order value equals the exact divergence of the dominating mixture pair and bounds the subsampled vector mechanism in both directions. The fractional-order series is a parameter here; see C62."
  },
  {
   "property": "C40",
   "status": "proved",
   "theorems": [
    "Verif.Props.C40_exact",
    "Verif.Props.C40_near_one",
    "Verif.Props.C40_mechanism"
   ],
   "note": "Exact at order 1 and orders >= 1.1; between, the 99-term series is an upper bound within 1e-100. Bounds the vector Laplace mechanism of unit L1 sensitivity."
  },
  {
   "property": "C41",
   "status": "proved",
   "theorems": [
    "Verif.Props.C41_depth",
    "Verif.Props.C41_mechanism"
   ],
   "note": "Depth bound and its attainment for all n; the mechanism theorem covers several trees, any release order and adaptively chosen inputs."
  },
  {
   "property": "C42",
   "status": "partial",
   "theorems": [
    "Verif.Props.C42_effective_noise_partial",
    "Verif.Props.C42_int_count_ignored",
    "Verif.Props.C42_int_rest_ignored",
    "Verif.Props.C42_nonprivate_hidden_by_int"
   ],
   "note": "proved for float noise multipliers; false for int ones (C42_int_count_ignored, C42_int_rest_ignored, C42_nonprivate_hidden_by_int)"
  },
  {
   "property": "C43",
   "status": "proved",
   "theorems": [
    "Verif.Props.C43_inplace_diff",
    "Verif.Props.C43_forward_diffs"
   ],
   "note": "In-place differencing and the full table of iterated differences, for every function and every n, signs included."
  },
  {
   "property": "C44",
   "status": "partial",
   "theorems": [
    "Verif.Props.C44_gamma_terminates",
    "Verif.Props.C44_gamma_total",
    "Verif.Props.C44_gamma_conservative",
    "Verif.Props.C44_monotone",
    "Verif.Props.C44_total",
    "Verif.Props.C44_poisson_monotone_violated"
   ],
   "note": "finite shapes proved in full: the bisection ends (all shapes and means), conservative and accurate answer, in-place monotonisation equals the simultaneous one; the Poisson branch is not monotone (C44_poisson_monotone_violated)"
  },
  {
   "property": "C45",
   "status": "proved",
   "theorems": [
    "Verif.Props.C45_clip",
    "Verif.Props.C45_clip_empty_raises"
   ],
   "note": "all data sets, dimensions and positive radii; also records that an empty data set raises (C45_clip_empty_raises)"
  },
  {
   "property": "C46",
   "status": "proved",
   "theorems": [
    "Verif.Props.C46_group",
    "Verif.Props.C46_average",
    "Verif.Props.C46_tree_built",
    "Verif.Props.C46_depth",
    "Verif.Props.C46_contents",
    "Verif.Props.C46_prefixes_once",
    "Verif.Props.C46_one_node_per_level",
    "Verif.Props.C46_counted_nodes",
    "Verif.Props.C46_count_draws",
    "Verif.Props.C46_one_leaf",
    "Verif.Props.C46_coreset_succeeds"
   ],
   "note": "all data sets, projection vectors and outcomes of the noise"
  },
  {
   "property": "C47",
   "status": "partial",
   "theorems": [
    "Verif.Props.C47_noise_mismatch",
    "Verif.Props.C47_accounting_violated",
    "Verif.Props.C47_budget_checked",
    "Verif.Props.C47_only_central",
    "Verif.Props.C47_non_private",
    "Verif.Props.C47_coreset_private",
    "Verif.Props.C47_centers_private",
    "Verif.Props.C47_coreset_dp",
    "Verif.Props.C47_empty_violated"
   ],
   "note": "C47_budget_checked: the call proceeds only when the accountant finds the event of one Gaussian sum and max_depth+1 Laplace counts within the budget, and the noise then has exactly these parameters. C47_coreset_private / C47_centers_private / C47_coreset_dp: the coreset and all that is computed from it is as private as one Gaussian sum of sensitivity radius and max_depth+1 counts with discrete Laplace noise. The part 'the noise added is the one accounted for' is false: C47_noise_mismatch and C47_accounting_violated (continuous Laplace is accounted for, discrete Laplace is drawn, and the check passes for parameters that the coreset does not satisfy). C47_empty_violated: the empty data set raises. k-means itself and the conversion of the accountant are not part of these statements."
  },
  {
   "property": "C48",
   "status": "proved",
   "theorems": [
    "Verif.Props.C48_answers",
    "Verif.Props.C48_stops",
    "Verif.Props.C48_succeeds"
   ],
   "note": "All six variants, every number of samples and queries, every outcome of the noise; integer max_answered_queries of any sign."
  },
  {
   "property": "C49",
   "status": "proved",
   "theorems": [
    "Verif.Props.C49_svt1",
    "Verif.Props.C49_svt2",
    "Verif.Props.C49_svt4",
    "Verif.Props.C49_svt6",
    "Verif.Props.C49_svt1_violated",
    "Verif.Props.C49_svt12_sharp",
    "Verif.Props.C49_svt4_sharp"
   ],
   "note": "SVT1 and SVT2: epsilon; SVT4: the documented (1+6c)/4 epsilon; SVT6 (documented as non-private) is (1/2+c) epsilon private. C49_*_sharp: for one positive answer these levels cannot be improved; SVT4 does not meet the configured epsilon. Standard Laplace draws scaled as numpy does, over the reals. C49_svt1_violated shows what the wrong declared sensitivity of the sum query (C54) does."
  },
  {
   "property": "C50",
   "status": "proved",
   "theorems": [
    "Verif.Props.C50_exponential_mechanism",
    "Verif.Props.C50_add_remove",
    "Verif.Props.C50_private",
    "Verif.Props.C50_no_elements"
   ],
   "note": "Gumbel draws are standard Gumbel variables scaled as numpy does; the law of the argmax is computed by integration, not assumed."
  },
  {
   "property": "C51",
   "status": "proved",
   "theorems": [
    "Verif.Props.C51_constant_generator",
    "Verif.Props.C51_report",
    "Verif.Props.C51_complete"
   ],
   "note": "The generator, the mechanism and the tester are arbitrary state-passing functions that may raise; divergence estimates are real numbers (no NaN). With a constant generator the result depends only on the behaviour on the given pair (C51_constant_generator)."
  },
  {
   "property": "C52",
   "status": "partial",
   "theorems": [
    "Verif.Props.C52_parameters",
    "Verif.Props.C52_classification_parameters",
    "Verif.Props.C52_scalar",
    "Verif.Props.C52_classification",
    "Verif.Props.C52_labels_violated",
    "Verif.Props.C52_pipeline_dp_partial",
    "Verif.Props.C52_pipeline_dp_violated"
   ],
   "note": "The scalar and classification generators return neighbouring data sets with the generated contents. Negations: the integer label of the classification problem may be the number of classes (C52_labels_violated); PipelineDpDatasetGenerator removes a row of its table while its mechanism reads privacy ids from the columns (C52_pipeline_dp_violated; the rows themselves are neighbouring, C52_pipeline_dp_partial)."
  },
  {
   "property": "C53",
   "status": "partial",
   "theorems": [
    "Verif.Props.C53_reports_partial",
    "Verif.Props.C53_zero_violated"
   ],
   "note": "Proved for every history of nonzero results; a result of exactly zero is silently not reported (C53_zero_violated)."
  },
  {
   "property": "C54",
   "status": "partial",
   "theorems": [
    "Verif.Props.C54_reveal",
    "Verif.Props.C54_sum_replace",
    "Verif.Props.C54_sum_add_remove_partial",
    "Verif.Props.C54_sum_violated"
   ],
   "note": "The reveal-records queries and the sum query under replacement are right. For adding or removing a record the sum query is right only if 0 is between the clipping bounds; the negation is C54_sum_violated."
  },
  {
   "property": "C55",
   "status": "partial",
   "theorems": [
    "Verif.Props.C55_split_partial",
    "Verif.Props.C55_split_violated",
    "Verif.Props.C55_discrete",
    "Verif.Props.C55_discrete_error",
    "Verif.Props.C55_continuous"
   ],
   "note": "Histogram estimates complete. Splitting: complete for one or more samples; for no samples the documented ValueError is not raised (C55_split_violated)."
  },
  {
   "property": "C56",
   "status": "proved",
   "theorems": [
    "Verif.Props.C56_conversion"
   ],
   "note": "As an equivalence: the guarantee holds exactly if no classifier exceeds delta after conversion."
  },
  {
   "property": "C57",
   "status": "partial",
   "theorems": [
    "Verif.Props.C57_budget_split",
    "Verif.Props.C57_clustering_tree_param",
    "Verif.Props.C57_dp_parameters_partial",
    "Verif.Props.C57_dp_parameters_violated",
    "Verif.Props.C57_privacy_property",
    "Verif.Props.C57_tree_param",
    "Verif.Props.C57_approximate_dp_partial",
    "Verif.Props.C57_pure_dp_partial",
    "Verif.Props.C57_renyi_dp_partial",
    "Verif.Props.C57_training_config_partial",
    "Verif.Props.C57_testers_violated",
    "Verif.Props.C57_laplace",
    "Verif.Props.C57_gaussian",
    "Verif.Props.C57_discrete_laplace",
    "Verif.Props.C57_discrete_gaussian"
   ],
   "note": "Exact for every parameter that is not NaN; NaN is accepted by DifferentialPrivacyParameters and by the tester parameter classes (C57_dp_parameters_violated, C57_testers_violated). Additive noise constructors, PrivacyProperty, PrivacyBudgetSplit and TreeParam are exact."
  },
  {
   "property": "C58",
   "status": "proved",
   "theorems": [
    "Verif.Props.C58_wor_mechanism",
    "Verif.Props.C58_wor_total"
   ],
   "note": "Real orders >= 1 (integer and interpolated), all sample and data set sizes, both code branches (up to and above order 256); also that the code returns a finite value for every real order > 1."
  },
  {
   "property": "C59",
   "status": "partial",
   "theorems": [
    "Verif.Props.C59_rdp_curve_partial",
    "Verif.Props.C59_get_epsilon_partial",
    "Verif.Props.C59_get_delta_partial"
   ],
   "note": "Gaussian, Laplace, randomized response, tree aggregation, Poisson-sampled and sampled-without-replacement compositions of Gaussians (several queries on one sample), RepeatAndSelect (also nested), non-private events, any nesting and counts. Missing: that the truncated series for fractional orders of Poisson sampling is an upper bound is a hypothesis (FracBound); C62 proves it up to a tiny increase of the series and states the result for the code itself."
  },
  {
   "property": "C60",
   "status": "partial",
   "theorems": [
    "Verif.Props.C60_laplace_partial",
    "Verif.Props.C60_gaussian_partial",
    "Verif.Props.C60_discrete_laplace",
    "Verif.Props.C60_discrete_gaussian"
   ],
   "note": "Complete for the two discrete mechanisms; for the continuous ones with q<1 under the same isclose condition as C32."
  },
  {
   "property": "C61",
   "status": "partial",
   "theorems": [
    "Verif.Props.C61_get_delta_partial",
    "Verif.Props.C61_get_delta_no_slack_partial",
    "Verif.Props.C61_get_epsilon_partial",
    "Verif.Props.C61_non_private",
    "Verif.Props.C61_mixture_accepted"
   ],
   "note": "Proved for every accepted history of Gaussian, Laplace, Poisson-sampled Gaussian and Laplace, mixture-of-Gaussians and (count one) randomized response events, with the library's own modelled PLD operations. The guarantee has an additional error per application for mixtures of Gaussians (mixError, C70) and for sampling probabilities q for which a grid point is math.isclose to log(1-q) (1e-9 |log(1-q)|, C31); otherwise there is none (C61_get_delta_no_slack_partial). Missing: randomized response with a count above one (the code ignores the count, C07_pld_randomized_response_count_ignored), infinite noise, mixtures whose probabilities do not add up to exactly one or with too coarse a discretization (DiscFine), more than 10^21 applications. norm.ppf is assumed to invert the normal distribution function, next_fast_len not to shrink."
  },
  {
   "property": "C62",
   "status": "partial",
   "theorems": [
    "Verif.Props.C62_series_bound_partial",
    "Verif.Props.C62_series_accuracy",
    "Verif.Props.C62_slack_small",
    "Verif.Props.C62_fracBound_partial",
    "Verif.Props.C62_series_below_violated",
    "Verif.Props.C62_rdp_curve_partial",
    "Verif.Props.C62_get_epsilon_partial",
    "Verif.Props.C62_get_delta_partial",
    "Verif.Props.C62_order_slack_small",
    "Verif.Props.C62_all_events_curve_partial",
    "Verif.Props.C62_all_events_epsilon_partial",
    "Verif.Props.C62_all_events_delta_partial",
    "Verif.Props.C62_series_accuracy_sampling",
    "Verif.Props.C62_reports_nothing_violated"
   ],
   "note": "C62_series_bound_partial: the value of the series plus log(1+2^(ceil(alpha)+1) e^-30) bounds the divergence, at most 4e-10 for orders up to 11 (C62_slack_small); without this increase the claim is false (C62_series_below_violated). C62_series_accuracy: how far the value can be above. C62_series_accuracy_sampling: a sharper bound, a power of the sampling probability. C62_fracBound_partial instantiates the end-to-end theorems of C59. C62_rdp_curve_partial, C62_get_epsilon_partial, C62_get_delta_partial: the accountant with the code of the library and no hypothesis on numeric functions, up to 5e-11 for every Poisson-sampled event with the default orders (C62_order_slack_small). C62_all_events_curve_partial, C62_all_events_epsilon_partial, C62_all_events_delta_partial: the same with RepeatAndSelect, nested to any depth, so for all events the accountant supports; what repetition and selection make of the error is given by hiddenBy. Missing: the branch of get_epsilon that returns 0 costs sqrt(delta^2+eta). The allowance cannot be dropped: for all privacy parameters there are histories with reported epsilon and delta 0 that do not satisfy them (C62_reports_nothing_violated)."
  },
  {
   "property": "C63",
   "status": "proved",
   "theorems": [
    "Verif.Props.C63_svt5",
    "Verif.Props.C63_svt3",
    "Verif.Props.C63_svt3_not_private",
    "Verif.Props.C63_svt6"
   ],
   "note": "SVT5, SVT3 and SVT6; SVT3 is not private for any epsilon, the loss of SVT6 reaches 3/2 of the configured epsilon."
  },
  {
   "property": "C64",
   "status": "proved",
   "theorems": [
    "Verif.Props.C64_discrete",
    "Verif.Props.C64_continuous",
    "Verif.Props.C64_reject",
    "Verif.Props.C64_reject_discrete",
    "Verif.Props.C64_detects"
   ],
   "note": "Both error bounds, discrete and continuous; McDiarmid's inequality is proved here. The verdict uses >=, so this is slightly stronger than the documentation. C64_detects: the tester rejects all-zero against all-one samples for all large sample sizes."
  },
  {
   "property": "C65",
   "status": "partial",
   "theorems": [
    "Verif.Props.C65_sound_partial",
    "Verif.Props.C65_reject_partial",
    "Verif.Props.C65_sizes_violated",
    "Verif.Props.C65_rounding_violated"
   ],
   "note": "Equal numbers of samples, any training (measurable in the training samples): the bound exceeds delta by more than the rounding of the label proportion, less than (1+e^eps)/N, with probability at most failure_probability; exact when nothing is rounded. The full claim is false: C65_sizes_violated (different numbers of samples), C65_rounding_violated (two samples)."
  },
  {
   "property": "C66",
   "status": "partial",
   "theorems": [
    "Verif.Props.C66_repeat_select_sound",
    "Verif.Props.C66_repeat_select_accuracy",
    "Verif.Props.C66_repeat_select_poisson",
    "Verif.Props.C66_parameter_unique"
   ],
   "note": "the best of a random number of runs: exact for the geometric, Poisson, and (mean not close to one) all truncated negative binomial distributions; for means close to one up to 2e-97*(1+shape), the truncated Taylor expansions"
  },
  {
   "property": "C67",
   "status": "partial",
   "theorems": [
    "Verif.Props.C67_init",
    "Verif.Props.C67_returns",
    "Verif.Props.C67_discrepancy",
    "Verif.Props.C67_sound_partial",
    "Verif.Props.C67_small_partial",
    "Verif.Props.C67_power",
    "Verif.Props.C67_bandwidth_violated"
   ],
   "note": "Bandwidth >= 0, vectors as samples. The probability is at most fp + 2 (fp/2)^(3n/(3n+7 log(2/fp))), for large n close to 2 fp, and at most fp if n <= 1 + 10 log(2/fp): the code takes the larger of a Hoeffding and an empirical Bernstein bound without splitting the failure probability. C67_power: the bound is not trivially small. Negative bandwidths are accepted and then the claim is false (C67_bandwidth_violated)."
  },
  {
   "property": "C69",
   "status": "partial",
   "theorems": [
    "Verif.Props.C69_laplace",
    "Verif.Props.C69_laplace_returns",
    "Verif.Props.C69_discrete_laplace",
    "Verif.Props.C69_discrete_laplace_returns",
    "Verif.Props.C69_gaussian",
    "Verif.Props.C69_gaussian_smallest",
    "Verif.Props.C69_gaussian_finds",
    "Verif.Props.C69_discrete_gaussian",
    "Verif.Props.C69_discrete_gaussian_tight",
    "Verif.Props.C69_discrete_gaussian_raises",
    "Verif.Props.C69_discrete_gaussian_exists",
    "Verif.Props.C69_discrete_gaussian_finds_partial",
    "Verif.Props.C69_discrete_gaussian_violated"
   ],
   "note": "Laplace, discrete Laplace: exact parameter, private, and no smaller noise is. Gaussian: private, smallest up to 1e-7, the search always finds. Discrete Gaussian: private and tight; the search finds for sensitivity 1 and 2; for larger sensitivities it can raise ValueError although suitable noise exists (C69_discrete_gaussian_violated)."
  },
  {
   "property": "C70",
   "status": "partial",
   "theorems": [
    "Verif.Props.C70_accepts",
    "Verif.Props.C70_loss",
    "Verif.Props.C70_inverse_total",
    "Verif.Props.C70_inverse",
    "Verif.Props.C70_never_above",
    "Verif.Props.C70_delta",
    "Verif.Props.C70_delta_single",
    "Verif.Props.C70_raises",
    "Verif.Props.C70_delta_violated",
    "Verif.Props.C70_pld",
    "Verif.Props.C70_disc",
    "Verif.Props.C70_pld_exists",
    "Verif.Props.C70_single_gaussian",
    "Verif.Props.C70_int_never_above",
    "Verif.Props.C70_ints_never_above",
    "Verif.Props.C70_int_epsilon_violated"
   ],
   "note": "The distribution of from_mixture_gaussian_mechanism (connect-the-dots, pessimistic) bounds both directions up to mixError, also for vector queries; hypotheses: probabilities add up to exactly one, and a condition on the discretization if sensitivity zero is possible (C70_disc gives the usual case). get_delta_for_epsilon is never above the exact delta; it is within mixError for one positive sensitivity and for arrays that reach far enough, but for a single epsilon and several sensitivities it can be far too small (C70_delta_violated). An integer epsilon is never above the exact delta either (C70_int_never_above, C70_ints_never_above for arrays), but truncated cut-offs can make it 0 instead of almost 1 (C70_int_epsilon_violated). The helpers for one Gaussian are the log density ratio and its inverse (C70_single_gaussian). Privacy buckets and the optimistic variant: C75."
  },
  {
   "property": "C68",
   "status": "proved",
   "theorems": [
    "Verif.Props.C68_init",
    "Verif.Props.C68_sound",
    "Verif.Props.C68_lower_bound",
    "Verif.Props.C68_sound_pure",
    "Verif.Props.C68_power",
    "Verif.Props.C68_alpha_violated"
   ],
   "note": "C68_sound and C68_lower_bound for Renyi privacy, C68_sound_pure for pure privacy with an order above one, for every measurable training procedure; C68_power: the returned value is not trivially small. The order is not checked when testing pure privacy and then the claim is false for negative orders (C68_alpha_violated)."
  },
  {
   "property": "C71",
   "status": "partial",
   "theorems": [
    "Verif.Props.C71_add_remove_partial",
    "Verif.Props.C71_replace_partial",
    "Verif.Props.C71_negative_count_violated",
    "Verif.Props.C71_large_epsilon_violated",
    "Verif.Props.C71_exact_counts",
    "Verif.Props.C71_call",
    "Verif.Props.C71_clipped"
   ],
   "note": "C71_add_remove_partial (range containing zero) and C71_replace_partial: the configured epsilon and delta hold up to the probability exp(-epsilon n/2)/2 of a noisy count that is not positive; the Gaussian version for epsilon <= 2. The full claim is false: C71_negative_count_violated, C71_large_epsilon_violated. C71_exact_counts: with exact counts there is no guarantee at all, as documented. One sample at a time."
  },
  {
   "property": "C72",
   "status": "proved",
   "theorems": [
    "Verif.Props.C72_labels",
    "Verif.Props.C72_loss",
    "Verif.Props.C72_given",
    "Verif.Props.C72_raises"
   ],
   "note": "Centers of the dimension of the data (otherwise ValueError on every path, not modelled)."
  },
  {
   "property": "C73",
   "status": "partial",
   "theorems": [
    "Verif.Props.C73_metrics",
    "Verif.Props.C73_fractions",
    "Verif.Props.C73_raises",
    "Verif.Props.C73_negative_violated"
   ],
   "note": "Complete for non-negative true labels; a fraction without any pair is NaN. Negative true labels are silently left out (C73_negative_violated)."
  },
  {
   "property": "C74",
   "status": "partial",
   "theorems": [
    "Verif.Props.C74_rdp_calibrated_partial",
    "Verif.Props.C74_rdp_library_calibrated_partial",
    "Verif.Props.C74_pld_calibrated_partial"
   ],
   "note": "Proved for a new RdpAccountant and a new PLDAccountant and any family of events they cover, with the restrictions of C59/C62 and C61 (for the PLD accountant with the error of C61 for mixtures and near-limit grid points; for the Renyi accountant either FracBound is assumed or the error of C62 is stated). Calibration that raises is not constrained."
  },
  {
   "property": "C75",
   "status": "partial",
   "theorems": [
    "Verif.Props.C75_default",
    "Verif.Props.C75_buckets_add",
    "Verif.Props.C75_buckets_partial",
    "Verif.Props.C75_buckets_single",
    "Verif.Props.C75_optimistic_partial",
    "Verif.Props.C75_buckets_exists",
    "Verif.Props.C75_buckets_violated",
    "Verif.Props.C75_optimistic_violated",
    "Verif.Props.C75_buckets_raises"
   ],
   "note": "Pessimistic buckets: upper bound in both directions for at most two positive sensitivities (C75_buckets_partial, tolerance S*1e-6/sigma^2 in epsilon; none for one positive sensitivity, C75_buckets_single), and in direction ADD for any sensitivities (C75_buckets_add). Optimistic: lower bound for one positive sensitivity up to the tolerance. The full claims are false: C75_buckets_violated (three sensitivities, REMOVE), C75_optimistic_violated (without the tolerance), C75_buckets_raises (ValueError for admissible arguments). Hypothesis: probabilities add up to exactly one."
  },
  {
   "property": "C76",
   "status": "partial",
   "theorems": [
    "Verif.Props.C76_constant_generator_partial",
    "Verif.Props.C76_false_alarm_partial",
    "Verif.Props.C76_histogram_discrete_partial",
    "Verif.Props.C76_histogram_continuous_partial",
    "Verif.Props.C76_hockey_stick_partial",
    "Verif.Props.C76_trials_violated",
    "Verif.Props.C76_mmd_partial",
    "Verif.Props.C76_renyi_partial"
   ],
   "note": "Proved with the factor 2*max_num_trials (each of the two directions of each trial uses the full failure probability): for any tester that keeps its failure probability on one pair of samples (C76_false_alarm_partial; there measurability of the event is a hypothesis), for the histogram tester (discrete, continuous with any measurable post-processing) and for the hockey-stick tester at sample sizes without rounding; in these the event is proved measurable. Also for the MMD tester (C76_mmd_partial, with the failure probability that C67 proves for it) and the R\u00e9nyi tester with finite estimates (C76_renyi_partial), for generators that make countably many measurable choices. For a constant generator only the given pair matters (C76_constant_generator_partial). Without the factor the claim is false: C76_trials_violated, a mechanism that ignores its data is accused with probability as close to one as one likes."
  },
  {
   "property": "C77",
   "status": "proved",
   "theorems": [
    "Verif.Props.C77_scalar",
    "Verif.Props.C77_chebyshev",
    "Verif.Props.C77_unknown"
   ],
   "note": "Samples are real numbers; in floating point tanh is constant for large arguments. eval_chebyt is modelled by its recurrence."
  },
  {
   "property": "C78",
   "status": "partial",
   "theorems": [
    "Verif.Props.C78_compose",
    "Verif.Props.C78_compose_pld",
    "Verif.Props.C78_self_compose",
    "Verif.Props.C78_self_compose_more",
    "Verif.Props.C78_get_delta_partial",
    "Verif.Props.C78_get_epsilon_partial",
    "Verif.Props.C78_optimistic_violated"
   ],
   "note": "PLD level: proved for pessimistic PLDs of total mass one whose deltas are valid for some pair of distributions, with any truncation; false for optimistic ones (C78_optimistic_violated). Accountant: proved up to 2e-15 in delta for each elementary event (repetitions not counted), because the truncation in self_compose adds up to 1e-15 to the mass at infinity without removing it elsewhere, and for up to 10^15 elementary events. Missing: mixtures of Gaussians and sampling probabilities with a grid point math.isclose to log(1-q), whose PLDs are valid only up to an error (C70, C31), and whether the slack is needed."
  },
  {
   "property": "C79",
   "status": "partial",
   "theorems": [
    "Verif.Props.C79_series_nonneg",
    "Verif.Props.C79_rdp_noticeable",
    "Verif.Props.C79_get_epsilon_noticeable",
    "Verif.Props.C79_get_delta_noticeable",
    "Verif.Props.C79_rdp",
    "Verif.Props.C79_compute_delta",
    "Verif.Props.C79_get_epsilon",
    "Verif.Props.C79_get_delta",
    "Verif.Props.C79_rdp_library_partial",
    "Verif.Props.C79_raise_violated",
    "Verif.Props.C79_negative_violated"
   ],
   "note": "Proved for all histories in which no call raises, and for raising calls too if no RepeatAndSelect event is composed: values (C79_rdp), get_epsilon, get_delta, compute_delta; integer orders need no assumption, for fractional orders the series _compute_log_a_frac is assumed not to return negative values. With the library's own series the values are monotone up to orderSlack per Poisson-sampled event (C79_rdp_library_partial). False for a raising call with RepeatAndSelect: C79_raise_violated (get_epsilon falls from infinity to 0). Without slack or assumption (C79_series_nonneg, C79_rdp_noticeable, C79_get_epsilon_noticeable, C79_get_delta_noticeable) if every Poisson sample has a probability of at least 2e-5 and 2e-5 times the noise multiplier, and orders are integers or between 1.1 and 11. Missing: fractional orders with smaller samples without slack. False in general with the library's series: its values can be negative, and enough steps with such a value bring any finite value below zero, whereupon get_epsilon and get_delta return 0 (C79_negative_violated)."
  },
  {
   "property": "C80",
   "status": "partial",
   "theorems": [
    "Verif.Props.C80_laplace_pld",
    "Verif.Props.C80_gaussian_pld",
    "Verif.Props.C80_discrete_laplace_pld",
    "Verif.Props.C80_discrete_gaussian_pld_partial",
    "Verif.Props.C80_laplace",
    "Verif.Props.C80_gaussian",
    "Verif.Props.C80_discrete_laplace",
    "Verif.Props.C80_discrete_gaussian_partial",
    "Verif.Props.C80_discrete_gaussian_violated",
    "Verif.Props.C80_discrete_gaussian_default_violated"
   ],
   "note": "Proved in full for Laplace and Gaussian (in the ratio of noise to sensitivity; also for the deltas of their PLDs, C80_laplace_pld, C80_gaussian_pld) and discrete Laplace noise (PLD: C80_discrete_laplace_pld); for the discrete Gaussian mechanism proved for the sensitivity and the sampling probability (PLD: C80_discrete_gaussian_pld_partial). False for its noise: with truncation_bound=1 and sensitivity 1 a larger sigma gives a strictly larger delta at every epsilon >= 1/(2 sigma^2) (C80_discrete_gaussian_violated). The same for every truncation bound, in particular the default one: C80_discrete_gaussian_default_violated. Missing: how much larger than before the delta can get with more noise and the default truncation."
  },
  {
   "property": "C81",
   "status": "partial",
   "theorems": [
    "Verif.Props.C81_rdp_library_partial",
    "Verif.Props.C81_get_epsilon_library_partial",
    "Verif.Props.C81_dp_sgd_library_partial",
    "Verif.Props.C81_rdp_partial",
    "Verif.Props.C81_get_epsilon_partial",
    "Verif.Props.C81_get_delta_partial",
    "Verif.Props.C81_dp_sgd_partial",
    "Verif.Props.C81_infinite_noise_violated",
    "Verif.Props.C81_sample_size",
    "Verif.Props.C81_whole_sample_violated"
   ],
   "note": "Proved for all integer orders with the library's own sums (C81_rdp_partial, C81_get_epsilon_partial, C81_get_delta_partial, C81_dp_sgd_partial), including several Gaussian queries on one sample, and for fractional orders if the moments of the Poisson-sampled Gaussian are computed exactly. For samples drawn without replacement that are not the whole data set it is proved at all orders above 1 with the library's own formulas (C81_sample_size). With the truncated series of _compute_log_a_frac itself, finite values and positive epsilons at fractional orders above 1 are monotone up to the truncation errors of the Poisson-sampled events (C81_rdp_library_partial, C81_get_epsilon_library_partial, C81_dp_sgd_library_partial). Missing: exact monotonicity of the truncated series, and RepeatAndSelect and diverging series with it. False for infinite noise on a Poisson sample at a fractional order, where the library reports inf (C81_infinite_noise_violated), and for sampling without replacement at the whole data set, which reports less than slightly smaller samples (C81_whole_sample_violated)."
  },
  {
   "property": "C82",
   "status": "partial",
   "theorems": [
    "Verif.Props.C82_pld_accepted_partial",
    "Verif.Props.C82_pld_supports",
    "Verif.Props.C82_pld_sound_partial",
    "Verif.Props.C82_pld_rr_uniform_violated",
    "Verif.Props.C82_pld_zero_count_violated",
    "Verif.Props.C82_pld_gaussian_infinite_violated",
    "Verif.Props.C82_pld_laplace_nan",
    "Verif.Props.C82_pld_laplace_infinite_violated",
    "Verif.Props.C82_pld_isclose_violated",
    "Verif.Props.C82_rdp_accepted_partial",
    "Verif.Props.C82_rdp_supports",
    "Verif.Props.C82_rdp_laplace_zero_violated",
    "Verif.Props.C82_rdp_wor_zero_violated",
    "Verif.Props.C82_rdp_wor_infinite_violated"
   ],
   "note": "Proved for both accountants, for all nestings and counts (C82_pld_accepted_partial up to 10^14 applications, C82_rdp_accepted_partial, C82_pld_supports, C82_rdp_supports). Missing: PLD with a grid point isclose to log(1-q), with a too coarse discretization for mixtures; RDP samples of compositions with int noise. False for the PLD of randomized response with the documented noise parameter 1 (C82_pld_rr_uniform_violated), for parts repeated zero times (C82_pld_zero_count_violated), for RDP of Laplace or sampled-without-replacement queries without noise (C82_rdp_laplace_zero_violated, C82_rdp_wor_zero_violated) or, for the latter, with infinite noise (C82_rdp_wor_infinite_violated), for the PLD of Gaussian or Laplace noise with an infinite multiplier (C82_pld_gaussian_infinite_violated, C82_pld_laplace_infinite_violated; the NaN computation is C82_pld_laplace_nan), and for sampled Laplace noise when a grid point is taken for log(1-q) and the deltas increase (C82_pld_isclose_violated): supports returns True, compose records the event in the ledger and raises."
  },
  {
   "property": "C83",
   "status": "partial",
   "theorems": [
    "Verif.Props.C83_two_pmfs_pessimistic",
    "Verif.Props.C83_two_pmfs_optimistic",
    "Verif.Props.C83_privacy_parameters",
    "Verif.Props.C83_smaller_interval_violated",
    "Verif.Props.C83_laplace_exact",
    "Verif.Props.C83_laplace_refine",
    "Verif.Props.C83_laplace_accuracy",
    "Verif.Props.C83_gaussian_accuracy",
    "Verif.Props.C83_gaussian_refine",
    "Verif.Props.C83_discrete_laplace_exact",
    "Verif.Props.C83_discrete_laplace_refine",
    "Verif.Props.C83_discrete_laplace_accuracy",
    "Verif.Props.C83_discrete_gaussian_exact",
    "Verif.Props.C83_discrete_gaussian_refine",
    "Verif.Props.C83_discrete_gaussian_accuracy",
    "Verif.Props.C83_discrete_laplace_buckets",
    "Verif.Props.C83_discrete_gaussian_buckets",
    "Verif.Props.C83_laplace_buckets",
    "Verif.Props.C83_gaussian_buckets",
    "Verif.Props.C83_compose",
    "Verif.Props.C83_self_compose"
   ],
   "note": "Proved when the smaller interval is a whole fraction of the larger one: two pmfs (both roundings), privacy parameters, Laplace, discrete Laplace, discrete Gaussian and (up to half of the truncated mass) Gaussian noise with sampling, connect-the-dots; the exact polygon and the error bound delta(eps) <= exact(eps - interval); kept by compose and self_compose up to the truncated mass. False in general: for a mechanism with privacy parameters (eps, delta) the interval eps gives the exact delta and every smaller interval above eps/2 a larger one (C83_smaller_interval_violated). With the privacy buckets algorithm dividing the interval never raises a pessimistic and never lowers an optimistic delta, for the four noises (Gaussian without any slack). Missing: mixtures of Gaussians."
  },
  {
   "property": "C84",
   "status": "partial",
   "theorems": [
    "Verif.Props.C84_get_delta_partial",
    "Verif.Props.C84_get_epsilon_partial"
   ],
   "note": "Proved for every accepted history of Gaussian, Laplace, Poisson-sampled Gaussian and Laplace, and (count one) randomized response events with noise, with the library's own modelled PLD operations: mechanisms described by the events are exhibited that need the reported delta at eps - N * interval, up to 4e-15 N, and the epsilon reported for delta is at most the exact one for a delta smaller by 4e-15 N, plus N * interval. Missing: zero noise (reported as non-private, C61_non_private), infinite noise, mixtures of Gaussians, sampling probability zero or with a grid point math.isclose to log(1-q), randomized response with one bucket, more than 10^14 applications."
  },
  {
   "property": "C85",
   "status": "partial",
   "theorems": [
    "Verif.Props.C85_get_delta_partial",
    "Verif.Props.C85_get_epsilon_partial"
   ],
   "note": "Proved for every history accepted by both accountants of Gaussian, Laplace, Poisson-sampled Gaussian and (count one) randomized response events with noise, with the modelled library functions of both (no assumption on fractional orders; their early stop costs eta, C62, nothing at integer orders): delta_PLD(eps + eta + N * interval) <= sqrt(delta_RDP(eps)^2 + eta) + 4e-15 N, and likewise for get_epsilon. Missing: restrictions of C84."
  },
  {
   "property": "C86",
   "status": "partial",
   "theorems": [
    "Verif.Props.C86_get_delta_partial",
    "Verif.Props.C86_get_epsilon_partial"
   ],
   "note": "Proved for every two accepted histories of Gaussian, Laplace, Poisson-sampled Gaussian and Laplace, and (count one) randomized response events whose applications can be matched so that each one of the first history has more noise or less sampling than its match (the second may contain more events, and the accountants may have different intervals): delta(eps + N * interval) <= delta'(eps) + 4e-15 N, and likewise for get_epsilon. Missing: restrictions of C84. Without the discretization terms it is not claimed, since the roundings of the two PLDs do not compare."
  },
  {
   "property": "C87",
   "status": "partial",
   "theorems": [
    "Verif.Props.C87_pld_calibrated_tight_partial",
    "Verif.Props.C87_pld_noise_multiplier_partial",
    "Verif.Props.C87_pld_steps_partial"
   ],
   "note": "Proved for every family of events of the kinds of C84 and every answer of the root finder with BrentqNear (a converged root is within the tolerance of a value with nonnegative gap, as in C26): any event that is harsher (C86) than those of all parameter values within the tolerance (plus one for discrete parameters) of the result has mechanisms that miss the target by the stated amounts. Instances for the noise multiplier and for the number of steps of Poisson-sampled Gaussian noise. Missing: restrictions of C84."
  },
  {
   "property": "C88",
   "status": "partial",
   "theorems": [
    "Verif.Props.C88_near_tight_partial",
    "Verif.Props.C88_sample_at_most_whole",
    "Verif.Props.C88_without_replacement_violated",
    "Verif.Props.C88_select_violated",
    "Verif.Props.C88_rdp_tight_partial",
    "Verif.Props.C88_fewer_mechanisms_partial",
    "Verif.Props.C88_empty_tree_violated"
   ],
   "note": "Proved for every accepted history of Gaussian (any noise), Laplace (orders from 1.1), Poisson-sampled nestings of Gaussians with positive noise (integer orders), tree aggregation, randomized response and NonPrivate events: the value is the maximum over all adaptive sequences of mechanisms. Violated for a tree without noise and without steps, which is reported infinite although it releases nothing. C88_near_tight_partial: with the series of the library, at every order above 1, also Laplace below order 1.1 and Poisson samples at fractional orders, the value exceeds the divergence of some adaptive sequence by at most an explicit excess. For sampling without replacement and RepeatAndSelect the claim is false: C88_without_replacement_violated (99 of 100 records: more than the whole data set could lose, C88_sample_at_most_whole), C88_select_violated (the best of several runs of NoOp costs log 2 at order 2)."
  },
  {
   "property": "C89",
   "status": "partial",
   "theorems": [
    "Verif.Props.C89_dataset",
    "Verif.Props.C89_radius",
    "Verif.Props.C89_ratio_below_one",
    "Verif.Props.C89_scale_violated"
   ],
   "note": "The data set is described completely (C89_dataset, C89_radius, C89_ratio_below_one); the claim that cluster_ratio is the ratio of distances between and within clusters for every radius is false (C89_scale_violated)."
  },
  {
   "property": "C90",
   "status": "proved",
   "theorems": [
    "Verif.Props.C90_uniform",
    "Verif.Props.C90_share"
   ],
   "note": "Joint distribution of the points, for real draws; the rounding that may trip the assertion is not modelled."
  },
  {
   "property": "C91",
   "status": "partial",
   "theorems": [
    "Verif.Props.C91_add_remove",
    "Verif.Props.C91_replace",
    "Verif.Props.C91_replace_violated",
    "Verif.Props.C91_no_noise"
   ],
   "note": "Exact for adding or removing a record; false by a factor of four for replacing one (C91_replace, C91_replace_violated)."
  },
  {
   "property": "C92",
   "status": "partial",
   "theorems": [
    "Verif.Props.C92_samples",
    "Verif.Props.C92_sample_private",
    "Verif.Props.C92_returns_iff",
    "Verif.Props.C92_ragged_violated",
    "Verif.Props.C92_audit_violated"
   ],
   "note": "Contents and privacy of the samples hold for every engine (C92_samples, C92_sample_private). The call raises ValueError exactly when two runs return different numbers of metrics (C92_returns_iff), which private partition selection makes possible (C92_ragged_violated). With PipelineDpDatasetGenerator an audit finds fault with engines that keep their budget, because generator and mechanism disagree on the privacy id (C92_audit_violated). PipelineDP itself is an arbitrary function."
  },
  {
   "property": "C93",
   "status": "proved",
   "theorems": [
    "Verif.Props.C93_default_tree_param"
   ],
   "note": "standard deviation and sensitivity are finite reals; arithmetic is exact"
  }
 ]
}