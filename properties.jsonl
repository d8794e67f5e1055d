{"id": "C01", "title": "DpEventBuilder.build denotes exactly the composed history", "statement": "After any sequence of compose(event,count) calls on a DpEventBuilder, the event returned by build(), read as a list of elementary events (NoOp = nothing, SelfComposed(e,n) = n copies of e, Composed = concatenation), is exactly the concatenation, in call order, of count copies of each accepted event.", "quantifier": "all finite sequences of compose calls with arbitrary (nested) events and integer counts", "why_tests_cant": "The builder merges neighbours, unwraps SelfComposed and drops NoOp; a unit test sees a few short histories, while a merge or multiplicity error could depend on any nesting and any length.", "anchors": ["python/dp_accounting/dp_accounting/dp_event_builder.py:DpEventBuilder.compose", "python/dp_accounting/dp_accounting/dp_event_builder.py:DpEventBuilder.build"]}
{"id": "C02", "title": "DpEventBuilder normal form, idempotent build and atomic rejection", "statement": "build() always returns NoOp, a single entry or a Composed of at least two entries, in which no entry is NoOp, no two neighbouring entries carry the same event and repeated entries are SelfComposed with count >= 2; calling build twice returns the same event; a compose call that raises leaves the builder exactly as it was; build after any interleaving of build/compose calls equals build on a fresh builder fed the same accepted calls.", "quantifier": "all interleavings of compose (accepted or rejected) and build", "why_tests_cant": "Cache staleness and partial updates only show on particular interleavings.", "anchors": ["python/dp_accounting/dp_accounting/dp_event_builder.py:DpEventBuilder"]}
{"id": "C03", "title": "DpEvent named-tuple serialisation round-trips", "statement": "from_named_tuple(event.to_named_tuple()) == event for every event expressible with the classes of dp_event, including arbitrarily nested events and events inside lists.", "quantifier": "all events of arbitrary nesting", "why_tests_cant": "The conversion is recursive over the event tree; tests cover a fixed set of small trees.", "anchors": ["python/dp_accounting/dp_accounting/dp_event.py:DpEvent.to_named_tuple", "python/dp_accounting/dp_accounting/dp_event.py:DpEvent.from_named_tuple"]}
{"id": "C04", "title": "The ledger is exactly the history of accepted events", "statement": "For any accountant and any history of compose calls, the ledger, expanded to elementary events, is the concatenation of count copies of exactly those events whose compose call got past the support check, in order.", "quantifier": "all accountants satisfying the _maybe_compose contract, all histories", "why_tests_cant": "Depends on arbitrary histories mixing accepted and rejected events.", "anchors": ["python/dp_accounting/dp_accounting/privacy_accountant.py:PrivacyAccountant.compose", "python/dp_accounting/dp_accounting/privacy_accountant.py:PrivacyAccountant.ledger"]}
{"id": "C05", "title": "supports() is exact and side-effect free, unsupported events change nothing", "statement": "supports(e) returns True iff compose(e) does not raise UnsupportedEventError; supports(e) never changes the ledger or the accounting state; a compose that raises UnsupportedEventError leaves ledger and accounting state unchanged. For the RDP and PLD accountants.", "quantifier": "all events (any nesting), all accountant states, all neighbouring relations", "why_tests_cant": "Requires agreement of two recursive traversals (dry run and real run) on every event tree.", "anchors": ["python/dp_accounting/dp_accounting/privacy_accountant.py:PrivacyAccountant.supports", "python/dp_accounting/dp_accounting/rdp/rdp_privacy_accountant.py:RdpAccountant._maybe_compose", "python/dp_accounting/dp_accounting/pld/pld_privacy_accountant.py:PLDAccountant._maybe_compose"]}
{"id": "C06", "title": "An exception in compose never loses already accounted privacy loss", "statement": "If compose raises any exception, the accountant afterwards reports an epsilon at least as large as it would have before the call.", "quantifier": "all states, all events, every point at which an exception can be raised", "why_tests_cant": "Exceptions can be raised at any depth of the event tree; tests do not explore crash points.", "anchors": ["python/dp_accounting/dp_accounting/rdp/rdp_privacy_accountant.py:RdpAccountant._maybe_compose (RepeatAndSelectDpEvent)", "python/dp_accounting/dp_accounting/privacy_accountant.py:PrivacyAccountant.compose"]}
{"id": "C07", "title": "SelfComposed(e,n) is accounted like n copies of e", "statement": "Composing SelfComposedDpEvent(e,n), composing e with count=n, composing e n times, and composing Composed([e]*n) give the same accounting state.", "quantifier": "all events e, all n >= 1, all states, RDP and PLD accountants", "why_tests_cant": "Must hold for every event class and every count.", "anchors": ["python/dp_accounting/dp_accounting/dp_event.py:SelfComposedDpEvent", "python/dp_accounting/dp_accounting/rdp/rdp_privacy_accountant.py:RdpAccountant._maybe_compose", "python/dp_accounting/dp_accounting/pld/pld_privacy_accountant.py:PLDAccountant._maybe_compose"]}
{"id": "C08", "title": "RDP accounting is independent of the order of composition", "statement": "Any permutation of the composed events yields the same RDP curve, hence the same epsilon and delta.", "quantifier": "all lists of supported events and counts, all permutations", "why_tests_cant": "Factorially many orders.", "anchors": ["python/dp_accounting/dp_accounting/rdp/rdp_privacy_accountant.py:RdpAccountant"]}
{"id": "C09", "title": "NonPrivate is absorbing", "statement": "Once a NonPrivateDpEvent has been composed (at any nesting inside Composed/SelfComposed, or inside a sampling event), every later get_epsilon(delta) for delta<1 returns infinity and get_delta returns 1, whatever is composed before or after.", "quantifier": "all histories containing a NonPrivateDpEvent, all targets", "why_tests_cant": "Quantifies over all later histories.", "anchors": ["python/dp_accounting/dp_accounting/pld/pld_privacy_accountant.py:PLDAccountant", "python/dp_accounting/dp_accounting/rdp/rdp_privacy_accountant.py:RdpAccountant"]}
{"id": "C10", "title": "NoOp is neutral and RDP accounting is monotone and additive", "statement": "Composing NoOp leaves the accounting state unchanged; composing any supported event never decreases any RDP value, and for events not containing NonPrivate adds exactly count times the event's own RDP curve; consequently get_epsilon and get_delta never decrease.", "quantifier": "all states, all supported events, all orders", "why_tests_cant": "Quantifies over all histories.", "anchors": ["python/dp_accounting/dp_accounting/rdp/rdp_privacy_accountant.py:RdpAccountant._maybe_compose", "python/dp_accounting/dp_accounting/rdp/rdp_privacy_accountant.py:compute_epsilon", "python/dp_accounting/dp_accounting/rdp/rdp_privacy_accountant.py:compute_delta"]}
{"id": "C11", "title": "Hockey-stick delta of a PLD is computed exactly, by every code path", "statement": "get_delta_for_epsilon(eps) on the dense, sparse, scalar and vectorised paths returns infinity_mass + sum over losses l > eps of (1 - exp(eps - l)) * p(l); it is non-increasing in eps, at least infinity_mass and at most the total mass.", "quantifier": "all PMFs (any size, any losses), all epsilons, all sorted epsilon vectors", "why_tests_cant": "The vectorised path is a two-pointer sweep whose correctness must hold for all relative orders of losses and epsilons.", "anchors": ["python/dp_accounting/dp_accounting/pld/pld_pmf.py:_get_delta_for_epsilon", "python/dp_accounting/dp_accounting/pld/pld_pmf.py:_get_delta_for_epsilon_vectorized"]}
{"id": "C12", "title": "get_epsilon_for_delta returns the smallest valid epsilon", "statement": "get_epsilon_for_delta(delta) is infinite iff infinity_mass > delta; otherwise it returns an eps >= 0 with get_delta_for_epsilon(eps) <= delta, and no smaller non-negative eps has that property.", "quantifier": "all PMFs with non-negative masses, all delta", "why_tests_cant": "Early-exit sweep over sorted losses; extremal inputs (zero masses, infinity mass equal to delta) matter.", "anchors": ["python/dp_accounting/dp_accounting/pld/pld_pmf.py:_get_epsilon_for_delta"]}
{"id": "C13", "title": "PLD composition is convolution and forms a commutative monoid", "statement": "Without truncation, composing two PLDs gives the distribution of the sum of independent privacy losses, infinity mass 1-(1-a)(1-b); composition is commutative and associative up to representation, identity() is neutral, and total mass one is preserved.", "quantifier": "all pairs/triples of PMFs, sparse or dense", "why_tests_cant": "Convolution index bookkeeping over arbitrary supports.", "anchors": ["python/dp_accounting/dp_accounting/pld/pld_pmf.py:DensePLDPmf.compose", "python/dp_accounting/dp_accounting/pld/pld_pmf.py:SparsePLDPmf.compose", "python/dp_accounting/dp_accounting/pld/common.py:convolve_dictionary", "python/dp_accounting/dp_accounting/pld/privacy_loss_distribution.py:identity"]}
{"id": "C14", "title": "Delta of a composed PLD without composing equals compose then get_delta", "statement": "get_delta_for_epsilon_for_composed_pld(other, eps) equals compose(other).get_delta_for_epsilon(eps) (no truncation).", "quantifier": "all pairs of dense PMFs on the same grid, all eps", "why_tests_cant": "A two-pointer algorithm with running sums; correctness depends on every alignment of the grids with eps.", "anchors": ["python/dp_accounting/dp_accounting/pld/pld_pmf.py:DensePLDPmf.get_delta_for_epsilon_for_composed_pld"]}
{"id": "C15", "title": "Tail truncation on compose is pessimistic/optimistic with bounded error", "statement": "With a pessimistic estimate, compose(other, tail_mass_truncation=t) reports for every eps a delta between the untruncated delta and the untruncated delta + t; with an optimistic estimate it reports a delta between the untruncated delta - t and the untruncated one; total mass is preserved in the pessimistic case.", "quantifier": "all PMFs, all truncation masses, all eps", "why_tests_cant": "Truncation indices depend on partial sums for arbitrary data.", "anchors": ["python/dp_accounting/dp_accounting/pld/pld_pmf.py:_truncate_tails", "python/dp_accounting/dp_accounting/pld/pld_pmf.py:DensePLDPmf.compose"]}
{"id": "C16", "title": "self_compose(n) equals n-fold compose", "statement": "Without truncation self_compose(n) gives the same delta for every eps as composing n copies one by one, including infinity mass 1-(1-m)^n, for sparse and dense PMFs.", "quantifier": "all PMFs, all n >= 1", "why_tests_cant": "FFT-free claim over all n; circular convolution indices and Chernoff window are data dependent.", "anchors": ["python/dp_accounting/dp_accounting/pld/pld_pmf.py:DensePLDPmf.self_compose", "python/dp_accounting/dp_accounting/pld/pld_pmf.py:SparsePLDPmf.self_compose", "python/dp_accounting/dp_accounting/pld/common.py:self_convolve"]}
{"id": "C17", "title": "Truncated self_compose is sound and its error bounded", "statement": "self_compose(n, tail_mass_truncation=t) on a dense PMF returns, for each eps, a delta at least the exact n-fold delta; the mass ignored by compute_self_convolve_bounds is at most t.", "quantifier": "all PMFs, all n, all t in (0,1), all optional moment-generating-function orders", "why_tests_cant": "Chernoff-bound window and wrap-around of circular convolution: a wrong sign or rounding direction is invisible on small inputs.", "anchors": ["python/dp_accounting/dp_accounting/pld/common.py:compute_self_convolve_bounds", "python/dp_accounting/dp_accounting/pld/common.py:self_convolve", "python/dp_accounting/dp_accounting/pld/pld_pmf.py:DensePLDPmf.self_compose"]}
{"id": "C18", "title": "Dictionary/list conversions round-trip", "statement": "dictionary_to_list and list_to_dictionary convert losslessly between the two PMF representations (zero and negative masses excepted), and list_to_dictionary with a tail truncation removes at most the requested mass, only from the ends.", "quantifier": "all non-empty integer-keyed dictionaries and all lists", "why_tests_cant": "Index shifts must be right for every offset and gap.", "anchors": ["python/dp_accounting/dp_accounting/pld/common.py:dictionary_to_list", "python/dp_accounting/dp_accounting/pld/common.py:list_to_dictionary"]}
{"id": "C19", "title": "Discretising two PMFs is conservative", "statement": "from_two_probability_mass_functions with pessimistic_estimate reports, for every eps, a delta at least the exact hockey-stick divergence of the two distributions and at most the exact divergence at eps minus the discretisation interval plus truncated mass; the optimistic variant reports at most the exact divergence; symmetric=False curves are computed for each direction.", "quantifier": "all pairs of finite distributions, all discretisation intervals, all truncation bounds, all eps", "why_tests_cant": "For every pair of distributions and every eps.", "anchors": ["python/dp_accounting/dp_accounting/pld/privacy_loss_distribution.py:from_two_probability_mass_functions", "python/dp_accounting/dp_accounting/pld/privacy_loss_distribution.py:PrivacyLossDistribution.create_from_rounded_probability"]}
{"id": "C20", "title": "Connect-the-dots is exact at the dots and an upper bound elsewhere", "statement": "create_pmf_pessimistic_connect_dots returns a PMF of total mass one whose delta equals the given delta at each given epsilon, is log-linear-interpolated in exp(eps) in between, and upper-bounds every hockey-stick curve passing through (or below) the dots, for every eps; the fixed-gap variant agrees with the general one.", "quantifier": "all grids, all hockey-stick curves, all eps", "why_tests_cant": "A statement about all real eps and all curves.", "anchors": ["python/dp_accounting/dp_accounting/pld/pld_pmf.py:create_pmf_pessimistic_connect_dots", "python/dp_accounting/dp_accounting/pld/pld_pmf.py:create_pmf_pessimistic_connect_dots_fixed_gap"]}
{"id": "C21", "title": "from_privacy_parameters dominates every (eps,delta)-DP mechanism", "statement": "The PLD built from (eps,delta) reports, at every eps', a delta at least as large as the hockey-stick divergence of any mechanism satisfying (eps,delta)-DP in both directions, and at eps (when a grid point) reports exactly delta.", "quantifier": "all (eps,delta), all pairs of distributions that are (eps,delta)-indistinguishable, all eps'", "why_tests_cant": "Quantifies over all mechanisms.", "anchors": ["python/dp_accounting/dp_accounting/pld/privacy_loss_distribution.py:from_privacy_parameters"]}
{"id": "C22", "title": "PLD accounting is sound under adaptive composition", "statement": "If PLD A dominates mechanism M and PLD B dominates every mechanism the analyst may choose after seeing M's output, then A.compose(B) (with or without pessimistic truncation) dominates the adaptive composition; hence get_epsilon_for_delta of a composed PLD is a valid DP guarantee for the composition.", "quantifier": "all mechanisms (arbitrary output spaces), all adaptive choices, all eps, all histories of compositions", "why_tests_cant": "Privacy is a property of distributions, not observable by running the code.", "anchors": ["python/dp_accounting/dp_accounting/pld/privacy_loss_distribution.py:PrivacyLossDistribution.compose", "python/dp_accounting/dp_accounting/pld/pld_pmf.py"]}
{"id": "C23", "title": "Randomised-response PLD is exact", "statement": "from_randomized_response(noise, k) (REPLACE_ONE, k>=2): the reported delta is at least the exact hockey-stick divergence of k-ary randomised response on two inputs for every eps and exact when the losses are on the grid; total mass is one.", "quantifier": "all noise parameters in (0,1), all k, all eps", "why_tests_cant": "Quantifies over all parameters.", "anchors": ["python/dp_accounting/dp_accounting/pld/privacy_loss_distribution.py:from_randomized_response"]}
{"id": "C24", "title": "Only compatible PLDs can be composed", "statement": "compose raises ValueError when discretisation intervals or estimate types differ and otherwise returns a PMF with the same interval and estimate type; the symmetric flag is handled so that get_delta is the max over add and remove.", "quantifier": "all pairs of PLDs", "why_tests_cant": "All combinations of flags and representations.", "anchors": ["python/dp_accounting/dp_accounting/pld/pld_pmf.py:PLDPmf.validate_composable", "python/dp_accounting/dp_accounting/pld/privacy_loss_distribution.py:PrivacyLossDistribution"]}
{"id": "C25", "title": "inverse_monotone_function contract", "statement": "For a monotone func, inverse_monotone_function returns None iff no point of the range is feasible (increasing: func(lower)>value; decreasing: func(upper)>value), otherwise a point x in range with func(x) <= value which is within tolerance of the extremal feasible point (discrete: exactly extremal); it terminates for positive tolerance and positive initial guess.", "quantifier": "all functions (soundness even without monotonicity), all bounds incl. infinite, all tolerances", "why_tests_cant": "Loop invariants over unboundedly many iterations.", "anchors": ["python/dp_accounting/dp_accounting/pld/common.py:inverse_monotone_function"]}
{"id": "C26", "title": "Mechanism calibration never exceeds the budget", "statement": "calibrate_dp_mechanism returns a parameter value whose event has epsilon(target_delta) <= target_epsilon, whatever root the root finder returns, provided the epsilon is monotone in the parameter; within tol of the boundary; _bisect keeps a sign change in its bracket and ends within tol; bracket search either returns an interval with a sign change or raises NoBracketIntervalFoundError.", "quantifier": "all event families, all accountants, all brackets, all tolerances, all root-finder outputs", "why_tests_cant": "The external root finder can return anything within its contract.", "anchors": ["python/dp_accounting/dp_accounting/mechanism_calibration.py:calibrate_dp_mechanism", "python/dp_accounting/dp_accounting/mechanism_calibration.py:_bisect", "python/dp_accounting/dp_accounting/mechanism_calibration.py:_search_for_explicit_bracket_interval"]}
{"id": "C27", "title": "advanced_composition is sound and tight", "statement": "advanced_composition((eps,delta),k,total_delta) returns None iff total_delta < 1-(1-delta)^k; otherwise it returns total_eps such that every k-fold adaptive composition of (eps,delta)-DP mechanisms is (total_eps,total_delta)-DP, and it is the least eps*(k-2i) for which k-fold randomised response meets total_delta.", "quantifier": "all eps, delta, k, total_delta, all mechanisms", "why_tests_cant": "Quantifies over all mechanisms and k.", "anchors": ["python/dp_accounting/dp_accounting/pld/accountant.py:advanced_composition"]}
{"id": "C28", "title": "Smallest-noise searches return private parameters", "statement": "get_smallest_parameter and its Laplace/discrete Laplace/Gaussian/subsampled-Gaussian wrappers return a noise parameter for which the composed PLD satisfies the requested (eps,delta), or None.", "quantifier": "all privacy targets, all numbers of queries, all sensitivities", "why_tests_cant": "Search loops over reals.", "anchors": ["python/dp_accounting/dp_accounting/pld/accountant.py:get_smallest_parameter", "python/dp_accounting/dp_accounting/pld/accountant.py:get_smallest_laplace_noise", "python/dp_accounting/dp_accounting/pld/accountant.py:get_smallest_gaussian_noise"]}
{"id": "C29", "title": "Log-domain arithmetic is exact", "statement": "_log_add, _log_sub, log_a_times_exp_b_plus_c (PLD) and _log_add, _log_sub_sign (RDP) compute the logarithm (with sign) of the sum, difference and a*exp(b)+c in exact arithmetic, and raise exactly when the result is undefined.", "quantifier": "all real (and -inf) operands", "why_tests_cant": "Branches on signs and magnitudes over a continuum.", "anchors": ["python/dp_accounting/dp_accounting/pld/common.py:log_a_times_exp_b_plus_c", "python/dp_accounting/dp_accounting/pld/common.py:_log_add", "python/dp_accounting/dp_accounting/rdp/rdp_privacy_accountant.py:_log_sub_sign"]}
{"id": "C30", "title": "inverse_privacy_loss inverts privacy_loss", "statement": "For Laplace, Gaussian, discrete Laplace and discrete Gaussian privacy losses, with any Poisson sub-sampling probability and both adjacency types, privacy_loss is non-increasing and privacy_loss(x) >= l iff x <= inverse_privacy_loss(l).", "quantifier": "all parameters, sensitivities, sampling probabilities, x and l", "why_tests_cant": "Continuum of parameters; case splits at boundaries.", "anchors": ["python/dp_accounting/dp_accounting/pld/privacy_loss_mechanism.py:AdditiveNoisePrivacyLoss.inverse_privacy_loss", "python/dp_accounting/dp_accounting/pld/privacy_loss_mechanism.py:LaplacePrivacyLoss", "python/dp_accounting/dp_accounting/pld/privacy_loss_mechanism.py:GaussianPrivacyLoss", "python/dp_accounting/dp_accounting/pld/privacy_loss_mechanism.py:DiscreteLaplacePrivacyLoss", "python/dp_accounting/dp_accounting/pld/privacy_loss_mechanism.py:DiscreteGaussianPrivacyLoss"]}
{"id": "C31", "title": "Additive-noise get_delta_for_epsilon is the hockey-stick divergence", "statement": "For every additive noise mechanism, mu_upper_cdf(x*) - exp(eps)*mu_lower_cdf(x*) with x* = inverse_privacy_loss(eps) equals the supremum over events S of mu_upper(S) - exp(eps)*mu_lower(S).", "quantifier": "all noise distributions with non-increasing privacy loss, all eps, all sampling probabilities", "why_tests_cant": "Supremum over all measurable events.", "anchors": ["python/dp_accounting/dp_accounting/pld/privacy_loss_mechanism.py:AdditiveNoisePrivacyLoss.get_delta_for_epsilon"]}
{"id": "C32", "title": "PLDs of additive noise mechanisms dominate the mechanism", "statement": "from_laplace_mechanism, from_gaussian_mechanism (connect-the-dots) return PLDs whose delta at every eps is at least the hockey-stick divergence of the mechanism at sensitivity at most the declared one.", "quantifier": "all parameters and eps", "why_tests_cant": "Real-valued quantification.", "anchors": ["python/dp_accounting/dp_accounting/pld/privacy_loss_distribution.py:from_laplace_mechanism", "python/dp_accounting/dp_accounting/pld/privacy_loss_distribution.py:from_gaussian_mechanism", "python/dp_accounting/dp_accounting/pld/privacy_loss_distribution.py:_create_pld_pmf_from_monotone_privacy_loss"]}
{"id": "C33", "title": "Poisson sub-sampling formulas give the mixture", "statement": "privacy_loss with sampling probability q equals the log-ratio of the mixture distribution (1-q)mu + q*shifted mu and mu for the respective adjacency type.", "quantifier": "all q in (0,1], all x", "why_tests_cant": "Continuum of inputs.", "anchors": ["python/dp_accounting/dp_accounting/pld/privacy_loss_mechanism.py:AdditiveNoisePrivacyLoss.privacy_loss"]}
{"id": "C34", "title": "create_from_cdf is conservative", "statement": "_create PLD from a CDF of the privacy loss: the pessimistic PMF reports at every eps at least the delta of the loss distribution.", "quantifier": "all distributions of the privacy loss, all intervals, all truncations, all eps", "why_tests_cant": "Quantifies over all CDFs.", "anchors": ["python/dp_accounting/dp_accounting/pld/privacy_loss_distribution.py:create_from_cdf"]}
{"id": "C35", "title": "RDP to (eps,delta) conversion is sound", "statement": "compute_delta(orders, rdp, eps) is an upper bound on the hockey-stick divergence at eps of any two distributions whose Renyi divergences at the orders are bounded by rdp, and lies in [0,1].", "quantifier": "all order/rdp lists, all eps >= 0, all pairs of distributions on any measurable space", "why_tests_cant": "Quantifies over all distributions.", "anchors": ["python/dp_accounting/dp_accounting/rdp/rdp_privacy_accountant.py:compute_delta"]}
{"id": "C36", "title": "compute_epsilon is sound and consistent with compute_delta", "statement": "compute_epsilon(orders, rdp, delta) returns an eps >= 0 such that every pair of distributions within the RDP curve is (eps,delta)-indistinguishable; it is non-increasing in delta and non-decreasing in rdp.", "quantifier": "all order/rdp lists, all delta in [0,1], all pairs of distributions", "why_tests_cant": "Quantifies over all distributions.", "anchors": ["python/dp_accounting/dp_accounting/rdp/rdp_privacy_accountant.py:compute_epsilon"]}
{"id": "C37", "title": "RDP adds up under adaptive composition", "statement": "If M1 has Renyi divergence at most r1 at order alpha and every continuation M2(o) at most r2, the adaptive composition has at most r1+r2, so the RdpAccountant's sum of curves is a valid RDP curve.", "quantifier": "all pairs of distributions, all orders > 1, all adaptive choices", "why_tests_cant": "Quantifies over all distributions.", "anchors": ["python/dp_accounting/dp_accounting/rdp/rdp_privacy_accountant.py:RdpAccountant._maybe_compose"]}
{"id": "C38", "title": "Randomised-response RDP is exact", "statement": "The RDP value for RandomizedResponseDpEvent(noise,k) at order alpha equals the Renyi divergence of order alpha between the outputs of k-ary randomised response on two different inputs (REPLACE_ONE), respectively the maximum over both directions against the uniform distribution (REPLACE_SPECIAL).", "quantifier": "all noise in (0,1], k >= 1, alpha > 1 (and infinity)", "why_tests_cant": "Continuum of parameters.", "anchors": ["python/dp_accounting/dp_accounting/rdp/rdp_privacy_accountant.py:_compute_rdp_randomized_response"]}
{"id": "C39", "title": "Gaussian and Poisson-sampled Gaussian RDP is exact at integer orders", "statement": "The RDP of GaussianDpEvent(z) at order alpha is the Renyi divergence of N(1,z^2) from N(0,z^2); the Poisson-sampled value at integer alpha is the Renyi divergence of the mixture (1-q)N(0,z^2)+qN(1,z^2) from N(0,z^2).", "quantifier": "all z > 0, q in [0,1], integer alpha >= 2", "why_tests_cant": "Integral identities.", "anchors": ["python/dp_accounting/dp_accounting/rdp/rdp_privacy_accountant.py:_compute_log_a_int", "python/dp_accounting/dp_accounting/rdp/rdp_privacy_accountant.py:_compute_rdp_poisson_subsampled_gaussian"]}
{"id": "C40", "title": "Laplace RDP is exact", "statement": "The RDP of LaplaceDpEvent(b) at order alpha>1 is the Renyi divergence between Laplace distributions of scale b at distance 1.", "quantifier": "all b > 0, alpha > 1", "why_tests_cant": "Integral identity.", "anchors": ["python/dp_accounting/dp_accounting/rdp/rdp_privacy_accountant.py:_laplace_rdp"]}
{"id": "C41", "title": "Tree aggregation charges every record for all nodes it can touch", "statement": "In single-epoch tree aggregation over n steps, one record influences at most ceil(log2(n+1)) tree nodes, the number for which the accountant charges, and this is attained.", "quantifier": "all n, all step positions, all lists of step counts", "why_tests_cant": "For all n.", "anchors": ["python/dp_accounting/dp_accounting/rdp/rdp_privacy_accountant.py:_compute_rdp_single_epoch_tree_aggregation"]}
{"id": "C42", "title": "Effective noise multiplier of composed Gaussians", "statement": "_effective_gaussian_noise_multiplier of any nesting of Gaussian/SelfComposed/Composed events is the z with 1/z^2 = sum of count/z_i^2, i.e. the sampled event is charged as all its Gaussians.", "quantifier": "all nested events", "why_tests_cant": "Arbitrary nesting; dynamic typing.", "anchors": ["python/dp_accounting/dp_accounting/rdp/rdp_privacy_accountant.py:_effective_gaussian_noise_multiplier"]}
{"id": "C43", "title": "Forward differences in log domain are exact", "statement": "_get_forward_diffs returns the logarithms of the absolute iterated forward differences of exp(fun(i-1)) for every n, with in-place sign tracking.", "quantifier": "all functions, all n", "why_tests_cant": "Nested in-place loops.", "anchors": ["python/dp_accounting/dp_accounting/rdp/rdp_privacy_accountant.py:_stable_inplace_diff_in_log", "python/dp_accounting/dp_accounting/rdp/rdp_privacy_accountant.py:_get_forward_diffs"]}
{"id": "C44", "title": "RepeatAndSelect post-processing is monotone and gamma search is conservative", "statement": "The returned RDP curve is non-decreasing in the order, never above the per-order bound, and in-place monotonisation equals the simultaneous one; _gamma_truncated_negative_binomial returns a gamma whose mean is at least the requested mean.", "quantifier": "all curves, orders (any order of the list), shapes, means", "why_tests_cant": "In-place loops and bisection.", "anchors": ["python/dp_accounting/dp_accounting/rdp/rdp_privacy_accountant.py:_compute_rdp_repeat_and_select", "python/dp_accounting/dp_accounting/rdp/rdp_privacy_accountant.py:_gamma_truncated_negative_binomial"]}
{"id": "C45", "title": "Clipping bounds every record", "statement": "Data.clip_by_radius returns points of norm at most radius, and leaves points already within the radius unchanged.", "quantifier": "all datasets, radii, dimensions", "why_tests_cant": "Continuum.", "anchors": ["learning/clustering/clustering_params.py:Data.clip_by_radius"]}
{"id": "C46", "title": "LSH tree: bounded contribution per record", "statement": "In the tree built for clustering, each record is counted in at most one node per level, in at most max_depth+1 noisy counts, and in at most one leaf average; depth never exceeds max_depth and the hash never runs out of bits; every leaf has private count at least 1 so get_private_average never raises.", "quantifier": "all datasets, all hash vectors, all noise outcomes (adversarial counts)", "why_tests_cant": "Noise is random; must hold for all outcomes.", "anchors": ["learning/clustering/lsh_tree.py:LshTree", "learning/clustering/lsh_tree.py:LshTreeNode.children", "learning/clustering/lsh.py:SimHash.group_by_next_hash", "learning/clustering/clustering_algorithm.py:get_private_coreset"]}
{"id": "C47", "title": "Clustering privacy budget is validated before data is touched", "statement": "private_lsh_clustering only proceeds when the accounted epsilon and delta of one Gaussian sum and max_depth+1 Laplace counts are within the requested parameters, and the noise added is the one accounted for.", "quantifier": "all privacy parameters, multipliers, depths", "why_tests_cant": "All parameter combinations.", "anchors": ["learning/clustering/privacy_calculator.py:PrivacyCalculator", "learning/clustering/clustering_algorithm.py:private_lsh_clustering"]}
{"id": "C48", "title": "SVT answers at most max_answered_queries positives and then stops", "statement": "For every sample, the output of a sparse-vector mechanism agrees with the sequential specification: answers are given until max_answered_queries above-threshold answers have been given, all later positions are SVT_NO_RESPONSE.", "quantifier": "all query values, noises, thresholds, numbers of samples and queries", "why_tests_cant": "Vectorised loop with early break.", "anchors": ["python/dp_auditorium/dp_auditorium/mechanisms/sparse_vector_technique.py:AbstractSVTMechanism.__call__"]}
{"id": "C49", "title": "SVT1 is epsilon-DP", "statement": "For query vectors differing by at most the sensitivity in each coordinate, every output sequence of SVT1 has probability ratio at most exp(epsilon).", "quantifier": "all query vectors, thresholds, cut-offs, output sequences", "why_tests_cant": "Distributional claim.", "anchors": ["python/dp_auditorium/dp_auditorium/mechanisms/sparse_vector_technique.py:SVT1"]}
{"id": "C50", "title": "NoisyMax selects by the exponential mechanism and is epsilon-DP", "statement": "NoisyMaxMechanism output i has probability proportional to exp(epsilon*count_i/2) and adding or removing one record changes no output probability by more than exp(epsilon).", "quantifier": "all datasets, all epsilon > 0", "why_tests_cant": "Distributional claim.", "anchors": ["python/dp_auditorium/dp_auditorium/mechanisms/noisy_max.py:NoisyMaxMechanism"]}
{"id": "C51", "title": "Privacy test runner reports faithfully", "statement": "test_privacy reports FOUND_PRIVACY_VIOLATION iff some trial's max of the two directional estimates is rejected, stops at the first such trial, records one estimate per inspected trial, and otherwise inspects exactly max_num_trials.", "quantifier": "all generators, mechanisms, testers, trial limits", "why_tests_cant": "All histories.", "anchors": ["python/dp_auditorium/dp_auditorium/privacy_test_runner.py:PrivacyTestRunner.test_privacy"]}
{"id": "C52", "title": "Dataset generators return neighbouring datasets", "statement": "Each generator returns a pair of datasets that differ in exactly one privacy unit in the format its mechanism expects.", "quantifier": "all generated parameters, all sizes", "why_tests_cant": "All sizes and contents.", "anchors": ["python/dp_auditorium/dp_auditorium/generators/vizier_dataset_generator.py:VizierScalarDataAddRemoveGenerator", "python/dp_auditorium/dp_auditorium/generators/pipeline_dp_vizier_dataset_generator.py:PipelineDpDatasetGenerator", "python/dp_auditorium/dp_auditorium/generators/classification_dataset_generator.py:ClassificationDatasetGenerator"]}
{"id": "C53", "title": "Vizier generator reports every result and advances", "statement": "Every divergence estimate passed back completes the pending trial and the next call works on a fresh trial.", "quantifier": "all histories of results, including zero", "why_tests_cant": "Histories.", "anchors": ["python/dp_auditorium/dp_auditorium/generators/vizier_dataset_generator.py:VizierDatasetGenerator.__call__"]}
{"id": "C54", "title": "Declared query sensitivities are true sensitivities", "statement": "The sensitivity attached to the SVT sum and reveal-records queries bounds the change of each query value between neighbouring datasets.", "quantifier": "all datasets and neighbours, all clipping bounds", "why_tests_cant": "All datasets.", "anchors": ["python/dp_auditorium/dp_auditorium/mechanisms/sparse_vector_technique.py:_get_sum_query", "python/dp_auditorium/dp_auditorium/mechanisms/sparse_vector_technique.py:_get_reveal_records_query"]}
{"id": "C55", "title": "Histogram estimates are distributions; splitting loses no sample", "statement": "_estimate_discrete_distribution returns non-negative numbers summing to one with entry i the fraction of samples equal to i, rejecting empty or out-of-range input; split_train_test_samples returns two consecutive parts whose concatenation is the input, sizes differing by at most one.", "quantifier": "all sample arrays", "why_tests_cant": "All inputs.", "anchors": ["python/dp_auditorium/dp_auditorium/testers/histogram_tester.py:_estimate_discrete_distribution", "python/dp_auditorium/dp_auditorium/testers/property_tester_utils.py:split_train_test_samples"]}
{"id": "C56", "title": "Hockey-stick tester's accuracy-to-delta conversion is sound", "statement": "For any classifier h, accuracy*(1+e^eps)-e^eps on the mixture with label weights 1/(1+e^eps), e^eps/(1+e^eps) never exceeds the hockey-stick divergence of the two distributions.", "quantifier": "all distributions, all classifiers, all eps", "why_tests_cant": "All classifiers and distributions.", "anchors": ["python/dp_auditorium/dp_auditorium/testers/hockey_stick_tester.py:HockeyStickPropertyTester._compute_divergence_on_samples"]}
{"id": "C57", "title": "Parameter validation is exact", "statement": "DifferentialPrivacyParameters, additive-noise constructors, PrivacyProperty and TreeParam accept exactly the documented parameter ranges and otherwise raise ValueError.", "quantifier": "all parameter values", "why_tests_cant": "Continuum.", "anchors": ["python/dp_accounting/dp_accounting/pld/common.py:DifferentialPrivacyParameters", "python/dp_accounting/dp_accounting/pld/privacy_loss_mechanism.py:AdditiveNoisePrivacyLoss.__init__", "python/dp_auditorium/dp_auditorium/configs/privacy_property.py:PrivacyProperty", "learning/clustering/clustering_params.py:TreeParam"]}
{"id": "C58", "title": "RDP of sampling without replacement bounds the mechanism", "statement": "The RDP reported for SampledWithoutReplacementDpEvent(n, m, GaussianDpEvent(z)) at any real order is an upper bound on the Renyi divergence between the outputs of a vector-valued query of l2 (replace-one) sensitivity Delta with Gaussian noise z*Delta, run on a uniformly drawn subset of m of the n records, on any two data sets that differ in one record.", "quantifier": "all n, m <= n, noise multipliers > 0, real orders >= 1 (integer or fractional), dimensions, queries, data sets", "why_tests_cant": "The bound comes from a ternary divergence argument with iterated differences of a cumulant generating function; a wrong index or constant gives a plausible smaller number.", "anchors": ["python/dp_accounting/dp_accounting/rdp/rdp_privacy_accountant.py:_compute_rdp_sample_wor_gaussian", "python/dp_accounting/dp_accounting/rdp/rdp_privacy_accountant.py:_compute_rdp_sample_wor_gaussian_int", "python/dp_accounting/dp_accounting/rdp/rdp_privacy_accountant.py:_get_forward_diffs"]}
{"id": "C59", "title": "RdpAccountant is sound end to end", "statement": "If every compose call of a history of events succeeded on an RdpAccountant, then the epsilon returned by get_epsilon(delta) (and the delta returned by get_delta(epsilon)) is a valid differential privacy guarantee for the joint output of the mechanisms that the events describe, run one after the other on two neighbouring data sets, where each mechanism may be chosen depending on all earlier outputs.", "quantifier": "all histories, orders >= 1, neighbouring relations, mechanisms of any dimension described by the events, adaptive choices, deltas and epsilons", "why_tests_cant": "Joins the event traversal, the per-mechanism RDP formulas, composition and conversion into a statement about probability distributions; a unit test can compare numbers but not check an inequality for all output events.", "anchors": ["python/dp_accounting/dp_accounting/rdp/rdp_privacy_accountant.py:RdpAccountant", "python/dp_accounting/dp_accounting/rdp/rdp_privacy_accountant.py:compute_epsilon", "python/dp_accounting/dp_accounting/rdp/rdp_privacy_accountant.py:compute_delta", "python/dp_accounting/dp_accounting/dp_event.py"]}
{"id": "C60", "title": "Optimistic PLDs of additive noise mechanisms are lower bounds", "statement": "With pessimistic_estimate=False the PLDs returned by from_laplace_mechanism, from_gaussian_mechanism, from_discrete_laplace_mechanism and from_discrete_gaussian_mechanism have, at every epsilon and in both directions, a delta that is at most every delta for which the mechanism (at exactly the declared sensitivity) is (epsilon, delta) differentially private.", "quantifier": "all parameters, sampling probabilities, discretization intervals, epsilons and deltas", "why_tests_cant": "Compares a discretized number with a supremum over all events for real-valued parameters.", "anchors": ["python/dp_accounting/dp_accounting/pld/privacy_loss_distribution.py:_create_pld_pmf_from_monotone_privacy_loss", "python/dp_accounting/dp_accounting/pld/privacy_loss_distribution.py:from_laplace_mechanism", "python/dp_accounting/dp_accounting/pld/privacy_loss_distribution.py:from_gaussian_mechanism"]}
{"id": "C61", "title": "The PLD accountant is sound, end to end", "statement": "After any history of PLDAccountant.compose calls that did not raise (any nesting, any counts), the delta returned by get_delta(epsilon), and a finite epsilon returned by get_epsilon(delta), hold in both neighbouring directions for any adaptively chosen sequence of mechanisms described by the composed events (Gaussian, Laplace, their Poisson-sampled versions, randomized response, mixtures of Gaussians), in any order, and after any post-processing; for mixtures of Gaussians up to a stated numerical error. The numbers include discretization, tail truncation and every infinity mass.", "quantifier": "all histories of composed events, all mechanisms described by them (all dimensions, queries, data sets, adaptive choices), all epsilons and deltas", "why_tests_cant": "Quantifies over all event histories and over all mechanisms on real vector spaces; a numerical comparison cannot certify an upper bound.", "anchors": ["python/dp_accounting/dp_accounting/pld/pld_privacy_accountant.py:PLDAccountant", "python/dp_accounting/dp_accounting/pld/privacy_loss_distribution.py:from_gaussian_mechanism", "python/dp_accounting/dp_accounting/pld/privacy_loss_distribution.py:PrivacyLossDistribution.compose", "python/dp_accounting/dp_accounting/pld/pld_pmf.py:compose_pmfs"]}
{"id": "C62", "title": "Renyi accounting of Poisson sampling is sound at fractional orders", "statement": "For a fractional order the value computed for a Poisson-sampled Gaussian event bounds the Renyi divergence of the sampled query and is close to it; infinity is returned when the series does not converge. Hence the epsilon and delta reported by an RdpAccountant with fractional orders (as in the default list) are valid.", "quantifier": "all sampling probabilities in (0,1), all positive noise multipliers, all fractional orders above one, all histories of events", "why_tests_cant": "The value is a truncated alternating series with a numerical stopping rule over an unbounded domain; the truth it must bound is an integral without closed form.", "anchors": ["python/dp_accounting/dp_accounting/rdp/rdp_privacy_accountant.py:_compute_log_a_frac", "python/dp_accounting/dp_accounting/rdp/rdp_privacy_accountant.py:_compute_log_a", "python/dp_accounting/dp_accounting/rdp/rdp_privacy_accountant.py:RdpAccountant"]}
{"id": "C63", "title": "Mechanisms documented as non-private are non-private", "statement": "SVT5, SVT3 and SVT6 do not satisfy differential privacy for the epsilon they are configured with: for neighbouring data sets some set of answers is more than e^epsilon times as likely on one than on the other.", "quantifier": "all epsilons, thresholds and cut-offs", "why_tests_cant": "A statement about probabilities of events, some of them zero.", "anchors": ["python/dp_auditorium/dp_auditorium/mechanisms/sparse_vector_technique.py:SVT5", "python/dp_auditorium/dp_auditorium/mechanisms/sparse_vector_technique.py:SVT3", "python/dp_auditorium/dp_auditorium/mechanisms/sparse_vector_technique.py:SVT6"]}
{"id": "C64", "title": "The histogram tester keeps its failure probability", "statement": "If the two output distributions satisfy P(S) <= e^eps Q(S) + delta for all events, then on independent samples, in any numbers, HistogramTester.estimate_lower_bound returns a number at or above delta, and so rejects the property, with probability at most failure_probability; for both error bounds and for discrete and continuous mechanisms. With enough samples it does reject distributions that differ on the histogram.", "quantifier": "all pairs of distributions, sample sizes, histogram sizes, ranges, eps, delta, failure probabilities in (0, 1]", "why_tests_cant": "A bound on the probability of an event over random samples, for all distributions; tests see a few runs on a few distributions.", "anchors": ["python/dp_auditorium/dp_auditorium/testers/histogram_tester.py:HistogramTester.estimate_lower_bound", "python/dp_auditorium/dp_auditorium/testers/histogram_tester.py:HistogramTester.reject_property"]}
{"id": "C65", "title": "The hockey-stick tester keeps its failure probability", "statement": "If the two output distributions satisfy P(S) <= e^eps Q(S) + delta for all events, then on independent samples, however the classifier is trained on the training half, HockeyStickPropertyTester.estimate_lower_bound returns a number above delta, and so rejects, with probability at most failure_probability.", "quantifier": "all pairs of distributions, training procedures, sample sizes, eps, delta, failure probabilities", "why_tests_cant": "A bound on the probability of an event over random samples, for all distributions and all classifiers.", "anchors": ["python/dp_auditorium/dp_auditorium/testers/hockey_stick_tester.py:HockeyStickPropertyTester", "python/dp_auditorium/dp_auditorium/testers/divergence_tester.py:DivergencePropertyTester.estimate_lower_bound"]}
{"id": "C66", "title": "RDP of repeat-and-select is sound", "statement": "If a mechanism's Renyi divergences in both directions are bounded by the given curve, then releasing only the best (for any score) of a random number of runs, drawn from the truncated negative binomial distribution with the given shape and mean or from the Poisson distribution, has Renyi divergences bounded by the curve that RepeatAndSelectDpEvent adds to the RDP accountant.", "quantifier": "all mechanisms, output spaces, scores, orders, curves, shapes, means", "why_tests_cant": "A statement about divergences of all mechanisms and scores; the proof is Theorems 2 and 6 of arXiv 2110.03620.", "anchors": ["python/dp_accounting/dp_accounting/rdp/rdp_privacy_accountant.py:_compute_rdp_repeat_and_select", "python/dp_accounting/dp_accounting/dp_event.py:RepeatAndSelectDpEvent"]}
{"id": "C67", "title": "The MMD tester's lower bound is valid", "statement": "MMDPropertyTester accepts exactly valid privacy parameters and the two kernels; for the outputs of an (epsilon, delta)-private mechanism on two datasets, estimate_lower_bound exceeds delta (and the tester rejects) with probability at most failure_probability; the squared discrepancy of a private mechanism is at most the bound stated in the class; and the returned bound approaches the value implied by the discrepancy.", "quantifier": "all pairs of output distributions, all sample sizes, both kernels, all bandwidths >= 0, all failure probabilities in (0,1], all privacy parameters", "why_tests_cant": "A statement about the probability of an event over all pairs of distributions and all sample sizes; needs concentration inequalities and a bound on the discrepancy for all private mechanisms.", "anchors": ["python/dp_auditorium/dp_auditorium/testers/mmd_tester.py:MMDPropertyTester"]}
{"id": "C69", "title": "from_privacy_guarantee returns private noise and no more than needed", "statement": "LaplacePrivacyLoss, GaussianPrivacyLoss, DiscreteLaplacePrivacyLoss and DiscreteGaussianPrivacyLoss.from_privacy_guarantee return a noise parameter with which the additive noise mechanism on a Poisson sample is (eps,delta)-DP in both adjacency directions; with less noise (up to the search tolerance) it is not; and they return for every valid target.", "quantifier": "all privacy targets with eps > 0, all sensitivities, all sampling probabilities in (0,1], all queries and data sets", "why_tests_cant": "Quantifies over all outputs, all data sets and all smaller noise parameters; the claim that the REMOVE direction suffices is a theorem about distributions.", "anchors": ["python/dp_accounting/dp_accounting/pld/privacy_loss_mechanism.py:LaplacePrivacyLoss.from_privacy_guarantee", "python/dp_accounting/dp_accounting/pld/privacy_loss_mechanism.py:GaussianPrivacyLoss.from_privacy_guarantee", "python/dp_accounting/dp_accounting/pld/privacy_loss_mechanism.py:DiscreteLaplacePrivacyLoss.from_privacy_guarantee", "python/dp_accounting/dp_accounting/pld/privacy_loss_mechanism.py:DiscreteGaussianPrivacyLoss.from_privacy_guarantee"]}
{"id": "C70", "title": "PLDs of Gaussian mechanisms with random sensitivity", "statement": "For a Gaussian mechanism whose sensitivity is random (from_mixture_gaussian_mechanism), the privacy loss is the log density ratio; the deltas of the returned distribution bound the hockey-stick divergence of the mixture in both adjacency directions, up to a stated numerical error, also for vector queries whose random change is bounded by the random sensitivity; get_delta_for_epsilon never exceeds the exact delta and is close to it; invalid arguments raise ValueError.", "quantifier": "all standard deviations, all finite lists of sensitivities and probabilities, all epsilons, all discretizations and all vector queries", "why_tests_cant": "Quantifies over all mixtures, all measurable events and all epsilons; the search for the cut-off is only correct if its initial interval contains a real number that is not computable in closed form.", "anchors": ["python/dp_accounting/dp_accounting/pld/privacy_loss_mechanism.py:MixtureGaussianPrivacyLoss", "python/dp_accounting/dp_accounting/pld/privacy_loss_distribution.py:from_mixture_gaussian_mechanism"]}
{"id": "C68", "title": "The Renyi tester's lower bound is valid", "statement": "RenyiPropertyTester accepts exactly the documented configurations; whatever the network learns, estimate_lower_bound exceeds the Renyi divergence of order alpha of the two output distributions with probability at most failure_probability, so that a mechanism with the tested Renyi (or pure) privacy guarantee is rejected with at most this probability; and the returned value is not far below the value of the trained function.", "quantifier": "all pairs of output distributions, all training procedures, all sample sizes, all orders above one, all bounds of the network output, all failure probabilities in (0,1]", "why_tests_cant": "A statement about the probability of an event over all pairs of distributions, all trained networks and all sample sizes; needs the variational form of the divergence and concentration inequalities for relative errors.", "anchors": ["python/dp_auditorium/dp_auditorium/testers/renyi_tester.py:RenyiPropertyTester", "python/dp_auditorium/dp_auditorium/testers/divergence_tester.py:DivergencePropertyTester"]}
{"id": "C71", "title": "The mean mechanism configured as private is private", "statement": "A MeanMechanism with both count options on (the configuration documented as private, and the default 'private_mean') hides adding, removing or replacing a record with the configured epsilon and delta; records are clipped to the range; a call succeeds exactly for a positive epsilon; with exact counts it is not private for any epsilon.", "quantifier": "all epsilons, deltas, ranges, data sets, neighbouring records, numbers of samples and measurable events", "why_tests_cant": "Privacy compares the probabilities of every measurable set of outputs under two distributions for all data sets; the events that break it (a negative noisy count) are rare.", "anchors": ["python/dp_auditorium/dp_auditorium/mechanisms/mean.py:MeanMechanism", "python/dp_auditorium/dp_auditorium/mechanisms/mechanisms_utils.py:default_mean_mechanism_config_generator"]}
{"id": "C72", "title": "Labels and loss of a clustering result", "statement": "A ClusteringResult labels every point with a center closest to it (the first one of several), and its loss is the smallest sum of squared distances over all assignments of points to centers. Labels given by the caller are accepted exactly if there is one per point and each is the number of a center; giving only one of labels and loss is an error.", "quantifier": "all data sets, centers, dimensions, given labels", "why_tests_cant": "Minimum over exponentially many assignments, all inputs.", "anchors": ["learning/clustering/clustering_algorithm.py:ClusteringResult"]}
{"id": "C73", "title": "Clustering metrics count what they are documented to count", "statement": "num_points is the number of points, dominant_label_correct_count the largest number of true labels that some labelling of the clusters predicts, true_pairs / false_pairs the number of unordered pairs of points with equal / different true labels, true_nonmatch_count and false_match_count those of them in different clusters / the same cluster; the fractions are the ratios and lie between 0 and 1.", "quantifier": "all cluster labels, all true labels, any number of points", "why_tests_cant": "Combinatorial identities for all sizes.", "anchors": ["learning/clustering/clustering_algorithm.py:ClusteringMetrics", "learning/clustering/clustering_algorithm.py:cross_label_histogram"]}
{"id": "C74", "title": "A calibrated mechanism is as private as asked for", "statement": "If calibrate_dp_mechanism, called with a function that makes new RdpAccountants or new PLDAccountants, returns x, then every mechanism described by make_event_from_param(x) (an adaptively chosen sequence of mechanisms described by its elementary events) is (target_epsilon, target_delta)-DP, for PLD accountants in both directions and after any post-processing, up to the stated numerical error of the accountant.", "quantifier": "all event families, brackets, tolerances, targets, answers of the root finder; all mechanisms described by the event", "why_tests_cant": "Quantifies over all event families, over all answers of an external root finder, and over all mechanisms on real vector spaces.", "anchors": ["python/dp_accounting/dp_accounting/mechanism_calibration.py:calibrate_dp_mechanism", "python/dp_accounting/dp_accounting/rdp/rdp_privacy_accountant.py:RdpAccountant.get_epsilon", "python/dp_accounting/dp_accounting/pld/pld_privacy_accountant.py:PLDAccountant.get_epsilon"]}
{"id": "C75", "title": "Privacy buckets for mixtures of Gaussians", "statement": "from_mixture_gaussian_mechanism with use_connect_dots=False or pessimistic_estimate=False: the pessimistic estimate of delta is never below the delta of the mechanism, in either direction and for vector queries with a random sensitivity; the optimistic estimate is never above a delta that is valid in both directions; admissible arguments give a distribution.", "quantifier": "all noise levels, lists of sensitivities and probabilities, discretizations, truncation masses, epsilons; all query dimensions", "why_tests_cant": "Quantifies over real parameters and over mechanisms on real vector spaces; the failures found need particular combinations of sensitivities.", "anchors": ["python/dp_accounting/dp_accounting/pld/privacy_loss_distribution.py:from_mixture_gaussian_mechanism", "python/dp_accounting/dp_accounting/pld/privacy_loss_mechanism.py:MixtureGaussianPrivacyLoss"]}
{"id": "C76", "title": "A privacy test rarely accuses a mechanism that has the tested property", "statement": "If the mechanism has the tested property on all pairs of data sets that the generator can produce, PrivacyTestRunner.test_privacy reports found_privacy_violation with probability at most the failure_probability that this report carries.", "quantifier": "all mechanisms, generators (adaptive, with any state), numbers of trials and samples, failure probabilities; histogram, hockey-stick, MMD and Rényi testers, any post-processing", "why_tests_cant": "A statement about the probability of an event over all the samples of an adaptive sequence of trials; a run shows one outcome.", "anchors": ["python/dp_auditorium/dp_auditorium/privacy_test_runner.py:PrivacyTestRunner.test_privacy", "python/dp_auditorium/dp_auditorium/configs/privacy_test_runner_config.py:FoundPrivacyViolation"]}
{"id": "C77", "title": "Post-processing of samples neither hides nor creates a privacy violation", "statement": "For every value of PrivacyTestRunnerConfig.post_processing, the samples passed to the property tester are a function of the samples of the mechanism, applied to each of them (unchanged, tanh, or the six Chebyshev polynomials of tanh), bounded by one unless unchanged, and the laws of the new samples on two data sets are (epsilon, delta)-indistinguishable exactly if those of the mechanism are; an unknown value is refused with ValueError.", "quantifier": "all lists of samples, all output laws of mechanisms, all epsilon and delta", "why_tests_cant": "Equivalence of a statement over all events of two arbitrary probability laws.", "anchors": ["python/dp_auditorium/dp_auditorium/privacy_test_runner.py:_get_postprocess_function"]}
{"id": "C78", "title": "Composing more never lowers what the PLD accountant reports", "statement": "After further compose calls (returning or raising), get_delta at any epsilon and get_epsilon at any delta of PLDAccountant are not below what they were before; compose and self_compose of privacy loss distributions never give smaller deltas than their operands.", "quantifier": "all histories of compose calls before and after, with nested events and counts; all epsilons and deltas; all discretizations; all truncation masses of compose and self_compose", "why_tests_cant": "Compares two unbounded histories at all real epsilons; the tail truncation and the rounding could each lower a value by an amount that a tolerance hides.", "anchors": ["python/dp_accounting/dp_accounting/pld/pld_privacy_accountant.py:PLDAccountant", "python/dp_accounting/dp_accounting/pld/privacy_loss_distribution.py:PrivacyLossDistribution.compose", "python/dp_accounting/dp_accounting/pld/privacy_loss_distribution.py:PrivacyLossDistribution.self_compose"]}
{"id": "C79", "title": "Composing more never lowers what the RDP accountant reports", "statement": "After further compose calls, no RDP value of RdpAccountant is lower than before, get_delta at any epsilon does not return a smaller delta and get_epsilon at any delta does not return a smaller epsilon; no RDP value is ever negative.", "quantifier": "all histories of compose calls before and after, with all kinds of events, nesting and counts; all lists of orders; all epsilons and deltas", "why_tests_cant": "Compares two unbounded histories at all real orders, epsilons and deltas, for all mechanisms including numerically computed series.", "anchors": ["python/dp_accounting/dp_accounting/rdp/rdp_privacy_accountant.py:RdpAccountant", "python/dp_accounting/dp_accounting/rdp/rdp_privacy_accountant.py:compute_delta", "python/dp_accounting/dp_accounting/rdp/rdp_privacy_accountant.py:compute_epsilon"]}
{"id": "C80", "title": "More noise never reports more loss, more sampling or a larger sensitivity never less", "statement": "For the Laplace, Gaussian, discrete Laplace and discrete Gaussian privacy losses, get_delta_for_epsilon answers at every epsilon, and its answer does not decrease when the sampling probability or the sensitivity grows or when the noise shrinks, for either adjacency type.", "quantifier": "all noise parameters, sensitivities, sampling probabilities, both adjacency types, all real epsilons including those close to the limit of the loss", "why_tests_cant": "Compares all pairs of real parameters at all real epsilons; the branches for epsilons close to the limit of the loss switch at a relative distance of 1e-9.", "anchors": ["python/dp_accounting/dp_accounting/pld/privacy_loss_mechanism.py:AdditiveNoisePrivacyLoss.get_delta_for_epsilon", "python/dp_accounting/dp_accounting/pld/privacy_loss_mechanism.py:LaplacePrivacyLoss", "python/dp_accounting/dp_accounting/pld/privacy_loss_mechanism.py:GaussianPrivacyLoss", "python/dp_accounting/dp_accounting/pld/privacy_loss_mechanism.py:DiscreteLaplacePrivacyLoss", "python/dp_accounting/dp_accounting/pld/privacy_loss_mechanism.py:DiscreteGaussianPrivacyLoss"]}
{"id": "C81", "title": "Milder events never raise what the RDP accountant reports", "statement": "If each event of one history of compose calls is an event of another with more noise (Gaussian, Laplace, randomized response, tree aggregation), a smaller sampling probability or sampled fraction, fewer steps or a milder selected base event, then no RDP value and no epsilon or delta of RdpAccountant after the first history is above that after the second. In particular a DP-SGD run with fewer steps, a smaller sampling probability or more noise never reports a larger epsilon.", "quantifier": "all pairs of histories with nested events and counts; all real parameters; all lists of orders; all epsilons and deltas", "why_tests_cant": "Compares all pairs of real parameters at all orders and for histories of any length; the curves are different numerical formulas on different ranges of the parameters.", "anchors": ["python/dp_accounting/dp_accounting/rdp/rdp_privacy_accountant.py:_compute_rdp_poisson_subsampled_gaussian", "python/dp_accounting/dp_accounting/rdp/rdp_privacy_accountant.py:_laplace_rdp", "python/dp_accounting/dp_accounting/rdp/rdp_privacy_accountant.py:_compute_rdp_single_epoch_tree_aggregation", "python/dp_accounting/dp_accounting/rdp/rdp_privacy_accountant.py:_compute_randomized_response_rdp", "python/dp_accounting/dp_accounting/rdp/rdp_privacy_accountant.py:_compute_rdp_repeat_and_select", "python/dp_accounting/dp_accounting/rdp/rdp_privacy_accountant.py:RdpAccountant", "python/dp_accounting/dp_accounting/rdp/rdp_privacy_accountant.py:_compute_rdp_sample_wor_gaussian"]}
{"id": "C82", "title": "Accountants accept every supported event with parameters in range", "statement": "A history of compose calls on a new RdpAccountant or PLDAccountant never raises if every elementary event in it is of a kind that the accountant supports for its neighbouring relation, with parameters in their documented ranges and positive counts; supports returns True for every such event.", "quantifier": "all histories of calls of any length, all nestings of Composed, SelfComposed and RepeatAndSelect events, all counts, all real parameters", "why_tests_cant": "Exceptions can come from any numeric step (truncation of tails, checks on rounded masses, root searches, divisions) at any point of a history; tests run a few events.", "anchors": ["python/dp_accounting/dp_accounting/pld/pld_privacy_accountant.py:PLDAccountant._maybe_compose", "python/dp_accounting/dp_accounting/rdp/rdp_privacy_accountant.py:RdpAccountant._maybe_compose", "python/dp_accounting/dp_accounting/privacy_accountant.py:PrivacyAccountant.compose", "python/dp_accounting/dp_accounting/privacy_accountant.py:PrivacyAccountant.supports", "python/dp_accounting/dp_accounting/dp_event.py:RandomizedResponseDpEvent"]}
{"id": "C83", "title": "A smaller discretization interval gives more accurate estimates", "statement": "For the same mechanism a smaller value_discretization_interval never gives a larger delta from a pessimistic PLD (nor a smaller one from an optimistic PLD), also after any compose and self_compose; the delta reported for an additive noise mechanism differs from the exact one by at most the interval in epsilon and the truncated mass.", "quantifier": "all mechanisms and parameters, all intervals, all epsilons, all numbers of compositions", "why_tests_cant": "Tests compare a few deltas for one interval with tolerances; the claim compares curves at all epsilons for all pairs of intervals.", "anchors": ["python/dp_accounting/dp_accounting/pld/privacy_loss_distribution.py:from_laplace_mechanism", "python/dp_accounting/dp_accounting/pld/privacy_loss_distribution.py:from_gaussian_mechanism", "python/dp_accounting/dp_accounting/pld/privacy_loss_distribution.py:from_two_probability_mass_functions", "python/dp_accounting/dp_accounting/pld/privacy_loss_distribution.py:from_privacy_parameters", "python/dp_accounting/dp_accounting/pld/privacy_loss_distribution.py:PrivacyLossDistribution.compose", "python/dp_accounting/dp_accounting/pld/privacy_loss_distribution.py:PrivacyLossDistribution.self_compose", "python/dp_accounting/dp_accounting/pld/pld_pmf.py:create_pmf_pessimistic_connect_dots"]}
{"id": "C84", "title": "What the PLD accountant reports is tight up to the discretization", "statement": "After any history of compose calls on a PLDAccountant, some sequence of mechanisms described by the composed events really needs what is reported: at an epsilon smaller by one value_discretization_interval per application it is not private for any delta below the one reported by get_delta (up to the tail mass truncated by the library), and get_epsilon is larger than the exact epsilon by at most one interval per application.", "quantifier": "all histories of calls, all nestings and counts, all noise parameters, sampling probabilities and discretization intervals, all epsilons and deltas, both neighbouring directions", "why_tests_cant": "An accountant that double counts an event or rounds too coarsely stays sound, so soundness tests pass; tests compare with known values for a few parameters within loose tolerances.", "anchors": ["python/dp_accounting/dp_accounting/pld/pld_privacy_accountant.py:PLDAccountant._maybe_compose", "python/dp_accounting/dp_accounting/pld/pld_privacy_accountant.py:PLDAccountant.get_epsilon", "python/dp_accounting/dp_accounting/pld/pld_privacy_accountant.py:PLDAccountant.get_delta", "python/dp_accounting/dp_accounting/pld/privacy_loss_distribution.py:from_gaussian_mechanism", "python/dp_accounting/dp_accounting/pld/privacy_loss_distribution.py:from_laplace_mechanism", "python/dp_accounting/dp_accounting/pld/privacy_loss_distribution.py:PrivacyLossDistribution.self_compose", "python/dp_accounting/dp_accounting/pld/pld_pmf.py:create_pmf_pessimistic_connect_dots"]}
{"id": "C85", "title": "The PLD accountant never reports more than the RDP accountant", "statement": "For any history of compose calls accepted by both a PLDAccountant and an RdpAccountant with the same neighbouring relation, the epsilon and delta reported by the PLDAccountant exceed those of the RdpAccountant by at most one value_discretization_interval in epsilon per application and the truncated tail mass in delta.", "quantifier": "all histories of calls, nestings and counts, all noise parameters, sampling probabilities, discretization intervals and sets of Renyi orders, all epsilons and deltas", "why_tests_cant": "The two accountants share no code beyond the event traversal; tests compare them on a few events only.", "anchors": ["python/dp_accounting/dp_accounting/pld/pld_privacy_accountant.py:PLDAccountant.get_epsilon", "python/dp_accounting/dp_accounting/pld/pld_privacy_accountant.py:PLDAccountant.get_delta", "python/dp_accounting/dp_accounting/rdp/rdp_privacy_accountant.py:RdpAccountant.get_epsilon_and_optimal_order", "python/dp_accounting/dp_accounting/rdp/rdp_privacy_accountant.py:RdpAccountant.get_delta_and_optimal_order"]}
{"id": "C86", "title": "Milder events never raise what the PLD accountant reports", "statement": "If the applications of one history of compose calls can be matched with applications of another history such that every one has at least the noise of its match and is sampled with at most its probability (unmatched applications of the other history are allowed), a PLDAccountant reports for the first history at most the delta and the epsilon that it reports for the second, up to one value_discretization_interval in epsilon per application and the truncated tail mass in delta. The discretization intervals may differ.", "quantifier": "all pairs of histories of calls, all nestings and counts, all noise parameters, sampling probabilities and discretization intervals, all epsilons and deltas", "why_tests_cant": "Tests check monotonicity in one parameter for a few values of one mechanism; the claim is about all pairs of histories.", "anchors": ["python/dp_accounting/dp_accounting/pld/pld_privacy_accountant.py:PLDAccountant._maybe_compose", "python/dp_accounting/dp_accounting/pld/pld_privacy_accountant.py:PLDAccountant.get_epsilon", "python/dp_accounting/dp_accounting/pld/pld_privacy_accountant.py:PLDAccountant.get_delta", "python/dp_accounting/dp_accounting/pld/privacy_loss_distribution.py:from_gaussian_mechanism", "python/dp_accounting/dp_accounting/pld/privacy_loss_distribution.py:from_laplace_mechanism", "python/dp_accounting/dp_accounting/pld/privacy_loss_distribution.py:from_randomized_response"]}
{"id": "C87", "title": "Calibration with the PLD accountant adds no more noise than needed", "statement": "If calibrate_dp_mechanism with a new PLDAccountant returns a parameter value, then every value that makes the mechanism less private than all values within the tolerance of it (less noise, more sampling, more steps) misses the target: there are mechanisms described by its event that are not (epsilon, delta)-differentially private for any epsilon below the target by more than one value_discretization_interval per application and any delta below the target by more than the truncated tail mass. In particular a smaller noise multiplier or a larger number of steps of DP-SGD, by more than the tolerance, would not do.", "quantifier": "all families of events, targets, brackets, tolerances, neighbouring relations and discretization intervals, and all answers of the root finder that keep its contract", "why_tests_cant": "Tests calibrate one family for a few targets and compare with the accountant's own numbers; that no less noise would do is a statement about all mechanisms with the smaller parameter.", "anchors": ["python/dp_accounting/dp_accounting/mechanism_calibration.py:calibrate_dp_mechanism", "python/dp_accounting/dp_accounting/pld/pld_privacy_accountant.py:PLDAccountant.get_epsilon"]}
{"id": "C88", "title": "The RDP accountant reports exactly the Renyi divergence", "statement": "After any accepted history of compose calls, the RDP value recorded at an order above one is the largest Renyi divergence of that order of the joint output of mechanisms described by the events and run one after the other: no such mechanisms have a larger divergence, and some have exactly this one. So nothing is counted that is not spent, and the values depend only on which mechanisms the history describes.", "quantifier": "all histories of compose calls, orders above one, neighbouring relations, and all adaptive sequences of mechanisms", "why_tests_cant": "Tests compare RDP values with closed formulas for single events; that the total is attained by actual mechanisms is a statement about the supremum over all mechanisms and all compositions.", "anchors": ["python/dp_accounting/dp_accounting/rdp/rdp_privacy_accountant.py:RdpAccountant.compose", "python/dp_accounting/dp_accounting/rdp/rdp_privacy_accountant.py:_compute_rdp_poisson_subsampled_gaussian", "python/dp_accounting/dp_accounting/rdp/rdp_privacy_accountant.py:_compute_rdp_single_epoch_tree_aggregation"]}
{"id": "C89", "title": "The synthetic data set of the clustering demo is as described", "statement": "generate_synthetic_dataset returns num_points points, each of norm at most radius, with one label each; the points come cluster by cluster, every cluster has num_points // num_clusters points and the last one also the rest; every point is the center of the cluster of its label plus normal noise, moved to the ball if it is outside; the centers lie in the ball of radius radius * (1 - 1/cluster_ratio). cluster_ratio is the ratio of the distances between and within clusters, whatever the radius.", "quantifier": "all numbers of points and clusters, dimensions, radii and ratios, all random draws", "why_tests_cant": "Tests generate a few data sets and look at shapes and norms; the claim is about all sizes and draws, and about how the data depend on the radius.", "anchors": ["learning/clustering/demo/data_generation.py:generate_synthetic_dataset", "learning/clustering/clustering_params.py:Data.clip_by_radius"]}
{"id": "C90", "title": "Points sampled in a ball are independent and uniform", "statement": "sample_uniform_sphere returns points that are independent and uniformly distributed in the ball of the given radius: every part of the ball gets its share of the volume.", "quantifier": "all numbers of points, dimensions and radii", "why_tests_cant": "Tests check that sampled points lie in the ball; the distribution is a statement about a measure on all draws.", "anchors": ["learning/clustering/demo/data_generation.py:sample_uniform_sphere"]}
{"id": "C91", "title": "The budget of one step of gradient descent is the Renyi divergence of the step", "statement": "get_wrong_one_step_gd_budget returns the Renyi divergence of one noisy gradient step in which each record's gradient is clipped: a bound for all data sets that differ in one record, attained by some. A user would expect this for adding or removing a record as well as for replacing one.", "quantifier": "all noise multipliers, clipping norms and orders above one, all gradients and dimensions", "why_tests_cant": "Tests can only compare the number with another formula; that it bounds the divergence is a statement about all data sets and output distributions.", "anchors": ["python/dp_auditorium/dp_auditorium/mechanisms/mechanisms_utils.py:get_wrong_one_step_gd_budget"]}
{"id": "C92", "title": "The PipelineDP mechanism returns one private result per sample and can be audited", "statement": "AggregationMechanism(config, property, public_partitions)(data, n) returns n samples; each is the list of the metrics of all partitions of one run of PipelineDP with the budget of the tested property. If PipelineDP keeps its budget, each sample satisfies the tested property for data sets that differ in the records of one privacy id, so that an audit with the generator made for PipelineDP finds nothing.", "quantifier": "all behaviours of the PipelineDP engine, all data, budgets, numbers of samples and random draws, all values proposed by Vizier", "why_tests_cant": "Privacy of the samples is a statement about all pairs of data sets and all sets of outputs; random selection of partitions makes failures depend on the draws.", "anchors": ["python/dp_auditorium/dp_auditorium/mechanisms/pipeline_dp/aggregation.py:AggregationMechanism", "python/dp_auditorium/dp_auditorium/generators/pipeline_dp_vizier_dataset_generator.py:PipelineDpDatasetGenerator"]}
{"id": "C93", "title": "Default thresholds of the clustering tree", "statement": "If no tree parameters are given, the clustering uses as smallest number of points per node the largest number for which the private count still allows two nodes per cluster and which is not more than needed to bring the noise per point down to a tenth of the radius, and one if there is no such number; branching nodes need three times as many. This never raises for at least one cluster, whatever the noise of the count.", "quantifier": "all numbers of points and clusters, dimensions, privacy parameters and outcomes of the noise", "why_tests_cant": "The count is noisy and may be negative; the claim is about all outcomes and all parameters.", "anchors": ["learning/clustering/default_clustering_params.py:default_tree_param", "learning/clustering/clustering_params.py:TreeParam"]}
