# Formal model of google/differential-privacy (python) in Lean 4

Target: `/repo/python/dp_accounting`, `/repo/learning/clustering`, `/repo/python/dp_auditorium`
(the python parts of the pinned commit). The code is read as text, never run.

## Layout

* `lean/Verif/Model/*`  - the model, function by function; each definition cites file and lines.
* `lean/Verif/Spec/*`   - small specifications that do not mention the model
  (differential privacy of a pair of measures, hockey-stick divergence, Renyi divergence,
  event histories, ...).
* `lean/Verif/Proofs/*` - helper lemmas.
* `lean/Verif/Props/*`  - the property theorems (`Cxx_...`) and, beside each, a non-vacuity example.

## Modelling decisions

* Floats are idealised as exact reals (`ℝ`), `math.inf` as an explicit extra value
  (`WithTop ℝ`, `EReal` or an `Option`), NaN is not modelled. Rounding errors of IEEE arithmetic, of FFT
  convolution and of scipy special functions are outside the model: `scipy.signal.fftconvolve`
  is modelled as exact convolution, `np.fft.rfft/irfft` self-convolution as exact circular convolution.
* Python ints are `ℤ`/`ℕ`, dicts are association lists with distinct keys (insertion order),
  lists and one-dimensional arrays are `List`.
* Exceptions are values (`Except Err α`); a method that mutates `self` before raising
  is a function `σ → σ × Except Err α`, so partial updates on exceptions are visible.
* `while` loops become fuelled or well-founded recursion; termination is a theorem where claimed.
* Random draws and third-party functions (brentq, classifiers, Vizier, noise samplers) are parameters;
  theorems quantify over everything they may return, or over their distribution (as measures).
* "A mechanism" is a pair of output distributions given by densities `p q : Ω → ℝ≥0∞` with respect to a
  σ-finite base measure on an arbitrary measurable space `Ω` (neighbouring inputs); this covers discrete and continuous
  mechanisms; adaptive composition is a jointly measurable family of such pairs.

## Plan per property

| id | model | proof |
|----|-------|-------|
| C01, C02 | `DpEventBuilder` state + `compose`/`build` as state transformers | induction over the event, the call list; denotation to lists of elementary events |
| C03 | generic attr-tree value type, `to/from_named_tuple` | mutual structural induction |
| C04-C10 | `PrivacyAccountant.compose` generic in `_maybe_compose`; RDP and PLD `_maybe_compose` as recursive functions on events | structural induction on the event (nested lists); invariants over histories; where the code violates the property, negation with witness and `_partial` |
| C11, C12 | `_get_delta_for_epsilon`, vectorised sweep, `_get_epsilon_for_delta` over lists of (loss, mass) | list induction with loop invariants |
| C13, C14, C16, C18 | dense/sparse PMFs, convolution over lists / dictionaries | evaluate both sides against an arbitrary test function |
| C15, C17 | `_truncate_tails`, `compute_self_convolve_bounds`, circular convolution | stochastic dominance over monotone test functions; Markov/Chernoff bound |
| C19, C20, C21, C23, C34 | PLD constructors | convexity of the hockey-stick curve in `exp(eps)`, summation by parts |
| C22 | `compose`/`self_compose` on PMFs vs adaptive composition of measures by Markov kernels | pointwise bound of the joint event by slices, stochastic order of PMFs above laws, induction on histories |
| C24, C57 | validation guards | case analysis |
| C25, C26, C28 | loops with function parameters | loop invariants, well-founded measure |
| C27 | `advanced_composition` loop with log-domain terms | identification with k-fold randomised response + C21/C22 |
| C29, C43 | log-domain helpers | algebra of exp/log |
| C30-C33 | privacy-loss classes over ℝ | order lemmas; Neyman-Pearson argument with lintegral |
| C35-C37 | `compute_delta`, `compute_epsilon`, sum of curves | pointwise AM-GM inequality, integrated; Bretagnolle-Huber |
| C38-C40 | RDP formulas | finite sums / Gaussian and exponential integrals |
| C41 | `ceil(log2(n+1))` vs dyadic tree nodes of complete subtrees | arithmetic of dyadic intervals |
| C42, C44 | recursive function on events; in-place loops | structural induction, loop invariants |
| C45-C47 | clustering parameters, LSH tree with arbitrary noise outcomes | invariants over tree levels |
| C48-C50 | SVT loop as state machine with noise inputs; output probabilities as integrals | refinement to per-sample recursion; change of variables |
| C51-C56 | runner, generators, testers as functions of oracle outputs | induction over trials; inequalities on measures |

Status and the theorem list are kept in `MANIFEST.json`; see also "Findings" below.

## What is modelled

Paths are relative to `python/dp_accounting/dp_accounting`, `python/dp_auditorium/dp_auditorium` and `learning/clustering`.

| code | model | status |
|------|-------|--------|
| `dp_event.py` | `Model/DpEvent`, `Model/NamedTuple` | all event classes; conversion to and from named tuples |
| `dp_event_builder.py` | `Model/Builder` | complete |
| `privacy_accountant.py` | `Model/Accountant` | complete, except for the texts of messages |
| `rdp/rdp_privacy_accountant.py` | `Model/{RdpAccountant,Rdp,RdpFrac,RdpConversion,RdpSampling,RepeatSelect,LogDomain}` | event traversal, all RDP formulas, conversions. `_compute_log_a_frac` (Poisson-sampled Gaussian at a fractional order) is a parameter `frac` of the theorems C39 and C59; C62 models it and removes the parameter. `_log_erfc` without `log_ndtr` is left out. Logged warnings and the returned optimal order in `get_*_and_optimal_order` other than as an index are left out |
| `pld/common.py` | `Model/{PldCommon,InverseMonotone,LogDomain,Validation}` | complete |
| `pld/pld_pmf.py` | `Model/{PldPmf,ConnectDots}` | complete |
| `pld/privacy_loss_distribution.py` | `Model/{Pld,AdditiveNoisePld,MixtureGaussian}` | complete |
| `pld/privacy_loss_mechanism.py` | `Model/{AdditiveNoise,AdditiveNoisePld,SmallestNoise,MixtureGaussian,MixtureInt}` | Laplace, Gaussian, discrete Laplace, discrete Gaussian, with `from_privacy_guarantee`; mixtures of Gaussians, with integer epsilons in `MixtureInt` |
| `pld/pld_privacy_accountant.py` | `Model/{PldAccountant,PldLibrary,InfiniteNoise}` | traversal for any PLD library; instantiated with the modelled functions; infinite multipliers of Gaussian and Laplace noise on floats with NaN (for Laplace noise the `IndexError` of the composition is attributed to the constructor), infinite parameters of mixtures not modelled |
| `pld/accountant.py` | `Model/{PldAdvanced,SmallestNoise}` | complete |
| `mechanism_calibration.py` | `Model/Calibration` | complete; `scipy.optimize.brentq` is arbitrary |
| `clustering/*` | `Model/{Clustering,ClusteringResult,ClusteringDemo}` | parameters, budget split, accounting, clipping, LSH, tree, coreset, final labels, metrics, data generator of the demo. Not: k-means, the printing in `clustering_demo.py` |
| `privacy_test_runner.py`, `generators/*` | `Model/{TestRunner,PostProcess,Generators,ConstantGenerator}` | complete; Vizier is an arbitrary policy, text generation is not |
| `testers/{divergence,hockey_stick,histogram}_tester.py`, `property_tester_utils.py` | `Model/Testers`, `Model/Validation` | everything except the training of the classifier (arbitrary function of the training samples) |
| `testers/mmd_tester.py` | `Model/MmdTester` | complete for vectors; matrices as samples are not modelled |
| `testers/renyi_tester.py` | `Model/RenyiTester` | everything except the training of the network (arbitrary function of the training samples) |
| `mechanisms/{sparse_vector_technique,noisy_max}.py` | `Model/{Svt,NoisyMax}` | complete; draws of the generator are parameters |
| `mechanisms/{mean,mechanisms_utils}.py` | `Model/{MeanMechanism,OneStepBudget}` | complete, for real counts and `delta` in [0, 1.25] |
| `mechanisms/pipeline_dp/aggregation.py` | `Model/Aggregation` | complete; the PipelineDP library is an arbitrary function of its arguments and its randomness |
| `configs/*` | `Model/{Validation,Svt,TestRunner}` | the checks |

Not modelled at all: examples, setup scripts, anything in other languages than python.

## Specifications

* `Spec/Privacy`, `Spec/Discrete`: (epsilon, delta)-indistinguishability of two measures, hockey-stick curve `CurveValid`/`IsHs`.
* `Spec/Renyi`: Renyi divergence of probability measures, as the logarithm of an integral of densities.
* `Spec/LossLaw`, `Spec/LossDist`, `Spec/PldCovers`, `Spec/LossOf`: what a privacy loss distribution stands for.
* `Spec/History`, `Spec/PldHistory`, `Spec/PldEvents`: histories of calls, adaptive composition by Markov kernels.
* `Spec/EventMeaning`: `EventPair nr e` is the set of pairs of output laws a mechanism described by the event `e` can have on neighbouring
  data sets. It is defined by recursion on the event, from the mechanisms themselves (noise added to a query of bounded sensitivity,
  sampling, the best of a random number of runs), without mentioning the accountants. The end-to-end theorems C59 (RDP) and C61 (PLD) say that
  what `get_epsilon`/`get_delta` return after any accepted history of `compose` calls is a true guarantee for every pair of this kind.
* `Spec/Mechanisms`, `Spec/AdditiveNoise`, `Spec/SampledNoise`, `Spec/MixtureGaussian`: vector queries with Laplace, Gaussian and discrete noise,
  sampling, random sensitivity.
* `Spec/RdpFrac`: divergence of the sampled Gaussian and the slack of the series. `Spec/RdpNear`: how far the series may lie above the divergence. `Spec/RdpSelectSlack`: what repetition and selection make of that slack. `Spec/RepeatSelect`: law of the best of a random number of runs. `Spec/Aggregation`: what the PipelineDP engine promises. `Spec/Svt`, `Spec/NoisyMax`, `Spec/MeanMechanism`, `Spec/Clustering`, `Spec/ClusteringMech`, `Spec/ClusteringResult`,
  `Spec/Testers`, `Spec/TestRunner`, `Spec/Generators`, `Spec/Validation`: what the other components promise.
* `Spec/Milder`, `Spec/PldMilder`: events with more noise or less sampling. `Spec/PldTight`: events for which the PLD accountant is exact up to the
  discretization (C84, C85, C86, C87). `RenyiTight` in `Spec/EventMeaning`: events for which the RDP accountant is exact (C88). `Spec/ClusteringDemo`: uniform distribution on a ball, clipping to a ball, sizes of clusters (C89, C90, C91). `Spec/PldValid`, `Spec/RdpValid`: events that an accountant supports, with the ranges of their
  parameters.
* `Spec/FalseAlarm`, `Spec/Sampling`: a privacy test as an event in the space of the random bits of all calls of the mechanism.
* `Spec/MeasurableGenerator`: generators that make countably many choices, each for a measurable set of estimates.
* `Spec/Polygon`: the exact privacy curve of a pair of laws and the polygon through its values at the multiples of the interval.

## Findings: where the code does not have the property

Each entry has a theorem that proves the disagreement for the model; the corresponding property is then `partial`.

| property | what happens | theorem |
|---|---|---|
| C05 | `RdpAccountant.supports` can raise `ZeroDivisionError` | `C05_rdp_supports_raises` |
| C06 | an exception inside `RepeatAndSelectDpEvent` leaves the RDP accountant with less loss than before | `C06_rdp_exception_loses_loss` |
| C07 | `PLDAccountant` charges a randomized response once, whatever its count | `C07_pld_randomized_response_count_ignored` |
| C10 | negative counts inside an event decrease the recorded loss | `C10_negative_count_decreases` |
| C12 | `get_epsilon_for_delta` is not the smallest epsilon if the top loss has no mass | `C12_zero_mass_not_smallest` |
| C17 | truncated self-convolution of an optimistic dense PMF may exceed the exact delta | `C17_optimistic_not_lower_bound` |
| C22, C24 | truncation can push `infinity_mass` over one; `validate_composable` rejects pairs `compose` accepts | see `Props/AdaptiveComposition`, `Props/Pld` |
| C25 | discrete `inverse_monotone_function` misses a feasible end; a non-positive initial guess diverges | `Props/InverseMonotone` |
| C26 | the documented tolerance of discrete calibration is false | `C26_discrete_not_optimal` |
| C29 | `log_a_times_exp_b_plus_c` gives NaN or `-inf` instead of raising | `Props/LogDomain` |
| C31 | the delta of a sub-sampled mechanism is wrong near `log(1-q)`, where `math.isclose` replaces the loss by its limit. The hypotheses `OffGrid` in C32 and C60 exclude exactly this. The error is at most `1e-9 \|log(1-q)\|` (`C31_*_near`), which is carried through to PLDs (`C32_*_near`) and the accountant (slack in C61) | `C31_isclose_wrong` |
| C34 | bucketing of a PMF over outcomes diverges if a cdf stays below one | `C34_diverges_with_infinite_mass` |
| C36 | `compute_epsilon` with `delta = 0` and no orders answers 0 | `Props/RdpConversion` |
| C42 | below a sampling event, the count of an `int`-noise Gaussian, or everything after it in a composition, is ignored | `C42_int_count_ignored`, `C42_int_rest_ignored`, `C42_nonprivate_hidden_by_int` |
| C44 | the RDP of Poisson repeat-and-select is not monotone in the order | `C44_poisson_monotone_violated` |
| C45 | an empty data set raises | `C45_clip_empty_raises` |
| C47 | the counts get discrete Laplace noise but are accounted as continuous Laplace noise, which has a smaller delta, so the budget check passes for a coreset that does not meet the budget; on an empty data set every run raises, so presence of a single record is visible | `C47_accounting_violated`, `C47_empty_violated` |
| C49, C54 | SVT on sums under add/remove needs 0 between the clipping bounds | `C49_svt1_violated`, `C54_sum_violated` |
| C49 | the documentation of SVT4 calls its guarantee "stronger than the one claimed"; it is weaker, and SVT4 is not private for the epsilon it is configured with | `C49_svt4_sharp` |
| C52 | the label of a generated example may equal the number of classes; the pipeline generator removes the records of one first entry, while the mechanism takes the second entry as privacy id | `C52_labels_violated`, `C52_pipeline_dp_violated` |
| C53 | a result of exactly zero is not reported to Vizier | `C53_zero_violated` |
| C55 | no error for an empty list of samples | `C55_split_violated` |
| C57 | NaN is accepted by the parameter classes | `C57_dp_parameters_violated`, `C57_testers_violated` |
| C65 | the hockey-stick tester with unequal sample sizes, or sizes at which the label proportion is rounded, can overshoot | `C65_sizes_violated`, `C65_rounding_violated` |
| C67 | the MMD tester accepts a negative bandwidth, for which the kernel is not bounded by one, and then rejects private mechanisms far more often than the failure probability | `C67_bandwidth_violated` |
| C62 | at a fractional order the series for the Poisson-sampled Gaussian stops early and returns a value (very slightly) below the true divergence; the error is at most `log(1+2^(⌈α⌉+1) e^-30)/(α-1)` | `C62_series_below_violated`, `C62_series_bound_partial` |
| C71 | the "private" mean mechanism adds no noise when the noisy count is negative; its Gaussian version is not private for a large epsilon | `C71_negative_count_violated`, `C71_large_epsilon_violated` |
| C68 | the Renyi tester does not check the order when it tests pure differential privacy; with a negative order the threshold is negative and a constant mechanism is always rejected | `C68_alpha_violated` |
| C69 | `DiscreteGaussianPrivacyLoss.from_privacy_guarantee` raises for large epsilon and sensitivity, because the search constructs mechanisms whose noise range is shorter than the sensitivity | `C69_discrete_gaussian_violated` |
| C73 | points with a negative true label are left out of the clustering metrics | `C73_negative_violated` |
| C70 | `MixtureGaussianPrivacyLoss.get_delta_for_epsilon` for a single epsilon can report a delta far below the exact one (at most 0.03 instead of at least 0.4): the search interval is computed from the smallest and the largest sensitivity and need not contain the cut-off | `C70_delta_violated` |
| C70 | any approximation of the cut-off makes delta smaller, never larger, so the deltas documented as pessimistic are slightly under-estimated | `C70_never_above` |
| C70 | an epsilon within `np.isclose` of the limit of the privacy loss raises `ValueError` (minimum of an empty array) | `C70_raises` |
| C70 | `MixtureGaussianPrivacyLoss.get_delta_for_epsilon` with a python `int` stores the cut-offs in an array of integers, truncated: `get_delta_for_epsilon(1)` is 0 (or raises, depending on what NumPy makes of an infinite number in such an array) where `get_delta_for_epsilon(1.0)` and the exact value are at least 0.98 | `C70_int_epsilon_violated` |
| C75 | pessimistic privacy buckets for mixtures of Gaussians under-report delta if three or more sensitivities are possible: sensitivities 1, 10, 100 give at most 0.03 for epsilon 20, the true delta is at least 0.9. Same cause as the first entry for C70 | `C75_buckets_violated` |
| C75 | the optimistic estimate can be above a valid delta if the noise is small compared with the absolute precision `1e-6` of the search (1/3 instead of 1/8) | `C75_optimistic_violated` |
| C75 | privacy buckets raise `ValueError` for admissible arguments if a multiple of the discretization is close to the limit of the privacy loss | `C75_buckets_raises` |
| C76 | the failure probability reported with a violation is not divided by the number of trials (nor by the two directions): a mechanism that ignores its data is accused with probability close to one if there are enough trials | `C76_trials_violated` |
| C78 | composing an optimistic PLD can lower the reported delta: rounding down leaves losses that describe no pair of distributions | `C78_optimistic_violated` |
| C79 | `get_epsilon` of `RdpAccountant` can fall from infinity to 0: after a `NonPrivateDpEvent`, a `compose` call with a `RepeatAndSelectDpEvent` that raises `ZeroDivisionError` leaves the array of the inner accounting behind | `C79_raise_violated` |
| C79, C62 | RDP values can be negative: at a fractional order, with little sampling and much noise, the truncated series is below one and its logarithm negative. Composing enough such steps brings the value at that order below zero, whatever finite value was there before, and from then on `get_epsilon` and `get_delta` return 0. So for every (epsilon, delta) with delta below 1 there is a history reported as costing nothing that does not satisfy it. (The number of steps is astronomically large for the witness, sampling probability `e^-80` and noise multiplier `e^80`.) | `C79_negative_violated`, `C62_reports_nothing_violated` |
| C80 | with a fixed `truncation_bound` the delta of the discrete Gaussian mechanism grows with `sigma` at large epsilons: more noise puts more mass on the ends of the truncated support; also with the default truncation, where these deltas are tiny | `C80_discrete_gaussian_violated`, `C80_discrete_gaussian_default_violated` |
| C81 | a Gaussian with an infinite noise multiplier on a Poisson sample gets an infinite RDP value at every fractional order (`inf / inf` in the series), so that it reports more than finite noise; without sampling the value is 0 | `C81_infinite_noise_violated` |
| C81 | sampling without replacement: the RDP value of a sample just below the whole data set is above the value of the whole data set (the bound for samples is not cut off at the value without sampling); with noise multiplier 1 at order 2, 99 of 100 records report more than 1 and 100 of 100 report 1 | `C81_whole_sample_violated` |
| C82 | `supports` returns true and `compose` raises after the event was recorded in the ledger: `PLDAccountant` with `RandomizedResponseDpEvent(1, k)`, although `dp_event.py:254` documents that the noise parameter can be any value in `[0, 1]` | `C82_pld_rr_uniform_violated` |
| C82 | same, `ZeroDivisionError`: `PLDAccountant` with `Composed([SelfComposed(Gaussian, 0)])`; `RdpAccountant` with a Laplace query without noise, or a sample without replacement of a Gaussian query without noise (Gaussian and Poisson-sampled queries without noise are accepted) | `C82_pld_zero_count_violated`, `C82_rdp_laplace_zero_violated`, `C82_rdp_wor_zero_violated` |
| C82 | same, `ValueError` (`log1p(-1)`): `RdpAccountant` with a sample without replacement of a Gaussian query with an infinite noise multiplier; the whole data set with the same noise is accepted | `C82_rdp_wor_infinite_violated` |
| C82 | same, `PLDAccountant` with an infinite noise multiplier: Gaussian noise, alone or on a Poisson sample, raises `ValueError` (`math.ceil` of `inf / inf`), Laplace noise `IndexError` (all masses are NaN after `0 * inf`, `_truncate_tails` cuts all of them and then writes to the first) | `C82_pld_gaussian_infinite_violated`, `C82_pld_laplace_nan`, `C82_pld_laplace_infinite_violated` |
| C82 | same, `ValueError` (deltas not in non-increasing order): `PLDAccountant` with a Poisson-sampled Laplace query of little noise when `math.isclose` takes a grid point for `log(1 - q)`, e.g. `PoissonSampled(0.3934693405, Laplace(0.02))` with the default discretization | `C82_pld_isclose_violated` |
| C83 | "smaller value results in more accurate estimates" (every PLD constructor) fails when the smaller interval does not divide the larger one: for privacy parameters `(eps, delta)` the interval `eps` is exact, every smaller interval above `eps / 2` gives a larger delta | `C83_smaller_interval_violated` |
| C88 | tree aggregation without noise over no steps is accepted (the check of `step_counts` comes after the return for zero noise) and reported as infinite loss, although nothing is released | `C88_empty_tree_violated` |
| C88 | a sample of 99 of 100 records without replacement is reported with more than a mechanism on such a sample can lose (its divergence is at most that on all records) | `C88_without_replacement_violated` |
| C88 | `RepeatAndSelect` of an event that releases nothing is reported with a positive loss (`log(mean)/(order-1)` for the Poisson distribution) | `C88_select_violated` |
| C89 | the spread of the synthetic clusters is `sqrt(radius) / (cluster_ratio * sqrt(dim))`, so it is not a fixed fraction of the radius: the ratio of distances between and within clusters is not `cluster_ratio` unless the radius is one. `clustering_demo.py` prints `radius / cluster_ratio / sqrt(dim)` as the variance | `C89_scale_violated` |
| C91 | `get_wrong_one_step_gd_budget` is a quarter of the Rényi divergence when a record is replaced (as its docstring says) | `C91_replace_violated` |
| C92 | `AggregationMechanism` raises `ValueError` when two runs of PipelineDP select different numbers of partitions (rows of different lengths in `np.array`) | `C92_ragged_violated`, `C92_returns_iff` |
| C92 | an audit of PipelineDP with `PipelineDpDatasetGenerator` can find fault with code that keeps its budget: the generator takes the first entry of a record as privacy id, the mechanism the second | `C92_audit_violated` |

## Trusted base

* Lean 4.33.0 kernel; every theorem depends on the axioms `propext`, `Classical.choice`, `Quot.sound` only (those used by Mathlib); there are
  no axioms, `sorry`, `native_decide` or `bv_decide` in the development.
* The reading of the python code into the model (cited definition by definition).
* The idealisations listed above: exact reals for floats, exact FFT, exact `scipy` special functions and distribution functions.
* The definitions in `Spec/*`, which say what the properties mean.

## Testing the theorems

`tools/mutate.py` copies the project to a scratch directory, applies one edit to a model definition and rebuilds; `seeded/LOG.jsonl` records the
outcome of every attempt.
