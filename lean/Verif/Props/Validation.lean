import Verif.Proofs.Validation

/-!
# C57: the parameter checks
-/

namespace Verif.Props

open Spec Validation PyFloat

/-- **C57 (`DifferentialPrivacyParameters`), partial: numbers other than NaN.** `epsilon` has to be nonnegative and `delta` between zero
and one. (The message says that `epsilon` should be positive, but zero is accepted.) -/
theorem C57_dp_parameters_partial (epsilon delta : EReal) :
    Accepts (dpParameters (.num epsilon) (.num delta)) (0 ≤ epsilon ∧ 0 ≤ delta ∧ delta ≤ 1) := by
  classical
  exact Accepts.congr (Accepts.ite (Accepts.ite (Accepts.ok ()))) (by simp only [PyFloat.lt]; push Not; tauto)

/-- **C57 (`DifferentialPrivacyParameters`), violated by the code for NaN**: NaN, which is not between zero and one, is accepted. -/
theorem C57_dp_parameters_violated : dpParameters .nan .nan = .ok () := by
  simp [dpParameters, PyFloat.lt]

/-- **C57 (`PrivacyProperty`)**: exactly one of the three properties has to be given. -/
theorem C57_privacy_property {P R A : Type} (p : Option P) (r : Option R) (a : Option A) :
    Accepts (privacyProperty p r a) (ExactlyOne (p ≠ none) (r ≠ none) (a ≠ none)) := by
  cases p <;> cases r <;> cases a <;> simp [Accepts, privacyProperty, ExactlyOne]

/-- **C57 (`TreeParam`)**: nodes of the tree have at least one point, branching ones at least as many as others. -/
theorem C57_tree_param (minBranching minNode maxDepth : ℤ) :
    Accepts (treeParam minBranching minNode maxDepth) (1 ≤ minNode ∧ minNode ≤ minBranching) := by
  exact Accepts.congr (Accepts.ite (Accepts.ite (Accepts.ok ()))) (by push Not; tauto)

/-- **C57 (approximate DP of a tester)**, for numbers other than NaN: `epsilon` has to be given and positive, `delta` has to be given and
nonnegative. -/
theorem C57_approximate_dp_partial {epsilon delta : Option PyFloat} (h1 : NotNan epsilon) (h2 : NotNan delta) :
    Accepts (approximateDp epsilon delta) (GivenPositive epsilon ∧ ∃ d : EReal, delta = some (.num d) ∧ 0 ≤ d) := by
  refine Accepts.bind (positive_accepts h1) fun _ => ?_
  cases delta with
  | none => simp [Accepts]
  | some d =>
    cases d with
    | nan => exact absurd rfl h2
    | num d =>
      by_cases h : d < 0
      · simp [Accepts, PyFloat.lt, h]
      · simp [Accepts, PyFloat.lt, h, not_lt.1 h]

/-- **C57 (pure DP of a tester)**, for numbers other than NaN: `epsilon` has to be given and positive. -/
theorem C57_pure_dp_partial {epsilon : Option PyFloat} (h1 : NotNan epsilon) : Accepts (pureDp epsilon) (GivenPositive epsilon) :=
  positive_accepts h1

/-- **C57 (Renyi DP of a tester)**, for numbers other than NaN: `epsilon` has to be given and positive, `alpha` has to be given and
greater than one. -/
theorem C57_renyi_dp_partial {epsilon alpha : Option PyFloat} (h1 : NotNan epsilon) (h2 : NotNan alpha) :
    Accepts (renyiDp epsilon alpha) (GivenPositive epsilon ∧ ∃ a : EReal, alpha = some (.num a) ∧ 1 < a) := by
  refine Accepts.bind (positive_accepts h1) fun _ => ?_
  cases alpha with
  | none => simp [Accepts, falsy]
  | some a =>
    cases a with
    | nan => exact absurd rfl h2
    | num a =>
      by_cases h0 : a = 0
      · simp [Accepts, falsy, h0]
      · by_cases h : a ≤ 1
        · simp [Accepts, falsy, h0, PyFloat.le, h]
        · simp [Accepts, falsy, h0, PyFloat.le, h, lt_of_not_ge h]

/-- **C57 (training configuration)**, for numbers other than NaN: all four numbers have to be given and positive. -/
theorem C57_training_config_partial {learningRate epochs batchSize bound : Option PyFloat} (h1 : NotNan learningRate) (h2 : NotNan epochs)
    (h3 : NotNan batchSize) (h4 : NotNan bound) : Accepts (trainingConfig learningRate epochs batchSize bound)
      (GivenPositive learningRate ∧ GivenPositive epochs ∧ GivenPositive batchSize ∧ GivenPositive bound) :=
  Accepts.bind (positive_accepts h1) fun _ => Accepts.bind (positive_accepts h2) fun _ => Accepts.bind (positive_accepts h3) fun _ =>
    positive_accepts h4

/-- **C57 (testers), violated by the code for NaN**: NaN passes all checks of the testers. -/
theorem C57_testers_violated : approximateDp (some .nan) (some .nan) = .ok () ∧ pureDp (some .nan) = .ok () ∧
    renyiDp (some .nan) (some .nan) = .ok () ∧ trainingConfig (some .nan) (some .nan) (some .nan) (some .nan) = .ok () := by
  have h : positive (some .nan) = .ok () := by simp [positive, falsy, PyFloat.le]
  refine ⟨?_, h, ?_, ?_⟩
  · simp [approximateDp, epsilonParameter, h, PyFloat.lt, Bind.bind, Except.bind]
  · simp [renyiDp, epsilonParameter, h, falsy, PyFloat.le, Bind.bind, Except.bind]
  · simp [trainingConfig, h, Bind.bind, Except.bind]

/-- **C57 (Laplace)**: parameter and sensitivity have to be positive, the sampling probability in `(0, 1]`. -/
theorem C57_laplace (b s q : ℝ) (adj : Adj) : Accepts (Mech.mkLaplace b s q adj) (0 < b ∧ 0 < s ∧ 0 < q ∧ q ≤ 1) := by
  classical
  exact Accepts.congr (Accepts.ite (Accepts.map (checkBase_accepts s q))) (by push Not; tauto)

/-- **C57 (Gaussian)**: likewise for standard deviation and sensitivity, and the logarithm of the truncated mass must not be positive. -/
theorem C57_gaussian (σ s logBound q : ℝ) (adj : Adj) :
    Accepts (Mech.mkGaussian σ s logBound q adj) (0 < σ ∧ logBound ≤ 0 ∧ 0 < s ∧ 0 < q ∧ q ≤ 1) := by
  classical
  exact Accepts.congr (Accepts.ite (Accepts.ite (Accepts.map (checkBase_accepts s q)))) (by push Not; tauto)

/-- **C57 (discrete Laplace)**, for integer sensitivities: as for Laplace. -/
theorem C57_discrete_laplace (a : ℝ) (s : ℤ) (q : ℝ) (adj : Adj) :
    Accepts (Mech.mkDiscreteLaplace a s q adj) (0 < a ∧ 0 < s ∧ 0 < q ∧ q ≤ 1) := by
  classical
  exact Accepts.congr (Accepts.ite (Accepts.map (checkBase_accepts s q))) (by push Not; simp)

/-- **C57 (discrete Gaussian)**, for integer sensitivities: likewise, and the truncation bound must be at least half the sensitivity. -/
theorem C57_discrete_gaussian (σ : ℝ) (s : ℤ) (bound : Option ℤ) (q : ℝ) (adj : Adj) :
    Accepts (Mech.mkDiscreteGaussian σ s bound q adj)
      (0 < σ ∧ s ≤ 2 * (match bound with | none => ⌈11.6 * σ⌉ | some t => t) ∧ 0 < s ∧ 0 < q ∧ q ≤ 1) := by
  classical
  refine Accepts.congr (Accepts.ite (Accepts.ite (Accepts.map (checkBase_accepts s q)))) ?_
  cases bound <;> (simp only [Mech.dgBound]; push Not; simp)

/-- Parameters that are accepted and parameters that are not. -/
example : (∃ m, Mech.mkLaplace 1 2 0.5 .add = .ok m) ∧ Mech.mkLaplace 1 0 0.5 .add = .error .valueError :=
  ⟨(C57_laplace 1 2 0.5 .add).1 (by norm_num), (C57_laplace 1 0 0.5 .add).2 (by norm_num)⟩

end Verif.Props
