import Verif.Model.Testers
import Verif.Model.Validation
import Mathlib.Analysis.Complex.Trigonometric

/-!
# Model of the Rényi tester (`dp_auditorium/testers/renyi_tester.py` and `divergence_tester.py`)

The neural network is a parameter: what `fit` makes of the training samples is an arbitrary function of them. Numbers are real; overflow
of the exponentials is not modelled.
-/

namespace Verif

namespace Testers

open Classical

/-- A `PrivacyProperty`, `configs/privacy_property.py:48-74`; its `__post_init__` makes sure that exactly one of the three is given. -/
inductive TestedProperty where
  | pureDp (epsilon : ℝ)
  | renyiDp (epsilon alpha : ℝ)
  | approximateDp (epsilon delta : ℝ)

/-- The attributes of a `RenyiPropertyTester`, `renyi_tester.py:162-190`. `network xs ys` is the base model after training on `xs` and
`ys`, without the activation of lines 178-181. -/
structure RenyiTester (S : Type) where
  threshold : ℝ
  alpha : ℝ
  bound : ℝ
  network : List S → List S → S → ℝ

/-- `RenyiPropertyTester.__init__`, `renyi_tester.py:131-189`, for finite parameters. -/
noncomputable def renyiTester {S : Type} (property : TestedProperty) (configAlpha learningRate epochs batchSize bound : ℝ)
    (network : List S → List S → S → ℝ) : Except Err (RenyiTester S) :=
  match property with
  | .renyiDp epsilon alpha => do
    Validation.renyiDp (some (.num epsilon)) (some (.num alpha))
    if configAlpha ≠ alpha then .error .valueError
    else do
      Validation.trainingConfig (some (.num learningRate)) (some (.num epochs)) (some (.num batchSize)) (some (.num bound))
      .ok ⟨epsilon, alpha, bound, network⟩
  | .pureDp epsilon => do
    Validation.pureDp (some (.num epsilon))
    Validation.trainingConfig (some (.num learningRate)) (some (.num epochs)) (some (.num batchSize)) (some (.num bound))
    .ok ⟨min epsilon (2 * configAlpha * epsilon ^ 2), configAlpha, bound, network⟩
  | .approximateDp _ _ => .error .valueError

namespace RenyiTester

variable {S : Type} (t : RenyiTester S)

/-- The trained model with the final activation `scaled_tanh`, `renyi_tester.py:178-181` and `208-222`. -/
noncomputable def output (train1 train2 : List S) (x : S) : ℝ := t.bound * Real.tanh (t.network train1 train2 x)

/-- `tf.math.reduce_mean(tf.exp(c * g))` on an array of samples. `testers/renyi_tester.py:113-114`. -/
noncomputable def meanExp (c : ℝ) (g : S → ℝ) (samples : List S) : ℝ := (samples.map fun x => Real.exp (c * g x)).sum / samples.length

/-- `RenyiModel.call`, `renyi_tester.py:91-118`. -/
noncomputable def divergence (g : S → ℝ) (xp xq : List S) : ℝ :=
  t.alpha / (t.alpha - 1) * Real.log (meanExp (t.alpha - 1) g xp) - Real.log (meanExp t.alpha g xq)

/-- The number `gamma` of `_compute_error_from_samples`, `renyi_tester.py:54-66`. -/
noncomputable def gamma (numSamples : ℕ) (fp bound alpha : ℝ) : ℝ :=
  max √(3 * Real.log (2 / fp) * Real.exp (2 * (alpha - 1) * bound) / numSamples)
    √(2 * Real.log (2 / fp) * Real.exp (2 * alpha * bound) / numSamples)

/-- `_compute_error_from_samples`, `renyi_tester.py:39-68`, for a nonzero failure probability. Outside `[0, 2]` the roots, and for
`gamma` above one the last logarithm, are of negative numbers. -/
noncomputable def errorFromSamples (numSamples : ℕ) (fp bound alpha : ℝ) : PyFloat :=
  if fp < 0 ∨ 2 < fp then .nan
  else
    let γ := gamma numSamples fp bound alpha
    if γ < 1 then .num (Real.log ((1 + γ) / (1 - γ)) : ℝ)
    else if γ = 1 then .num ⊤
    else .nan

/-- `estimate_lower_bound`, `divergence_tester.py:87-118`, with the two methods `_get_optimized_divergence_estimation_model` and
`_compute_divergence_on_samples`, `renyi_tester.py:208-246`. `fit` raises `ValueError` for an empty array and for arrays of different
lengths; `self.alpha / (self.alpha - 1)` and `2 / failure_probability` are quotients of Python numbers. -/
noncomputable def estimateLowerBound (samples1 samples2 : List S) (fp : ℝ) : Except Err PyFloat :=
  match split samples1 with
  | .error e => .error e
  | .ok (train1, test1) =>
    match split samples2 with
    | .error e => .error e
    | .ok (train2, test2) =>
      if train1.length ≠ train2.length ∨ train1.length = 0 then .error .valueError
      else if t.alpha = 1 then .error .zeroDivisionError
      else if fp = 0 then .error .zeroDivisionError
      else
        let d := t.divergence (t.output train1 train2) test1 test2
        let n := min test1.length test2.length
        .ok (match errorFromSamples n fp t.bound t.alpha with
          | .nan => .nan
          | .num e => .num ((d : EReal) - e))

/-- `reject_property`, `divergence_tester.py:120-122`, with `_test_threshold`, `renyi_tester.py:191-193`. -/
def rejectProperty (lowerBound : PyFloat) : Prop := PyFloat.lt (.num t.threshold) lowerBound

end RenyiTester
end Testers
end Verif
