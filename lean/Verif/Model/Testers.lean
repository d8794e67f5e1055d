import Verif.Model.Builder
import Mathlib.Analysis.SpecialFunctions.Log.Basic
import Mathlib.Analysis.SpecialFunctions.Pow.Real

/-!
# Model of the histogram tester and of the hockey-stick tester (`dp_auditorium/testers/`)

Arrays of samples are lists. `failure_probability` and the sizes are such that numpy's logarithms and quotients are real numbers: the
model raises an exception for an empty array (as the code does, see below) and for a failure probability of zero.
-/

namespace Verif

namespace Testers

open Classical

/-- `split_train_test_samples`, `property_tester_utils.py:24-48`. -/
def split {S : Type} (samples : List S) : Except Err (List S × List S) :=
  let n := samples.length
  if n = 1 then .error .valueError else .ok (samples.take (n / 2), samples.drop (n / 2))

/-- `_estimate_discrete_distribution`, `histogram_tester.py:34-63`. -/
noncomputable def estimateDiscrete (universeSize : ℤ) (samples : List ℤ) : Except Err (List ℝ) :=
  if samples.length = 0 then .error .valueError
  else if (∃ s ∈ samples, universeSize ≤ s) ∨ ∃ s ∈ samples, s < 0 then .error .valueError
  else .ok ((List.range universeSize.toNat).map fun i : ℕ => (samples.count (i : ℤ) : ℝ) / samples.length)

/-- `np.clip(x, lo, hi)`. `testers/histogram_tester.py:89`. -/
noncomputable def clip (lo hi x : ℝ) : ℝ := min (max x lo) hi

/-- The range used by `np.histogram`: an empty range is widened. `testers/histogram_tester.py:92-96`. -/
noncomputable def outerEdges (lo hi : ℝ) : ℝ × ℝ := if lo = hi then (lo - 0.5, hi + 0.5) else (lo, hi)

/-- The `j`-th of the `k + 1` edges of `np.histogram`. -/
noncomputable def edge (lo hi : ℝ) (k j : ℕ) : ℝ := (outerEdges lo hi).1 + j * (((outerEdges lo hi).2 - (outerEdges lo hi).1) / k)

/-- Whether `np.histogram` counts `x` in the `j`-th of `k` bins; the last bin includes its right edge. `testers/histogram_tester.py:92-96`. -/
def inBin (lo hi : ℝ) (k j : ℕ) (x : ℝ) : Prop :=
  edge lo hi k j ≤ x ∧ (x < edge lo hi k (j + 1) ∨ j + 1 = k ∧ x = edge lo hi k (j + 1))

/-- `_estimate_continuous_distribution`, `histogram_tester.py:66-97`. `np.histogram` raises for a nonpositive number of bins and for
`max_value < min_value`. -/
noncomputable def estimateContinuous (universeSize : ℤ) (lo hi : ℝ) (samples : List ℝ) : Except Err (List ℝ) :=
  if samples.length = 0 then .error .valueError
  else if universeSize < 1 then .error .valueError
  else if hi < lo then .error .valueError
  else .ok ((List.range universeSize.toNat).map fun j =>
    (((samples.map (clip lo hi)).countP fun x => inBin lo hi universeSize.toNat j x : ℕ) : ℝ) / samples.length)

/-- The attributes of a `HistogramTester`, `histogram_tester.py:115-144`. -/
structure HistogramTester (S : Type) where
  estimate : List S → Except Err (List ℝ)
  epsilon : ℝ
  delta : ℝ
  useOriginal : Bool
  histogramSize : ℤ

/-- `HistogramTester.__init__` for a discrete mechanism (the checks are modelled in `Model/Validation.lean`). `testers/histogram_tester.py:115-144`. -/
noncomputable def discreteTester (histogramSize : ℤ) (epsilon delta : ℝ) (useOriginal : Bool) : HistogramTester ℤ :=
  ⟨estimateDiscrete histogramSize, epsilon, delta, useOriginal, histogramSize⟩

/-- `HistogramTester.__init__` for a continuous mechanism. `testers/histogram_tester.py:115-144`. -/
noncomputable def continuousTester (histogramSize : ℤ) (lo hi epsilon delta : ℝ) (useOriginal : Bool) : HistogramTester ℝ :=
  ⟨estimateContinuous histogramSize lo hi, epsilon, delta, useOriginal, histogramSize⟩

namespace HistogramTester

variable {S : Type} (t : HistogramTester S)

/-- `_get_error_tolerance`, lines 151-180. -/
noncomputable def errorTolerance (numSamples : ℕ) (p1 p2 : List ℝ) (fp : ℝ) : ℝ :=
  let term1 :=
    if t.useOriginal then 2 * (1 + Real.exp t.epsilon) * √(t.histogramSize / numSamples)
    else 2 / √numSamples * (p1.map fun p => √p).sum + 2 * Real.exp t.epsilon / √numSamples * (p2.map fun p => √p).sum
  let term2 := 6 * (1 + Real.exp t.epsilon) * √(Real.log (4 / fp) / (2 * numSamples))
  term1 + term2

/-- `estimate_lower_bound`, lines 182-198. -/
noncomputable def estimateLowerBound (samples1 samples2 : List S) (fp : ℝ) : Except Err ℝ :=
  let numSamples := min samples1.length samples2.length
  match t.estimate samples1 with
  | .error e => .error e
  | .ok p1 =>
    match t.estimate samples2 with
    | .error e => .error e
    | .ok p2 =>
      let perOutcome := List.zipWith (fun a b => a - Real.exp t.epsilon * b) p1 p2
      let estimatedDelta := (perOutcome.filter fun d => 0 < d).sum
      if fp = 0 then .error .zeroDivisionError
      else .ok (estimatedDelta - t.errorTolerance numSamples p1 p2 fp)

/-- `reject_property`, lines 200-202. -/
def rejectProperty (lowerBound : ℝ) : Prop := t.delta ≤ lowerBound

end HistogramTester

/-- The attributes of a `HockeyStickPropertyTester`, `hockey_stick_tester.py:96-130`. `train` stands for cloning, compiling and fitting
the Keras model on the training samples, `_get_optimized_divergence_estimation_model`, lines 184-211, including the random numbers
used; the result is the sign of the logit (`BinaryAccuracy(threshold=0.0)`): true for label 1. -/
structure HockeyStickTester (S : Type) where
  epsilon : ℝ
  delta : ℝ
  train : List S → List S → S → Bool

namespace HockeyStickTester

variable {S : Type} (t : HockeyStickTester S)

/-- `sample_cutoff_fraction`, line 164. -/
noncomputable def cutoff : ℝ := 1 / (Real.exp t.epsilon + 1)

/-- `_generate_inputs_to_model`, lines 141-182: features with labels; all samples have the same rank. -/
noncomputable def inputs (samples1 samples2 : List S) : List (S × Bool) :=
  (samples1.take ⌊t.cutoff * samples1.length⌋₊).map (fun s => (s, false)) ++
    (samples2.drop ⌊t.cutoff * samples2.length⌋₊).map (fun s => (s, true))

/-- `model.evaluate(features, labels, ...)[1]`: the fraction of correct answers. -/
noncomputable def accuracy (classify : S → Bool) (examples : List (S × Bool)) : ℝ :=
  (examples.countP fun e => classify e.1 = e.2 : ℕ) / (examples.length : ℝ)

/-- `_get_accuracy_confidence_bound`, lines 53-70. -/
noncomputable def confidenceBound (rangeBound : ℝ) (n : ℕ) (confidence : ℝ) : ℝ :=
  rangeBound * √(Real.log (1 / (1 - confidence)) / 2 / n)

/-- `_compute_divergence_on_samples`, lines 213-243; `_model_coordinate_bound` is one, line 120. Keras raises `ValueError` for empty
data. -/
noncomputable def divergenceOnSamples (classify : S → Bool) (samples1 samples2 : List S) (fp : ℝ) : Except Err ℝ :=
  let examples := t.inputs samples1 samples2
  if examples.length = 0 then .error .valueError
  else if fp = 0 then .error .zeroDivisionError
  else
    let acc := accuracy classify examples - confidenceBound 1 (min samples1.length samples2.length) (1 - fp)
    .ok (acc * (1 + Real.exp t.epsilon) - Real.exp t.epsilon)

/-- `DivergencePropertyTester.estimate_lower_bound`, `divergence_tester.py:87-118`. -/
noncomputable def estimateLowerBound (samples1 samples2 : List S) (fp : ℝ) : Except Err ℝ :=
  match split samples1 with
  | .error e => .error e
  | .ok (train1, test1) =>
    match split samples2 with
    | .error e => .error e
    | .ok (train2, test2) => t.divergenceOnSamples (t.train train1 train2) test1 test2 fp

/-- `DivergencePropertyTester.reject_property`, `divergence_tester.py:120-123`, with `_test_threshold`, `hockey_stick_tester.py:132-134`. -/
def rejectProperty (lowerBound : ℝ) : Prop := lowerBound > t.delta

end HockeyStickTester
end Testers
end Verif
