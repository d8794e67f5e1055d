import Verif.Model.Builder
import Mathlib.Analysis.SpecialFunctions.Artanh

/-!
# Model of the post-processing of samples (`dp_auditorium/privacy_test_runner.py`)

Samples are one number for each call of the mechanism; a column vector is the same, as `np.squeeze` (line 48) removes the second axis.
-/

namespace Verif

/-- `PostProcessing`, `configs/privacy_test_runner_config.py:33-41`; `other` is any other value of the field, which Python does not exclude. -/
inductive PostProcessing where
  | none
  | tanh
  | chebyshevPolynomialsD5
  | other

/-- An array of samples: one number for each sample, or a row for each sample. The argument `x` of `privacy_test_runner.py:40-49`. -/
inductive SampleArray where
  | flat (values : List ℝ)
  | rows (rows : List (List ℝ))

/-- `scipy.special.eval_chebyt` for integer degrees, by its recurrence (third-party). Called in `privacy_test_runner.py:47`. -/
noncomputable def evalChebyt : ℕ → ℝ → ℝ
  | 0, _ => 1
  | 1, x => x
  | n + 2, x => 2 * x * evalChebyt (n + 1) x - evalChebyt n x

/-- `chebshev_projection_d5`, `privacy_test_runner.py:40-49`. The loop fills the columns; the model lists the rows. -/
noncomputable def chebyshevProjectionD5 (samples : List ℝ) : List (List ℝ) :=
  let maxDegree := 5
  let rescaled := samples.map Real.tanh
  rescaled.map fun x => (List.range (maxDegree + 1)).map fun i => evalChebyt i x

/-- `_get_postprocess_function`, `privacy_test_runner.py:27-53`: the function, or the error raised when the runner is constructed. -/
noncomputable def getPostprocessFunction : PostProcessing → Except Err (List ℝ → SampleArray)
  | .none => .ok fun samples => .flat samples
  | .tanh => .ok fun samples => .flat (samples.map Real.tanh)
  | .chebyshevPolynomialsD5 => .ok fun samples => .rows (chebyshevProjectionD5 samples)
  | .other => .error .valueError

end Verif
