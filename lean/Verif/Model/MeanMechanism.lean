import Verif.Model.Builder
import Mathlib.Analysis.SpecialFunctions.Log.Basic
import Mathlib.Analysis.SpecialFunctions.Sqrt

/-!
# Model of the mean mechanism (`dp_auditorium/mechanisms/mean.py`)

`rng.laplace(0, scale)` and `rng.normal(0, scale)` are `scale` times a draw of the standard distribution, as in numpy, and raise
`ValueError` for a negative scale; the standard draws are parameters. Floats are reals. Simplifications: a division by an exact count of
zero gives NaN or infinity in numpy and zero here (a noisy count of zero has probability zero), and the square root of a negative number,
for `delta` negative or above 1.25, gives NaN there and a real number here. The theorems exclude both cases.
-/

namespace Verif

/-- `MeanMechanismConfig`, `configs/mechanism_config.py:29-46`. -/
structure MeanConfig where
  epsilon : ℝ
  delta : ℝ
  noisedMean : Bool
  noisedScale : Bool
  maxValue : ℝ
  minValue : ℝ

namespace MeanMech

/-- `_ZERO_TOLERANCE`, line 22. -/
noncomputable def zeroTolerance : ℝ := 1e-12

/-- `_epsilon_budget_scale`, lines 46 and 50-54. -/
noncomputable def budgetScale (c : MeanConfig) : ℝ := if c.noisedMean || c.noisedScale then 0.5 else 1.0

open Classical in
/-- `_noise_factor`, lines 55-62. -/
noncomputable def noiseFactor (c : MeanConfig) : ℝ := if c.delta = 0 then 1.0 else Real.sqrt (2.0 * Real.log (1.25 / c.delta))

/-- `_get_counts`, lines 79-92, for one of the samples: the counts for the mean and for the noise scale. `u` is the standard Laplace
draw. -/
noncomputable def getCounts (c : MeanConfig) (data : List ℝ) (u : ℝ) : ℝ × ℝ :=
  let noiseScale := 1.0 / budgetScale c / c.epsilon
  let noisyCount := (data.length : ℝ) + noiseScale * u
  if c.noisedMean then
    if c.noisedScale then (noisyCount, noisyCount) else (noisyCount, data.length)
  else
    if c.noisedScale then (data.length, noisyCount) else (data.length, data.length)

/-- Lines 95-110 for one of the samples. `u` and `v` are the standard draws of the noise of the count and of the mean. -/
noncomputable def sample (c : MeanConfig) (data : List ℝ) (u v : ℝ) : ℝ :=
  let data := data.map fun x => min (max x c.minValue) c.maxValue
  let counts := getCounts c data u
  let valueSum := data.sum
  let noiseScale := noiseFactor c * |c.maxValue - c.minValue| / budgetScale c / c.epsilon / counts.2
  let noiseScale := max zeroTolerance noiseScale
  valueSum / counts.1 + noiseScale * v

open Classical in
/-- `MeanMechanism.__call__`, lines 94-110. A call fails when the noise of the counts cannot be drawn; the scale of the other noise is
never negative. -/
noncomputable def call (c : MeanConfig) (data : List ℝ) (n : ℕ) (draws : Fin n → ℝ × ℝ) : Except Err (Fin n → ℝ) :=
  if c.epsilon = 0 then .error .zeroDivisionError
  else if 1.0 / budgetScale c / c.epsilon < 0 then .error .valueError
  else .ok fun s => sample c data (draws s).1 (draws s).2

/-- `default_mean_mechanism_config_generator`, `mechanisms_utils.py:41-77`. `AttributeError` is `none`. -/
noncomputable def defaultConfig (name : String) (epsilon : ℝ) (delta : ℝ := 0.0) : Option MeanConfig :=
  if name = "non_private_mean_v1" then some ⟨epsilon, delta, false, false, 1.0, 0.0⟩
  else if name = "non_private_mean_v2" then some ⟨epsilon, delta, false, true, 1.0, 0.0⟩
  else if name = "private_mean" then some ⟨epsilon, delta, true, true, 1.0, 0.0⟩
  else none

end MeanMech
end Verif
