import Verif.Spec.Mechanisms
import Verif.Model.Builder

/-!
# Specification: additive noise mechanisms with Poisson sub-sampling

The noise `μ` lives on `X` (the reals or the integers), the query has sensitivity `s`; the record that differs is in the
sample with probability `q` (class comment of `AdditiveNoisePrivacyLoss`, `privacy_loss_mechanism.py:224-278`).
-/

namespace Verif.Spec
open MeasureTheory

/-- `AdjacencyType`, `privacy_loss_mechanism.py:38-53`. -/
inductive Adj where
  | add
  | remove
  deriving DecidableEq

variable {X : Type} [AddCommGroup X] [MeasurableSpace X]

/-- With probability `q` the output is moved by `d`, otherwise it is the noise alone. -/
noncomputable def mixShift (μ : Measure X) (q : ℝ) (d : X) : Measure X :=
  ENNReal.ofReal (1 - q) • μ + ENNReal.ofReal q • μ.map fun x => x + d

/-- Output distribution on the first of the two neighbouring data sets. REMOVE: the first data set has the record, which
lowers the answer by `s` when sampled. -/
noncomputable def upper (μ : Measure X) (s : X) (q : ℝ) : Adj → Measure X
  | .add => μ
  | .remove => mixShift μ q (-s)

/-- Output distribution on the second one. ADD: the second data set has the record, which raises the answer by `s` when
sampled. -/
noncomputable def lower (μ : Measure X) (s : X) (q : ℝ) : Adj → Measure X
  | .add => mixShift μ q s
  | .remove => μ

/-- Under sampling with probability `q < 1` the privacy loss is at most this (ADD), or at least this (REMOVE). -/
noncomputable def lossLimit (q : ℝ) : Adj → ℝ
  | .add => -Real.log (1 - q)
  | .remove => Real.log (1 - q)

/-- The relative tolerance of `math.isclose`, times the limit of the loss. -/
noncomputable def closeSlack (q : ℝ) : ℝ := 1e-9 * |Real.log (1 - q)|

/-- `res` is the logarithm of `p / r` for densities `p`, `r`: infinite where just one of them vanishes, an exception where
both do. -/
def IsLogRatio (p r : ℝ) : Except Err EReal → Prop
  | .error e => e = .valueError ∧ p = 0 ∧ r = 0
  | .ok ⊤ => 0 < p ∧ r = 0
  | .ok ⊥ => p = 0 ∧ 0 < r
  | .ok (l : ℝ) => 0 < p ∧ 0 < r ∧ l = Real.log (p / r)

/-- The discrete Laplace distribution with parameter `a`: mass `(e^a - 1)/(e^a + 1) e^(-a |k|)` at every integer `k`. -/
noncomputable def discreteLaplace (a : ℝ) : Measure ℤ :=
  Measure.count.withDensity fun k => ENNReal.ofReal ((Real.exp a - 1) / (Real.exp a + 1) * Real.exp (-a * |(k : ℝ)|))

/-- The truncated discrete Gaussian distribution: mass proportional to `exp(-k²/(2 σ²))` at the integers of `[-T, T]`. -/
noncomputable def discreteGaussian (σ : ℝ) (T : ℤ) : Measure ℤ :=
  Measure.count.withDensity fun k => ENNReal.ofReal
    (if k ∈ Finset.Icc (-T) T then Real.exp (-0.5 * (k : ℝ) ^ 2 / σ ^ 2) / ∑ j ∈ Finset.Icc (-T) T, Real.exp (-0.5 * (j : ℝ) ^ 2 / σ ^ 2)
     else 0)

end Verif.Spec
