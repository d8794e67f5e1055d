import Mathlib.MeasureTheory.Measure.Prod
import Mathlib.MeasureTheory.Measure.Dirac
import Mathlib.Analysis.SpecialFunctions.Pow.Real
import Mathlib.Algebra.BigOperators.Intervals

/-!
# Specification: repeating a mechanism and releasing the best output

`RepeatAndSelectDpEvent` (`dp_event.py:373-390`), after Definition 1 and Theorems 2 and 6 of https://arxiv.org/abs/2110.03620.
-/

namespace Verif.Spec
open MeasureTheory

variable {Y : Type*} [MeasurableSpace Y]

/-- One more run: the new output replaces the best one so far if its score is higher. -/
noncomputable def pick (score : Y → ℝ) (p : Y × Y) : Y := if score p.1 < score p.2 then p.2 else p.1

/-- Distribution of the best output of `k + 1` independent runs of a mechanism with output distribution `P`. -/
noncomputable def bestLaw (score : Y → ℝ) (P : Measure Y) : ℕ → Measure Y
  | 0 => P
  | k + 1 => ((bestLaw score P k).prod P).map (pick score)

/-- Distribution of the output when the number of runs is `k` with probability `p k`; without any run the output is `inl ()`. -/
noncomputable def repeatSelect (p : ℕ → ℝ) (score : Y → ℝ) (P : Measure Y) : Measure (Unit ⊕ Y) :=
  ENNReal.ofReal (p 0) • Measure.dirac (Sum.inl ()) + Measure.sum fun k => ENNReal.ofReal (p (k + 1)) • (bestLaw score P k).map Sum.inr

/-- The truncated negative binomial distribution with shape `η ≥ 0` and parameter `γ ∈ (0, 1]`: logarithmic for `η = 0`, geometric for
`η = 1`, one run for `γ = 1`. -/
noncomputable def tnb (η γ : ℝ) (k : ℕ) : ℝ :=
  if k = 0 then 0
  else if γ = 1 then if k = 1 then 1 else 0
  else if η = 0 then (1 - γ) ^ k / (k * Real.log (1 / γ))
  else (1 - γ) ^ k / (γ ^ (-η) - 1) * ∏ l ∈ Finset.range k, ((l : ℝ) + η) / (l + 1)

/-- Its mean. -/
noncomputable def tnbMean (η γ : ℝ) : ℝ := ∑' k : ℕ, k * tnb η γ k

/-- The Poisson distribution with mean `μ`. -/
noncomputable def poisson (μ : ℝ) (k : ℕ) : ℝ := Real.exp (-μ) * μ ^ k / k.factorial

/-- Shapes and means for which the code inverts the mean by the closed formulas, not by their Taylor expansions near `γ = 1`:
the geometric distribution with any mean, and other distributions with a mean that is not too close to one. -/
def SelectExact (shape mean : ℝ) : Prop :=
  shape = 1 ∨ 2 * (shape + 1) / mean < 0.9 ∧ (shape = 0 ∨ shape * Real.log (2 * (shape + 1) / mean) < -0.1)

end Verif.Spec
