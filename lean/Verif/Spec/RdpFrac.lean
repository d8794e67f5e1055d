import Verif.Spec.Renyi
import Verif.Model.DpEvent
import Mathlib.Probability.Distributions.Gaussian.Real

/-! # Vocabulary for Poisson-sampled Gaussian queries at fractional Rényi orders -/

namespace Verif.Spec
open MeasureTheory ProbabilityTheory

/-- The Rényi divergence of order `α` of a Gaussian query of sensitivity one, with noise of standard deviation `z`, on a Poisson
sample in which the differing record is present with probability `q`, from the query without that record. -/
noncomputable def sampledDiv (q z α : ℝ) : EReal :=
  renyiDiv α (ENNReal.ofReal (1 - q) • gaussianReal 0 (Real.toNNReal (z ^ 2)) + ENNReal.ofReal q • gaussianReal 1 (Real.toNNReal (z ^ 2)))
    (gaussianReal 0 (Real.toNNReal (z ^ 2)))

/-- What stopping the series at terms below `exp(-30)` of the sum can hide: `log (1 + 2^(⌈α⌉+1) exp(-30))`. -/
noncomputable def fracSlack (α : ℝ) : ℝ := Real.log (1 + 2 ^ (⌈α⌉₊ + 1) * Real.exp (-30))

open Classical in
/-- Its effect on the Rényi divergence at one order: none at integers. -/
noncomputable def orderSlack (α : ℝ) : ℝ := if ∃ m : ℤ, α = m then 0 else fracSlack α * (α - 1)⁻¹

/-- The number of Poisson-sampled events in a list. -/
def poissonEvents (l : List DpEvent) : ℕ := l.countP fun e => match e with | .poissonSampled _ _ => true | _ => false

end Verif.Spec
