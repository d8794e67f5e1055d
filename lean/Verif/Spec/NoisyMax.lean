import Verif.Model.NoisyMax
import Mathlib.Analysis.SpecialFunctions.Exp
import Mathlib.MeasureTheory.Constructions.Pi
import Mathlib.MeasureTheory.Measure.WithDensity
import Mathlib.MeasureTheory.Measure.Lebesgue.Basic
import Mathlib.MeasureTheory.Measure.Real

/-!
# The standard Gumbel distribution
-/

namespace Verif.Spec
open MeasureTheory

/-- The standard Gumbel distribution, with density `e^(-x) e^(-e^(-x))`. -/
noncomputable def gumbel : Measure ℝ := volume.withDensity fun x => ENNReal.ofReal (Real.exp (-x) * Real.exp (-Real.exp (-x)))

/-- The probability that a noisy max call on `data` with `n` samples succeeds with the element `i` for sample `s`. -/
noncomputable def noisyMaxProb (epsilon : ℝ) (k : ℕ) (data : List ℝ) (n : ℕ) (s : Fin n) (i : Fin k) : ℝ :=
  (Measure.pi fun _ : Fin n => Measure.pi fun _ : Fin k => gumbel).real
    {draws | ∃ out, NoisyMax.call epsilon k data n draws = .ok out ∧ out s = i}

end Verif.Spec
