import Verif.Model.MeanMechanism
import Verif.Spec.Mechanisms
import Mathlib.MeasureTheory.Constructions.Pi

/-!
# The output distribution of the mean mechanism
-/

namespace Verif.Spec
open MeasureTheory ProbabilityTheory

open Classical in
/-- The distribution of one standard draw of the noise of the mean: Laplace when `delta` is zero, otherwise normal. -/
noncomputable def meanNoise (delta : ℝ) : Measure ℝ := if delta = 0 then laplace 0 1 else gaussianReal 0 1

/-- The probability that a call of the mean mechanism on `data` with `n` samples succeeds with a number in `S` for sample `s`. -/
noncomputable def meanProb (cfg : MeanConfig) (data : List ℝ) (n : ℕ) (s : Fin n) (S : Set ℝ) : ℝ :=
  (Measure.pi fun _ : Fin n => (laplace 0 1).prod (meanNoise cfg.delta)).real
    {draws | ∃ out, MeanMech.call cfg data n draws = .ok out ∧ out s ∈ S}

/-- Two data sets, one of which has one more record. -/
inductive OneMore : List ℝ → List ℝ → Prop
  | mk (l r : List ℝ) (x : ℝ) : OneMore (l ++ r) (l ++ x :: r)

end Verif.Spec
