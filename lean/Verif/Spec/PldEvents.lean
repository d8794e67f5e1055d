import Verif.Spec.EventMeaning
import Verif.Spec.SampledNoise
import Verif.Spec.MixtureGaussian
import Verif.Model.AdditiveNoise

/-!
# Specification: the mechanisms that the events of the PLD accountant stand for

Oriented pairs: the first data set has the record, the second one has not (add-or-remove) or has the special record instead
(replace-special).
-/

namespace Verif.Spec
open Verif MeasureTheory ProbabilityTheory

/-- Gaussian noise of `z` times the sensitivity, on a Poisson sample. -/
def SampledGaussianPair (z q : ℝ) : PairProp := fun Ω [MeasurableSpace Ω] P Q => ∃ Δ > 0, SampledGaussian (z * Δ) Δ q Ω P Q

/-- Laplace noise of `z` times the sensitivity, on a Poisson sample. -/
def SampledLaplacePair (z q : ℝ) : PairProp := fun Ω [MeasurableSpace Ω] P Q => ∃ Δ > 0, SampledLaplace (z * Δ) Δ q Ω P Q

/-- Randomised response on a record and on the special record. -/
inductive RRToSpecial (k : ℕ) (p : ℝ) : PairProp
  | mk (x : Fin k) : RRToSpecial k p (Fin k) (rrMech k p x) (uniformResponse k)

/-- Gaussian noise with standard deviation `σ` on a vector query that a record changes by a random vector, whose norm is at most a random
number drawn from `cs`. -/
inductive MixturePair (σ : ℝ) (cs : List (ℝ × ℝ)) : PairProp
  | mk {d : ℕ} (v : Vec d) (vs : List (Vec d × ℝ)) (h : ChangeWithin vs cs) : MixturePair σ cs (Vec d) (vecMixture σ v vs) (gaussianVec v σ)

/-- The sensitivities and their probabilities. -/
noncomputable def mixturePairs (ss ps : List PyNum) : List (ℝ × ℝ) := (ss.map fun x => x.val.toReal).zip (ps.map fun x => x.val.toReal)

/-- The pairs of output distributions of the mechanisms that an elementary event describes. Events that are not accepted by the PLD
accountant are not interpreted. -/
noncomputable def PldEventPair (nr : NeighborRel) : DpEvent → PairProp
  | .gaussian z => GaussianPair z.val.toReal
  | .laplace z => LaplacePair z.val.toReal
  | .poissonSampled q (.gaussian z) => SampledGaussianPair z.val.toReal q.val.toReal
  | .poissonSampled q (.laplace z) => SampledLaplacePair z.val.toReal q.val.toReal
  | .randomizedResponse p k => if nr = .replaceOne then RRReplaceOne k.toNat p.val.toReal else RRToSpecial k.toNat p.val.toReal
  | .mixtureOfGaussians σ ss ps => MixturePair σ.val.toReal (mixturePairs ss ps)
  | _ => AnyPair

/-- Restrictions for mixtures of Gaussians: the probabilities have sum one, and the discretization interval is fine enough (`DiscOk`, see
`C70_disc`) in terms of the smallest positive sensitivity. -/
def DiscFine (disc : ℝ) : DpEvent → Prop
  | .mixtureOfGaussians σ ss ps => ((mixturePairs ss ps).map Prod.snd).sum = 1 ∧
      ∀ s, IsLeast {x | 0 < x ∧ ∃ c ∈ mixturePairs ss ps, c.2 ≠ 0 ∧ c.1 = x} s →
        DiscOk (mixturePairs ss ps) disc (mixLogRatio σ.val.toReal (mixturePairs ss ps) s)
  | _ => True

/-- No multiple of the discretization interval is `math.isclose` to `log(1 - q)`, where `get_delta_for_epsilon` is wrong
(`C31_isclose_wrong`). -/
def GridFree (disc : ℝ) (q : PyNum) : Prop := q.val = 0 ∨ q.val = 1 ∨ ∀ k : ℤ, ¬ Mech.IsClose (k * disc) (Real.log (1 - q.val.toReal))

open Classical in
/-- By how much the delta computed for an event may be too small: for mixtures of Gaussians (`C70_delta`, `C70_pld`), and for sampling
probabilities with a grid point that is close to `log(1 - q)` (`C31_gaussian_near`, `C32_gaussian_near`). -/
noncomputable def eventSlack (disc : ℝ) : DpEvent → ℝ
  | .mixtureOfGaussians σ ss ps => mixError σ.val.toReal ((ss.map fun x => x.val.toReal).foldr max 0) (mixturePairs ss ps)
  | .poissonSampled q _ => if GridFree disc q then 0 else closeSlack q.val.toReal
  | _ => 0

/-- `ppf σ` inverts the distribution function of the centred normal distribution with standard deviation `σ`. -/
def NormalQuantile (ppf : ℝ → ℝ → ℝ) : Prop :=
  ∀ σ p : ℝ, 0 < σ → 0 < p → p < 1 → (gaussianReal 0 (Real.toNNReal (σ ^ 2))).real (Set.Iic (ppf σ p)) = p

end Verif.Spec
