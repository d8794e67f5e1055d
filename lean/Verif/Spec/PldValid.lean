import Verif.Spec.PldEvents
import Verif.Spec.PldCovers

/-!
# Specification: events with parameters in the documented ranges, for the PLD accountant
-/

namespace Verif.Spec
open Verif

/-- A finite number that is not negative. -/
def FiniteNonneg (z : PyNum) : Prop := 0 ≤ z.val ∧ z.val ≠ ⊤

/-- Neighbouring relations with which Poisson sampling is supported. -/
def SamplingRel (nr : NeighborRel) : Prop := nr = .addOrRemoveOne ∨ nr = .replaceSpecial

/-- Neighbouring relations with which randomised response is supported. -/
def ReplaceRel (nr : NeighborRel) : Prop := nr = .replaceOne ∨ nr = .replaceSpecial

/-- A mixture of Gaussians with positive noise: as many probabilities as sensitivities, all finite; probabilities not negative, with sum
one; sensitivities of positive probability not negative, one of them positive; a discretization interval that is fine enough. -/
structure MixtureOk (disc : ℝ) (σ : PyNum) (ss ps : List PyNum) : Prop where
  sens : ∀ x ∈ ss, FiniteNonneg x
  probs : ∀ x ∈ ps, FiniteNonneg x
  len : ps.length = ss.length
  pos : ∃ c ∈ mixturePairs ss ps, c.2 ≠ 0 ∧ c.1 ≠ 0
  discOk : DiscOk (mixturePairs ss ps) disc (mixLogRatio σ.val.toReal (mixturePairs ss ps) 0)
  fine : DiscFine disc (.mixtureOfGaussians σ ss ps)

/-- Elementary events that a PLD accountant is documented to support, with parameters in their ranges. -/
def PldOk (disc : ℝ) (nr : NeighborRel) : DpEvent → Prop
  | .noOp => True
  | .nonPrivate => True
  | .gaussian z => FiniteNonneg z
  | .laplace z => FiniteNonneg z
  | .poissonSampled q (.gaussian z) => SamplingRel nr ∧ 0 ≤ q.val ∧ q.val ≤ 1 ∧ FiniteNonneg z ∧ GridFree disc q
  | .poissonSampled q (.laplace z) => SamplingRel nr ∧ 0 ≤ q.val ∧ q.val ≤ 1 ∧ FiniteNonneg z ∧ GridFree disc q
  | .randomizedResponse p k => ReplaceRel nr ∧ (k = 1 ∨ 2 ≤ k ∧ 0 ≤ p.val ∧ p.val < 1)
  | .mixtureOfGaussians σ ss ps => (∃ s, ss = [s] ∧ s.val = 0) ∨ FiniteNonneg σ ∧ (σ.val ≠ 0 → MixtureOk disc σ ss ps)
  | _ => False

end Verif.Spec
