import Verif.Spec.PldEvents

/-!
# Specification: events for which the PLD accountant is tight
-/

namespace Verif.Spec

/-- The events that can be accounted for up to the discretization: Gaussian and Laplace noise that is neither zero nor infinite, on the whole data or
on a Poisson sample with a probability that is not zero and for which the grid is not too close to `log(1 - q)`, and randomised response
with noise and more than one bucket. Not: mixtures of Gaussians. -/
def TightOk (disc : ℝ) : DpEvent → Prop
  | .gaussian z => z.val ≠ 0 ∧ z.val ≠ ⊤
  | .laplace z => z.val ≠ 0 ∧ z.val ≠ ⊤
  | .poissonSampled q (.gaussian z) => q.val ≠ 0 ∧ GridFree disc q ∧ z.val ≠ 0 ∧ z.val ≠ ⊤
  | .poissonSampled q (.laplace z) => q.val ≠ 0 ∧ GridFree disc q ∧ z.val ≠ 0 ∧ z.val ≠ ⊤
  | .randomizedResponse p k => k ≠ 1 ∧ p.val ≠ 0
  | _ => False

end Verif.Spec
