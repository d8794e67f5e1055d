import Verif.Spec.AdditiveNoise

/-!
# Specification: additive noise mechanisms on Poisson samples

The pairs below are oriented: the first data set has one more record than the second one. Every record is in the sample
independently with probability `q` (`q = 1`: no sampling). The query changes by at most `s` when a record is added to the
sample, in either direction.
-/

namespace Verif.Spec
open MeasureTheory

/-- The mechanism that draws a Poisson sample of the records `D` and then runs `K` on the sample. -/
noncomputable def poissonMech {R : Type} {Ω : Type} [MeasurableSpace Ω] (q : ℝ) (K : Finset R → Measure Ω) (D : Finset R) : Measure Ω :=
  ∑ S ∈ D.powerset, ENNReal.ofReal (q ^ S.card * (1 - q) ^ (D.card - S.card)) • K S

/-- Laplace noise of scale `b` on every coordinate of a vector query of `ℓ₁` sensitivity `s`. -/
inductive SampledLaplace (b s q : ℝ) : PairProp
  | mk {R : Type} [DecidableEq R] {d : ℕ} (f : Finset R → Fin d → ℝ) (hf : ∀ S r, ∑ i, |f (insert r S) i - f S i| ≤ s)
      (D : Finset R) (r : R) (hr : r ∉ D) :
    SampledLaplace b s q (Fin d → ℝ) (poissonMech q (fun S => laplaceVec (f S) b) (insert r D))
      (poissonMech q (fun S => laplaceVec (f S) b) D)

/-- Gaussian noise of standard deviation `σ` on every coordinate of a vector query of `ℓ₂` sensitivity `s`. -/
inductive SampledGaussian (σ s q : ℝ) : PairProp
  | mk {R : Type} [DecidableEq R] {d : ℕ} (f : Finset R → Vec d) (hf : ∀ S r, ‖f (insert r S) - f S‖ ≤ s)
      (D : Finset R) (r : R) (hr : r ∉ D) :
    SampledGaussian σ s q (Vec d) (poissonMech q (fun S => gaussianVec (f S) σ) (insert r D))
      (poissonMech q (fun S => gaussianVec (f S) σ) D)

/-- Integer noise with law `μ` on an integer query of sensitivity `s`. -/
inductive SampledInteger (μ : Measure ℤ) (s : ℤ) (q : ℝ) : PairProp
  | mk {R : Type} [DecidableEq R] (f : Finset R → ℤ) (hf : ∀ S r, |f (insert r S) - f S| ≤ s) (D : Finset R) (r : R) (hr : r ∉ D) :
    SampledInteger μ s q ℤ (poissonMech q (fun S => μ.map fun x => x + f S) (insert r D))
      (poissonMech q (fun S => μ.map fun x => x + f S) D)

end Verif.Spec
