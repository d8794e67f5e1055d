import Verif.Spec.SampledNoise
import Verif.Spec.LossLaw

/-!
# Specification: repeated noisy queries

Pairs of output distributions on two neighbouring data sets, for a given amount of noise and a given sensitivity; the answers on the two
data sets are `a` and `a'`.
-/

namespace Verif.Spec
open MeasureTheory

/-- Laplace noise of scale `b` on every coordinate; the answers differ by at most `s` in the `ℓ₁` norm. -/
inductive LaplaceQuery (b s : ℝ) : PairProp
  | mk {d : ℕ} (a a' : Fin d → ℝ) (h : ∑ i, |a i - a' i| ≤ s) : LaplaceQuery b s (Fin d → ℝ) (laplaceVec a b) (laplaceVec a' b)

/-- Gaussian noise of standard deviation `σ` on every coordinate; the answers differ by at most `s` in the `ℓ₂` norm. -/
inductive GaussianQuery (σ s : ℝ) : PairProp
  | mk {d : ℕ} (a a' : Vec d) (h : ‖a - a'‖ ≤ s) : GaussianQuery σ s (Vec d) (gaussianVec a σ) (gaussianVec a' σ)

/-- Noise with law `μ` on an integer; the answers differ by at most `s`. -/
inductive IntegerQuery (μ : Measure ℤ) (s : ℤ) : PairProp
  | mk (a a' : ℤ) (h : |a - a'| ≤ s) : IntegerQuery μ s ℤ (μ.map fun x => x + a) (μ.map fun x => x + a')

/-- Mechanisms satisfying `C`, run `n` times one after the other, each chosen depending on the earlier outputs, are together
`(ε, δ)`-differentially private, whichever of the two data sets comes first. -/
def RepeatedPrivate (C : PairProp) (n : ℕ) (ε δ : ℝ) : Prop :=
  ∀ (Ω : Type) [MeasurableSpace Ω] (P Q : Measure Ω), Adaptive (List.replicate n C) Ω P Q → Indist P Q ε δ ∧ Indist Q P ε δ

/-- Mechanisms satisfying `C`, run once, are `(ε, δ)`-differentially private, whichever of the two data sets comes first. -/
def Private (C : PairProp) (ε δ : ℝ) : Prop :=
  ∀ (Ω : Type) [MeasurableSpace Ω] (P Q : Measure Ω), C Ω P Q → Indist P Q ε δ ∧ Indist Q P ε δ

end Verif.Spec
