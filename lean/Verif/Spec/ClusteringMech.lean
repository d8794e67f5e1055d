import Verif.Spec.AdditiveNoise
import Verif.Spec.Clustering
import Mathlib.Probability.ProductMeasure
import Mathlib.Probability.Distributions.Gaussian.Multivariate

/-!
# Specification: the clustering as a randomized mechanism

Outcomes are lists of weighted points, or exceptions; the distribution of the outcome is the image of the distribution of the draws.
-/

namespace Verif.Spec
open MeasureTheory ProbabilityTheory Verif.Clustering

/-- A set of lists is an event if for every `n` its lists of length `n` are one. -/
scoped instance listMeasurableSpace {α : Type*} [MeasurableSpace α] : MeasurableSpace (List α) :=
  ⨅ n : ℕ, (inferInstance : MeasurableSpace (Fin n → α)).map List.ofFn

/-- A set of outcomes is an event if its regular outcomes are one. -/
scoped instance exceptMeasurableSpace {ε α : Type*} [MeasurableSpace α] : MeasurableSpace (Except ε α) :=
  (⊤ : MeasurableSpace ε).map Except.error ⊓ (inferInstance : MeasurableSpace α).map Except.ok

/-- The noise of a run: independent discrete Laplace draws with parameter `a` for the counts, independent standard normal vectors for the
sums, one of each for every prefix. -/
noncomputable def noiseLaw (d : ℕ) (a : ℝ) : Measure ((List Bool → ℤ) × (List Bool → Point d)) :=
  (Measure.infinitePi fun _ => discreteLaplace a).prod (Measure.infinitePi fun _ => stdGaussian (Point d))

/-- Distribution of the coreset that `private_lsh_clustering` computes from the data `pts`, with noise of standard deviation `σ` for
the sums and parameter `a` for the counts; `ν` is the distribution of the projection vectors. -/
noncomputable def coresetLaw {d : ℕ} (ν : Measure (ℕ → Point d)) (σ a : ℝ) (k : ℤ) (radius : ℝ) (depth : ℤ) (tree : Option TreeParam)
    (pts : List (Point d)) : Measure (Except Err (List (Point d × ℤ))) :=
  (ν.prod (noiseLaw d a)).map fun w => privateCoreset ⟨σ, radius, .float a⟩ k pts radius depth tree ⟨w.1, w.2.1, w.2.2⟩

/-- The release that the accounting should be about: `n` counts, all equal to `m`, with discrete Laplace noise of parameter `a`, and
one sum, equal to `t`, with normal noise of standard deviation `σ`. -/
noncomputable def countsAndSum (n : ℕ) (a σ : ℝ) (m : ℤ) (t : ℝ) : Measure ((Fin n → ℤ) × ℝ) :=
  (Measure.pi fun _ => (discreteLaplace a).map (m + ·)).prod (gaussianReal t (Real.toNNReal (σ ^ 2)))

end Verif.Spec
