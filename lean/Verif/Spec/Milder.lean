import Verif.Spec.RdpFrac
import Verif.Spec.History
import Verif.Spec.EventMeaning

/-! # Events that lose no more privacy than others -/

namespace Verif.Spec
open Verif

/-- The numbers of steps of the trees of a `SingleEpochTreeAggregationDpEvent`. -/
def treeSteps : ℤ ⊕ List ℤ → List ℤ
  | .inl c => [c]
  | .inr l => l

/-- Gaussian queries with finite positive noise: one, or several whose noise multipliers are floats. -/
def GaussianQueries (e : DpEvent) : Prop := (∃ z, e = .gaussian z ∧ 0 < z.val ∧ z.val ≠ ⊤) ∨ FloatGaussians e

/-- The sum of `1 / z²` over the noise multipliers `z` of the queries. -/
noncomputable def totalPrecision (e : DpEvent) : ℝ := ((noises e).map fun z => 1 / z ^ 2).sum

mutual
/-- `Milder e e'`: the elementary event `e` is `e'` with more noise, less sampling, fewer steps, or with a milder base event. -/
inductive Milder : DpEvent → DpEvent → Prop
  | same (e : DpEvent) : Milder e e
  /-- Anything is milder than a non-private event. -/
  | nonPrivate (e : DpEvent) : Milder e .nonPrivate
  | gaussian (z z' : PyNum) : z'.val ≤ z.val → Milder (.gaussian z) (.gaussian z')
  | laplace (z z' : PyNum) : z'.val ≤ z.val → Milder (.laplace z) (.laplace z')
  /-- Finite noise on a sample. -/
  | sampled (q q' z z' : PyNum) : q.val ≤ q'.val → z'.val ≤ z.val → z.val ≠ ⊤ →
      Milder (.poissonSampled q (.gaussian z)) (.poissonSampled q' (.gaussian z'))
  /-- Sampling is milder than none. -/
  | unsampled (q z z' : PyNum) : z'.val ≤ z.val → z.val ≠ ⊤ → Milder (.poissonSampled q (.gaussian z)) (.gaussian z')
  /-- Several queries on one Poisson sample. -/
  | sampledQueries (q q' : PyNum) (e e' : DpEvent) : GaussianQueries e → GaussianQueries e' → q.val ≤ q'.val → totalPrecision e ≤ totalPrecision e' →
      Milder (.poissonSampled q e) (.poissonSampled q' e')
  /-- Queries on a sample drawn without replacement; either the second sample is not the whole data set, or both are. -/
  | withoutReplacement (n n' m m' : ℤ) (e e' : DpEvent) : GaussianQueries e → GaussianQueries e' → (m / n : ℝ) ≤ m' / n' → (m' / n' : ℝ) < 1 ∨ (m / n : ℝ) = 1 →
      totalPrecision e ≤ totalPrecision e' → Milder (.sampledWithoutReplacement n m e) (.sampledWithoutReplacement n' m' e')
  | tree (z z' : PyNum) (s s' : ℤ ⊕ List ℤ) : z'.val ≤ z.val → (∀ c ∈ treeSteps s, ∃ c' ∈ treeSteps s', c ≤ c') →
      Milder (.singleEpochTreeAggregation z s) (.singleEpochTreeAggregation z' s')
  | randomizedResponse (p p' : PyNum) (k : ℤ) : p'.val ≤ p.val → Milder (.randomizedResponse p k) (.randomizedResponse p' k)
  | repeatAndSelect (e e' : DpEvent) (mean shape : PyNum) : MilderAll (expand e) (expand e') →
      Milder (.repeatAndSelect e mean shape) (.repeatAndSelect e' mean shape)
/-- Each event of the first list is milder than its own event of the second list, in the same order. -/
inductive MilderAll : List DpEvent → List DpEvent → Prop
  | nil (l : List DpEvent) : MilderAll [] l
  | cons (e e' : DpEvent) (l l' : List DpEvent) : Milder e e' → MilderAll l l' → MilderAll (e :: l) (e' :: l')
  | skip (e' : DpEvent) (l l' : List DpEvent) : MilderAll l l' → MilderAll l (e' :: l')
end

/-- At those of the orders that are not integers, `frac` gives the Rényi divergence of a Poisson-sampled Gaussian query. (At integer
orders it is not used.) -/
def FracExact {n : ℕ} (orders : Fin n → ℝ) (frac : ℝ → PyNum → ℝ → EReal) : Prop :=
  ∀ i, (¬ ∃ m : ℤ, orders i = m) → ∀ (q z : ℝ) (sigma : PyNum), 0 < q → q < 1 → 0 < z → sigma.val = (z : EReal) →
    frac q sigma (orders i) * (((orders i - 1)⁻¹ : ℝ) : EReal) = sampledDiv q z (orders i)

end Verif.Spec
