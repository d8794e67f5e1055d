import Verif.Spec.AdditiveNoise

/-!
# Specification: mixtures of Gaussians

The sensitivity is random: `s` with probability `p` for every pair `(s, p)` of a list (class comment of
`MixtureGaussianPrivacyLoss`, `privacy_loss_mechanism.py:1817-1871`).
-/

namespace Verif.Spec
open MeasureTheory ProbabilityTheory

/-- A probability distribution on sensitivities, with at least one positive sensitivity. -/
structure SensDist (cs : List (ℝ × ℝ)) : Prop where
  sens : ∀ c ∈ cs, 0 ≤ c.1
  prob : ∀ c ∈ cs, 0 < c.2
  sum : (cs.map Prod.snd).sum = 1
  pos : ∃ c ∈ cs, 0 < c.1

/-- Gaussian noise around a centre drawn from the list. -/
noncomputable def gaussMixture (σ : ℝ) (cs : List (ℝ × ℝ)) : Measure ℝ :=
  (cs.map fun c => ENNReal.ofReal c.2 • gaussianReal c.1 (Real.toNNReal (σ ^ 2))).sum

/-- Output distribution on the first data set: ADD, the noise; REMOVE, the noise lowered by the random sensitivity. -/
noncomputable def mixUpper (σ : ℝ) (cs : List (ℝ × ℝ)) : Adj → Measure ℝ
  | .add => gaussianReal 0 (Real.toNNReal (σ ^ 2))
  | .remove => gaussMixture σ (cs.map fun c => (-c.1, c.2))

/-- Output distribution on the second data set: ADD, the noise raised by the random sensitivity; REMOVE, the noise. -/
noncomputable def mixLower (σ : ℝ) (cs : List (ℝ × ℝ)) : Adj → Measure ℝ
  | .add => gaussMixture σ cs
  | .remove => gaussianReal 0 (Real.toNNReal (σ ^ 2))

/-- The density of `gaussMixture`. -/
noncomputable def mixPdf (σ : ℝ) (cs : List (ℝ × ℝ)) (x : ℝ) : ℝ :=
  (cs.map fun c => c.2 * gaussianPDFReal c.1 (Real.toNNReal (σ ^ 2)) x).sum

/-- The densities of `mixUpper` and `mixLower`. -/
noncomputable def mixUpperPdf (σ : ℝ) (cs : List (ℝ × ℝ)) (adj : Adj) (x : ℝ) : ℝ :=
  match adj with
  | .add => gaussianPDFReal 0 (Real.toNNReal (σ ^ 2)) x
  | .remove => mixPdf σ (cs.map fun c => (-c.1, c.2)) x
@[inherit_doc mixUpperPdf]
noncomputable def mixLowerPdf (σ : ℝ) (cs : List (ℝ × ℝ)) (adj : Adj) (x : ℝ) : ℝ :=
  match adj with
  | .add => mixPdf σ cs x
  | .remove => gaussianPDFReal 0 (Real.toNNReal (σ ^ 2)) x

open Classical in
/-- The probability of sensitivity zero. -/
noncomputable def zeroProb (cs : List (ℝ × ℝ)) : ℝ := ((cs.filter fun c => c.1 = 0).map Prod.snd).sum

/-- If sensitivity zero is possible, the privacy loss is bounded on one side by this number: from above for ADD, from below for
REMOVE. -/
noncomputable def mixLimit (cs : List (ℝ × ℝ)) : Adj → ℝ
  | .add => -Real.log (zeroProb cs)
  | .remove => Real.log (zeroProb cs)

/-- Epsilons so close to the limit that the implementation does not tell them from it. -/
def NearLimit (cs : List (ℝ × ℝ)) (adj : Adj) (ε : ℝ) : Prop :=
  0 < zeroProb cs ∧ |ε - mixLimit cs adj| ≤ 1e-8 + 1e-5 * |Real.log (zeroProb cs)|

open Classical in
/-- How much the implementation may under-report delta: the first part is caused by rounding the cut-off to `1e-6` (`S` is the largest
sensitivity), the second one by the tolerance around the limit. -/
noncomputable def mixError (σ S : ℝ) (cs : List (ℝ × ℝ)) : ℝ :=
  max ((√(2 * Real.pi * σ ^ 2))⁻¹ * 1e-6 * (Real.exp (S * 1e-6 / σ ^ 2) - 1))
    (if 0 < zeroProb cs then 1e-8 + 1e-5 * |Real.log (zeroProb cs)| else 0)

/-- The epsilons `F` are such that the implementation's initial search interval contains all cut-offs. `loss` is the privacy loss. -/
def Anchored (cs : List (ℝ × ℝ)) (adj : Adj) (loss : ℝ → ℝ) (F : List ℝ) : Prop :=
  match adj with
  | .add => (∃ z, loss z ∈ F ∧ ∀ c ∈ cs, 0 < c.1 → z ≤ c.1) ∨ (∀ z, loss z ∈ F → ∀ c ∈ cs, 0 < c.1 → c.1 ≤ z)
  | .remove => (∃ z, loss z ∈ F ∧ ∀ c ∈ cs, 0 < c.1 → -c.1 ≤ z) ∨ (∀ z, loss z ∈ F → ∀ c ∈ cs, 0 < c.1 → z ≤ -c.1)

/-- What `from_mixture_gaussian_mechanism` needs of the discretization: sensitivity zero is impossible, or some multiple of the
discretization is above the log of its probability by more than the tolerance of the comparison, and at most `bound`. -/
def DiscOk (cs : List (ℝ × ℝ)) (disc bound : ℝ) : Prop :=
  zeroProb cs = 0 ∨ ∃ k : ℤ, Real.log (zeroProb cs) + (1e-8 + 1e-5 * |Real.log (zeroProb cs)|) < k * disc ∧ k * disc ≤ bound

/-- The log of the likelihood ratio of the mixture at `x`. -/
noncomputable def mixLogRatio (σ : ℝ) (cs : List (ℝ × ℝ)) (x : ℝ) : ℝ :=
  Real.log (cs.map fun c => c.2 * Real.exp ((c.1 * x - c.1 ^ 2 / 2) / σ ^ 2)).sum

/-- Gaussian noise of standard deviation `σ` on every coordinate of a vector whose value is `c + v`, the change `v` drawn from the
list. -/
noncomputable def vecMixture {d : ℕ} (σ : ℝ) (c : Vec d) (vs : List (Vec d × ℝ)) : Measure (Vec d) :=
  (vs.map fun v => ENNReal.ofReal v.2 • gaussianVec (c + v.1) σ).sum

/-- The change drawn from `vs` is at most the sensitivity drawn from `cs`, with the same probability. -/
def ChangeWithin {d : ℕ} (vs : List (Vec d × ℝ)) (cs : List (ℝ × ℝ)) : Prop :=
  List.Forall₂ (fun v c => ‖v.1‖ ≤ c.1 ∧ v.2 = c.2) vs cs

end Verif.Spec
