import Verif.Spec.LossLaw
import Verif.Spec.Privacy
import Mathlib.Probability.Distributions.Gaussian.Multivariate

/-!
# Specification: the mechanisms that events stand for

Each `...Pair` is the set of pairs of output distributions, on two neighbouring data sets, of a mechanism described by a
`DpEvent`; `PairProp` is the type of such sets.  `noise_multiplier` is the ratio of the standard deviation (scale) of the
noise to the sensitivity (`dp_event.py:245-296`).
-/

namespace Verif.Spec
open MeasureTheory ProbabilityTheory
open scoped RealInnerProductSpace

/-- `ℝ^d` with the Euclidean norm. -/
abbrev Vec (d : ℕ) := EuclideanSpace ℝ (Fin d)

/-- The normal distribution with mean `a` and covariance `σ² I`. -/
noncomputable def gaussianVec {d : ℕ} (a : Vec d) (σ : ℝ) : Measure (Vec d) := (stdGaussian (Vec d)).map fun z => a + σ • z

/-- The Gaussian mechanism: a vector-valued query of `ℓ₂` sensitivity `Δ`, with noise of standard deviation `z Δ` added to
each coordinate. `a` and `b` are the answers on two neighbouring data sets. -/
inductive GaussianPair (z : ℝ) : PairProp
  | mk {d : ℕ} (a b : Vec d) (Δ : ℝ) (hΔ : 0 < Δ) (h : ‖a - b‖ ≤ Δ) :
    GaussianPair z (Vec d) (gaussianVec a (z * Δ)) (gaussianVec b (z * Δ))

/-- The Poisson-sampled Gaussian mechanism on the set of records `D`: every record is included in the sample `s`
independently with probability `q`; the answer `f s` on the sample is released with noise of standard deviation `σ`. -/
noncomputable def poissonGaussianMech {R : Type} [DecidableEq R] {d : ℕ} (q σ : ℝ) (f : Finset R → Vec d) (D : Finset R) : Measure (Vec d) :=
  ∑ s ∈ D.powerset, ENNReal.ofReal (q ^ s.card * (1 - q) ^ (D.card - s.card)) • gaussianVec (f s) σ

/-- The Poisson-sampled Gaussian mechanism on two data sets, one of which has one more record. The query `f` changes by at
most `Δ` when a record is added to the sample. -/
inductive PoissonGaussianPair (q z : ℝ) : PairProp
  | remove {R : Type} [DecidableEq R] {d : ℕ} (f : Finset R → Vec d) (Δ : ℝ) (hΔ : 0 < Δ)
      (hf : ∀ s r, ‖f (insert r s) - f s‖ ≤ Δ) (D : Finset R) (r : R) (hr : r ∉ D) :
    PoissonGaussianPair q z (Vec d) (poissonGaussianMech q (z * Δ) f (insert r D)) (poissonGaussianMech q (z * Δ) f D)
  | add {R : Type} [DecidableEq R] {d : ℕ} (f : Finset R → Vec d) (Δ : ℝ) (hΔ : 0 < Δ)
      (hf : ∀ s r, ‖f (insert r s) - f s‖ ≤ Δ) (D : Finset R) (r : R) (hr : r ∉ D) :
    PoissonGaussianPair q z (Vec d) (poissonGaussianMech q (z * Δ) f D) (poissonGaussianMech q (z * Δ) f (insert r D))

/-- The Gaussian mechanism on a sample drawn without replacement from the data set `D` of `n` records: a subset of `m` of the
`n` positions is drawn uniformly, and the answer `f` on the multiset of the records at these positions is released with noise
of standard deviation `σ`. -/
noncomputable def worGaussianMech {R : Type} {d n : ℕ} (m : ℕ) (σ : ℝ) (f : Multiset R → Vec d) (D : Fin n → R) : Measure (Vec d) :=
  ∑ S ∈ (Finset.univ : Finset (Fin n)).powersetCard m, ENNReal.ofReal (1 / (n.choose m : ℝ)) • gaussianVec (f (S.val.map D)) σ

/-- The Gaussian mechanism on samples of `m` out of `n` records, on two data sets that differ in the record at one position.
The query `f` changes by at most `Δ` when a record of the sample is replaced. -/
inductive WorGaussianPair (n m : ℕ) (z : ℝ) : PairProp
  | mk {R : Type} {d : ℕ} (f : Multiset R → Vec d) (Δ : ℝ) (hΔ : 0 < Δ)
      (hf : ∀ (s : Multiset R) (a b : R), ‖f (a ::ₘ s) - f (b ::ₘ s)‖ ≤ Δ) (D : Fin n → R) (i : Fin n) (x : R) :
    WorGaussianPair n m z (Vec d) (worGaussianMech m (z * Δ) f D) (worGaussianMech m (z * Δ) f (Function.update D i x))

/-- Several Gaussian queries answered together: the answer to query `k` is `a k`, with independent noise of standard deviation
`σ k`. -/
noncomputable def gaussians {d m : ℕ} (a : Fin m → Vec d) (σ : Fin m → ℝ) : Measure (Fin m → Vec d) :=
  Measure.pi fun k => gaussianVec (a k) (σ k)

/-- Several Gaussian queries on the *same* Poisson sample. -/
noncomputable def poissonGaussiansMech {R : Type} [DecidableEq R] {d m : ℕ} (q : ℝ) (σ : Fin m → ℝ) (f : Fin m → Finset R → Vec d)
    (D : Finset R) : Measure (Fin m → Vec d) :=
  ∑ s ∈ D.powerset, ENNReal.ofReal (q ^ s.card * (1 - q) ^ (D.card - s.card)) • gaussians (fun k => f k s) σ

/-- A Poisson-sampled composition of Gaussian mechanisms with noise multipliers `zs`, on two data sets one of which has one
more record. Query `k` changes by at most `Δ k` when a record is added to the sample. -/
inductive PoissonGaussiansPair (q : ℝ) (zs : List ℝ) : PairProp
  | remove {R : Type} [DecidableEq R] {d : ℕ} (f : Fin zs.length → Finset R → Vec d) (Δ : Fin zs.length → ℝ) (hΔ : ∀ k, 0 < Δ k)
      (hf : ∀ k s r, ‖f k (insert r s) - f k s‖ ≤ Δ k) (D : Finset R) (r : R) (hr : r ∉ D) :
    PoissonGaussiansPair q zs (Fin zs.length → Vec d) (poissonGaussiansMech q (fun k => zs[k] * Δ k) f (insert r D))
      (poissonGaussiansMech q (fun k => zs[k] * Δ k) f D)
  | add {R : Type} [DecidableEq R] {d : ℕ} (f : Fin zs.length → Finset R → Vec d) (Δ : Fin zs.length → ℝ) (hΔ : ∀ k, 0 < Δ k)
      (hf : ∀ k s r, ‖f k (insert r s) - f k s‖ ≤ Δ k) (D : Finset R) (r : R) (hr : r ∉ D) :
    PoissonGaussiansPair q zs (Fin zs.length → Vec d) (poissonGaussiansMech q (fun k => zs[k] * Δ k) f D)
      (poissonGaussiansMech q (fun k => zs[k] * Δ k) f (insert r D))

/-- Several Gaussian queries on the *same* sample drawn without replacement. -/
noncomputable def worGaussiansMech {R : Type} {d n l : ℕ} (m : ℕ) (σ : Fin l → ℝ) (f : Fin l → Multiset R → Vec d) (D : Fin n → R) :
    Measure (Fin l → Vec d) :=
  ∑ S ∈ (Finset.univ : Finset (Fin n)).powersetCard m, ENNReal.ofReal (1 / (n.choose m : ℝ)) • gaussians (fun k => f k (S.val.map D)) σ

/-- A composition of Gaussian mechanisms with noise multipliers `zs` on samples of `m` out of `n` records, on two data sets
that differ in the record at one position. -/
inductive WorGaussiansPair (n m : ℕ) (zs : List ℝ) : PairProp
  | mk {R : Type} {d : ℕ} (f : Fin zs.length → Multiset R → Vec d) (Δ : Fin zs.length → ℝ) (hΔ : ∀ k, 0 < Δ k)
      (hf : ∀ k (s : Multiset R) (a b : R), ‖f k (a ::ₘ s) - f k (b ::ₘ s)‖ ≤ Δ k) (D : Fin n → R) (i : Fin n) (x : R) :
    WorGaussiansPair n m zs (Fin zs.length → Vec d) (worGaussiansMech m (fun k => zs[k] * Δ k) f D)
      (worGaussiansMech m (fun k => zs[k] * Δ k) f (Function.update D i x))

/-- Randomised response over `k` buckets with noise parameter `p`, on input bucket `x` (`dp_event.py:246-260`): with
probability `1 - p` the output is the input, otherwise it is uniform. -/
noncomputable def rrMech (k : ℕ) (p : ℝ) (x : Fin k) : Measure (Fin k) :=
  finMeasure Finset.univ fun o => (1 - p) * (if o = x then 1 else 0) + p / k

/-- Randomised response on the special record: uniform. -/
noncomputable def uniformResponse (k : ℕ) : Measure (Fin k) := finMeasure Finset.univ fun _ => 1 / (k : ℝ)

/-- Randomised response where the record is replaced by another one. -/
inductive RRReplaceOne (k : ℕ) (p : ℝ) : PairProp
  | mk (x y : Fin k) : RRReplaceOne k p (Fin k) (rrMech k p x) (rrMech k p y)

/-- Randomised response where the record is replaced by the special record, or vice versa. -/
inductive RRReplaceSpecial (k : ℕ) (p : ℝ) : PairProp
  | toSpecial (x : Fin k) : RRReplaceSpecial k p (Fin k) (rrMech k p x) (uniformResponse k)
  | ofSpecial (x : Fin k) : RRReplaceSpecial k p (Fin k) (uniformResponse k) (rrMech k p x)

/-- The Laplace distribution with mean `μ` and scale `s`: density `exp(-|x - μ| / s) * 0.5 / s` (`dp_event.py:275-285`). -/
noncomputable def laplace (μ s : ℝ) : Measure ℝ := volume.withDensity fun x => ENNReal.ofReal (0.5 / s * Real.exp (-|x - μ| / s))

/-- Independent Laplace noise of scale `s` added to each coordinate of `a`. -/
noncomputable def laplaceVec {d : ℕ} (a : Fin d → ℝ) (s : ℝ) : Measure (Fin d → ℝ) := Measure.pi fun i => laplace (a i) s

/-- The Laplace mechanism: a vector-valued query of `ℓ₁` sensitivity `Δ`, with Laplace noise of scale `z Δ` on each coordinate. -/
inductive LaplacePair (z : ℝ) : PairProp
  | mk {d : ℕ} (a b : Fin d → ℝ) (Δ : ℝ) (hΔ : 0 < Δ) (h : ∑ i, |a i - b i| ≤ Δ) :
    LaplacePair z (Fin d → ℝ) (laplaceVec a (z * Δ)) (laplaceVec b (z * Δ))

/-- A mechanism whose output does not depend on the record that changes. -/
inductive SamePair : PairProp
  | mk {Ω : Type} [MeasurableSpace Ω] (P : Measure Ω) : SamePair Ω P P

/-- Tree aggregation over `n` steps: node `(j, i)` is the sum over the `2^j` steps `i 2^j, …, (i+1) 2^j - 1`; a node exists if
all its steps do. -/
def IsTreeNode (n : ℕ) (v : ℕ × ℕ) : Prop := (v.2 + 1) * 2 ^ v.1 ≤ n

/-- Step `t` is one of the steps below node `v`. -/
def Below (t : ℕ) (v : ℕ × ℕ) : Prop := v.2 * 2 ^ v.1 ≤ t ∧ t < (v.2 + 1) * 2 ^ v.1

instance (t : ℕ) (v : ℕ × ℕ) : Decidable (Below t v) := by unfold Below; infer_instance

/-- Single-epoch tree aggregation with several trees, tree `T` over `counts[T]` steps, when the record that changes is used
in step `t₀` of tree `T₀` (`dp_event.py:354-369`): the nodes of all trees (or some of them) are released in any order `l`,
each once, with Gaussian noise `z` times the sensitivity; what is summed may depend on earlier releases. A node that is not
above the record is the same on both data sets. -/
inductive TreePair (z : ℝ) (counts : List ℕ) : PairProp
  | mk (l : List (ℕ × ℕ × ℕ)) (hl : l.Nodup) (hn : ∀ v ∈ l, ∃ n, counts[v.1]? = some n ∧ IsTreeNode n v.2) (T₀ t₀ : ℕ)
      {Ω : Type} [MeasurableSpace Ω] (P Q : Measure Ω)
      (h : Adaptive (l.map fun v => if v.1 = T₀ ∧ Below t₀ v.2 then GaussianPair z else SamePair) Ω P Q) :
    TreePair z counts Ω P Q

end Verif.Spec
