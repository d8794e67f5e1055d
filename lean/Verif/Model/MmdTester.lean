import Verif.Model.Testers
import Verif.Model.Validation

/-!
# Model of the MMD tester (`dp_auditorium/testers/mmd_tester.py`)

A sample is a vector of numbers (a scalar is a vector with one entry). Matrices, for which `np.linalg.norm(..., 1)` is an operator norm,
are not modelled. A failure probability that is negative or above one makes numpy take the root of a negative number; the model is about
failure probabilities in `[0, 1]`.
-/

namespace Verif

namespace Testers

open Classical

/-- `Kernel`, `configs/property_tester_config.py:104-109`. -/
inductive Kernel where
  | unspecified
  | rbf
  | laplacian

/-- The attributes of an `MMDPropertyTester`, `mmd_tester.py:56-67`. -/
structure MmdTester (S : Type) where
  epsilon : ℝ
  delta : ℝ
  kernel : S → S → ℝ

/-- The lambda of lines 59-61: `np.exp(-bandwidth * np.linalg.norm(x - y) ** 2)`. -/
noncomputable def rbfKernel {d : ℕ} (bandwidth : ℝ) (x y : Fin d → ℝ) : ℝ :=
  Real.exp (-bandwidth * √(∑ i, (x i - y i) ^ 2) ^ 2)

/-- The lambda of lines 63-65: `np.exp(-bandwidth * np.linalg.norm(np.atleast_1d(x - y), 1))`. -/
noncomputable def laplacianKernel {d : ℕ} (bandwidth : ℝ) (x y : Fin d → ℝ) : ℝ :=
  Real.exp (-bandwidth * ∑ i, |x i - y i|)

/-- `MMDPropertyTester.__init__`, `mmd_tester.py:42-67`, for finite `epsilon` and `delta`. -/
noncomputable def mmdTester (d : ℕ) (kernel : Kernel) (bandwidth epsilon delta : ℝ) : Except Err (MmdTester (Fin d → ℝ)) :=
  match Validation.approximateDp (some (.num epsilon)) (some (.num delta)) with
  | .error e => .error e
  | .ok () =>
    match kernel with
    | .rbf => .ok ⟨epsilon, delta, rbfKernel bandwidth⟩
    | .laplacian => .ok ⟨epsilon, delta, laplacianKernel bandwidth⟩
    | .unspecified => .error .valueError

namespace MmdTester

variable {S : Type} (t : MmdTester S)

/-- The pairwise kernel function, lines 110-112. -/
def pairwise (xa xb ya yb : S) : ℝ := t.kernel xa xb - 2 * t.kernel xa ya + t.kernel ya yb

/-- The body of the loop over the two tolerances, lines 144-154, for one of them. -/
noncomputable def boundOf (sampleMean tol : ℝ) : ℝ :=
  (√(max 0 ((Real.exp t.epsilon - Real.exp (-t.epsilon)) ^ 2 +
    (1 + Real.exp (-t.epsilon)) * (sampleMean - tol - (Real.exp t.epsilon - 1) ^ 2))) - (Real.exp t.epsilon - Real.exp (-t.epsilon))) /
      (1 + Real.exp (-t.epsilon))

/-- The same if the tolerance is infinite: the argument of `max` is minus infinity. `testers/mmd_tester.py:141-154`. -/
noncomputable def boundOfInf : ℝ :=
  (√0 - (Real.exp t.epsilon - Real.exp (-t.epsilon))) / (1 + Real.exp (-t.epsilon))

/-- Lines 114-157, from the values of the pairwise kernel function (`zip` stops with the shortest array) and `num_samples`. With
`num_samples` zero, `total / num_samples` is a quotient of Python integers; with one, the second tolerance is a positive numpy number
divided by zero, that is infinite. -/
noncomputable def fromValues (values : List ℝ) (numSamples : ℕ) (fp : ℝ) : Except Err ℝ :=
  let total := values.sum
  let totalSquares := (values.map fun h => h ^ 2).sum
  if numSamples = 0 then .error .zeroDivisionError
  else
    let sampleMean := total / numSamples
    let sampleVariance := max 0 (totalSquares / numSamples - sampleMean ^ 2)
    if fp = 0 then .error .zeroDivisionError
    else
      let tol0 := √(8 * Real.log (1 / fp) / numSamples)
      let bound0 := t.boundOf sampleMean tol0
      let bound1 :=
        if numSamples = 1 then t.boundOfInf
        else t.boundOf sampleMean
          (√(2 * sampleVariance * Real.log (2 / fp) / numSamples) + 28 * Real.log (2 / fp) / (3 * ((numSamples : ℝ) - 1)))
      .ok (max bound0 bound1)

/-- `estimate_lower_bound`, lines 74-157. -/
noncomputable def estimateLowerBound (samples1 samples2 : List S) (fp : ℝ) : Except Err ℝ :=
  match split samples1 with
  | .error e => .error e
  | .ok (samples1a, samples1b) =>
    match split samples2 with
    | .error e => .error e
    | .ok (samples2a, samples2b) =>
      let numSamples := min (min (min samples1a.length samples1b.length) samples2a.length) samples2b.length
      let values := ((samples1a.zip samples1b).zip (samples2a.zip samples2b)).map fun q => t.pairwise q.1.1 q.1.2 q.2.1 q.2.2
      t.fromValues values numSamples fp

/-- `reject_property`, lines 159-161. -/
def rejectProperty (lowerBound : ℝ) : Prop := lowerBound > t.delta

end MmdTester
end Testers
end Verif
