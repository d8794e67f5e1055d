import Verif.Model.ClusteringResult
import Mathlib.Analysis.SpecialFunctions.Pow.Real

/-!
# Model of the data generator of the clustering demo (`learning/clustering/demo/data_generation.py`)

The random draws are parameters: the standard normal vectors and the uniform numbers. A normal vector is zero with probability zero; numpy
then returns NaN, the model (where `x / 0 = 0`) the origin. Sizes are natural numbers. The rounding that may push a point outside of the
sphere, and so trip the assertion, is not modelled.
-/

namespace Verif.Clustering

variable {d : ℕ}

/-- What the generator raises: a failed `assert`, or another exception. `demo/data_generation.py:21-99`. -/
inductive DemoErr where
  | assertionError
  | err (e : Err)
  deriving DecidableEq

/-- One row of `sample_uniform_sphere`, `data_generation.py:38-41`: the normal vector `z`, scaled to norm `radius * u**(1.0 / dim)`. -/
noncomputable def spherePoint (radius : ℝ) (z : Point d) (u : ℝ) : Point d := (radius * u ^ (1 / (d : ℝ)) / ‖z‖) • z

open Classical in
/-- `sample_uniform_sphere`, `data_generation.py:21-45`. `1.0 / dim` raises for dimension zero (line 39), `max` of no points raises
`ValueError` (line 42). -/
noncomputable def sampleUniformSphere (numPoints : ℕ) (radius : ℝ) (z : Fin numPoints → Point d) (u : Fin numPoints → ℝ) :
    Except DemoErr (List (Point d)) :=
  if d = 0 then .error (.err .zeroDivisionError)
  else
    let result := List.ofFn fun i => spherePoint radius (z i) (u i)
    if result.isEmpty then .error (.err .valueError)
    else if ∃ x ∈ result, radius < ‖x‖ then .error .assertionError
    else .ok result

/-- `num_points_per_cluster`, `data_generation.py:84-86`. -/
def clusterSizes (numPoints numClusters : ℕ) : List ℕ :=
  (List.range numClusters).map fun i => numPoints / numClusters + if i + 1 = numClusters then numPoints % numClusters else 0

/-- Standard deviation of a coordinate of a point around its center, `data_generation.py:81`. -/
noncomputable def spread (d : ℕ) (clusterRatio radius : ℝ) : ℝ := Real.sqrt radius / (clusterRatio * Real.sqrt d)

/-- An exception of the rest of the library. Used for `demo/clustering_demo.py:55-115`. -/
def liftErr {α : Type} : Except Err α → Except DemoErr α
  | .ok a => .ok a
  | .error e => .error (.err e)

open Classical in
/-- `generate_synthetic_dataset`, `data_generation.py:48-99`: the points and the labels of the returned data. `zc`, `uc` are the draws
for the centers, `z i` is the draw for point `i`, before it is scaled to the spread (`np.random.normal` raises `ValueError` for a negative
scale). The radius is not negative (for a negative radius `np.sqrt` returns NaN). -/
noncomputable def generateSyntheticDataset (numPoints numClusters : ℕ) (clusterRatio radius : ℝ) (zc : Fin numClusters → Point d)
    (uc : Fin numClusters → ℝ) (z : Fin numPoints → Point d) : Except DemoErr (List (Point d) × List ℤ) := do
  if clusterRatio = 0 then .error (.err .zeroDivisionError)
  let centers ← sampleUniformSphere numClusters (radius * (1 - 1 / clusterRatio)) zc uc
  if spread d clusterRatio radius < 0 then .error (.err .valueError)
  let noise := List.ofFn fun i => spread d clusterRatio radius • z i
  let sizes := clusterSizes numPoints numClusters
  let labels := (sizes.zipIdx.map fun p => List.replicate p.1 (p.2 : ℤ)).flatten
  let shift := (List.zipWith List.replicate sizes centers).flatten
  let datapoints := List.zipWith (· + ·) noise shift
  liftErr (checkLabels datapoints.length (some labels))
  let clipped ← liftErr (clipByRadius radius datapoints)
  liftErr (checkLabels clipped.length (some labels))
  return (clipped, labels)

end Verif.Clustering
