import Verif.Model.Clustering
import Verif.Model.Validation

/-!
# Model of the result of a clustering and its metrics (`learning/clustering/clustering_algorithm.py`)

Points are rows of reals, labels are integers. Counts are exact (`int64` does not overflow). Centers of another dimension than the data, for
which all paths raise `ValueError` (lines 130, 146-149), are excluded by the types.
-/

namespace Verif.Clustering

variable {d : ℕ}

/-- `Data(datapoints, radius, labels)`: the check of the number of labels, `clustering_params.py:172-180`. -/
def checkLabels (numPoints : ℕ) (labels : Option (List ℤ)) : Except Err Unit :=
  match labels with
  | none => .ok ()
  | some l => if l.length ≠ numPoints then .error .valueError else .ok ()

/-- One entry of `squared_distances`, `clustering_algorithm.py:130`. -/
noncomputable def squaredDistance (center datapoint : Point d) : ℝ := ∑ i, (center i - datapoint i) ^ 2

/-- `np.argmin` with the smallest value: the first index of a smallest entry, `none` for an empty array (`ValueError`). `clustering_algorithm.py:131`. -/
noncomputable def argmin : List ℝ → Option (ℕ × ℝ)
  | [] => none
  | x :: xs =>
    match argmin xs with
    | none => some (0, x)
    | some (i, y) => if x ≤ y then some (0, x) else some (i + 1, y)

/-- `closest_center`, `clustering_algorithm.py:124-132`. -/
noncomputable def closestCenter (centers : List (Point d)) (datapoint : Point d) : Except Err (ℤ × ℝ) :=
  match argmin (centers.map fun c => squaredDistance c datapoint) with
  | none => .error .valueError
  | some (i, v) => .ok (i, v)

/-- The list comprehension in line 135. -/
noncomputable def closestCenters (centers : List (Point d)) : List (Point d) → Except Err (List (ℤ × ℝ))
  | [] => .ok []
  | x :: xs => do
    let r ← closestCenter centers x
    let rs ← closestCenters centers xs
    .ok (r :: rs)

/-- Lines 134-138: labels and loss are computed if neither was given. -/
noncomputable def fillLabels (pts centers : List (Point d)) (labels : Option (List ℤ)) (loss : Option ℝ) :
    Except Err (Option (List ℤ) × Option ℝ) :=
  match labels, loss with
  | none, none => do
    let result ← closestCenters centers pts
    .ok (some (result.map Prod.fst), some (result.map Prod.snd).sum)
  | labels, loss => .ok (labels, loss)

/-- `ClusteringResult.__post_init__`, `clustering_algorithm.py:122-152`: the labels and the loss of the new object. -/
noncomputable def mkResult (pts centers : List (Point d)) (labels : Option (List ℤ)) (loss : Option ℝ) : Except Err (List ℤ × ℝ) := do
  let (labels, loss) ← fillLabels pts centers labels loss
  match labels, loss with
  | some labels, some loss =>
    if pts.length ≠ labels.length then .error .valueError                                             -- lines 143-145
    else if ¬ ∀ l ∈ labels, 0 ≤ l ∧ l < centers.length then .error .valueError                       -- lines 150-152
    else .ok (labels, loss)
  | _, _ => .error .valueError                                                                       -- lines 139-141

/-- A two-dimensional array of counts. `clustering_algorithm.py:176-180`. -/
structure Histogram where
  rows : ℕ
  cols : ℕ
  cell : ℕ → ℕ → ℕ

/-- `np.max` of an array of integers; `ValueError` for an empty one. `clustering_algorithm.py:174-175`. -/
def npMax : List ℤ → Except Err ℤ
  | [] => .error .valueError
  | x :: xs => .ok (xs.foldl max x)

/-- `cross_label_histogram`, `clustering_algorithm.py:154-180`. The edges of the bins are `-0.5, 0.5, …, max + 0.5`, so an integer label falls
into the bin of its number, and a negative one into none. If the largest label is below -1 there are no edges, and numpy raises
`IndexError`; if it is -1 there is one edge and no bin. The labels of the clusters are not negative (checked by `mkResult`). -/
def crossLabelHistogram (labels : List ℤ) (trueLabels : Option (List ℤ)) : Except Err Histogram :=
  match trueLabels with
  | none => .error .valueError
  | some t => do
    let maxLabel ← npMax labels
    let maxTrue ← npMax t
    if maxTrue < -1 then .error .indexError
    else .ok ⟨(maxLabel + 1).toNat, (maxTrue + 1).toNat, fun i j => (labels.zip t).countP fun p => p.1 = (i : ℤ) ∧ p.2 = (j : ℤ)⟩

/-- Division of numpy floats: a warning and NaN or an infinity for a division by zero. `clustering_algorithm.py:89`, `96`, `103`. -/
noncomputable def npDiv (a b : ℝ) : PyFloat :=
  if b = 0 then (if a = 0 then .nan else if 0 < a then .num ⊤ else .num ⊥) else .num ((a / b : ℝ) : EReal)

/-- `ClusteringMetrics`, `clustering_algorithm.py:68-77`. -/
structure Metrics where
  numPoints : ℕ
  dominantLabelCorrectCount : ℕ
  dominantLabelAccuracy : PyFloat
  truePairs : ℝ
  trueNonmatchCount : ℝ
  trueNonmatchFrac : PyFloat
  falsePairs : ℝ
  falseMatchCount : ℝ
  falseMatchFrac : PyFloat

/-- `ClusteringMetrics.__init__`, `clustering_algorithm.py:79-103`. `np.max` along an empty axis raises. -/
noncomputable def clusteringMetrics (h : Histogram) : Except Err Metrics :=
  let numPoints := ∑ i ∈ Finset.range h.rows, ∑ j ∈ Finset.range h.cols, h.cell i j                                   -- line 81
  let histSquareSum : ℝ := ∑ i ∈ Finset.range h.rows, ∑ j ∈ Finset.range h.cols, (h.cell i j : ℝ) ^ 2                 -- line 82
  let numPairs : ℝ := numPoints * (numPoints - 1) / 2                                                                -- line 83
  if h.rows ≠ 0 ∧ h.cols = 0 then .error .valueError
  else
    let dominant := ∑ i ∈ Finset.range h.rows, (Finset.range h.cols).sup (h.cell i)                                   -- lines 86-87
    let trueLabelCount : ℕ → ℝ := fun j => ∑ i ∈ Finset.range h.rows, (h.cell i j : ℝ)                                -- line 92
    let truePairs := ∑ j ∈ Finset.range h.cols, trueLabelCount j * (trueLabelCount j - 1) / 2                         -- line 93
    let trueNonmatch := (∑ j ∈ Finset.range h.cols, trueLabelCount j ^ 2 - histSquareSum) / 2                         -- lines 94-95
    let clusterLabelCount : ℕ → ℝ := fun i => ∑ j ∈ Finset.range h.cols, (h.cell i j : ℝ)                             -- line 99
    let falsePairs := numPairs - truePairs                                                                           -- line 100
    let falseMatch := (∑ i ∈ Finset.range h.rows, clusterLabelCount i ^ 2 - histSquareSum) / 2                        -- lines 101-102
    .ok {
      numPoints := numPoints
      dominantLabelCorrectCount := dominant
      dominantLabelAccuracy := npDiv dominant numPoints
      truePairs := truePairs
      trueNonmatchCount := trueNonmatch
      trueNonmatchFrac := npDiv trueNonmatch truePairs
      falsePairs := falsePairs
      falseMatchCount := falseMatch
      falseMatchFrac := npDiv falseMatch falsePairs }

/-- `get_clustering_metrics`, `clustering_algorithm.py:182-188`. -/
noncomputable def getClusteringMetrics (labels : List ℤ) (trueLabels : Option (List ℤ)) : Except Err Metrics :=
  crossLabelHistogram labels trueLabels >>= clusteringMetrics

end Verif.Clustering
