import Verif.Model.Generators

/-!
# `mechanisms/pipeline_dp/aggregation.py`: the mechanism that audits PipelineDP

Line numbers refer to `/repo/python/dp_auditorium/dp_auditorium/mechanisms/pipeline_dp/aggregation.py`.
-/

namespace Verif.Aggregation
open Verif Generators

/-- A record of the data: `(partition_id, privacy_id, value)`. `mechanisms/pipeline_dp/aggregation.py:54-58`. -/
abbrev Record := ℕ × ℕ × ℝ

/-- The third-party library: `NaiveBudgetAccountant(epsilon, delta)`, `DPEngine(..., LocalBackend())`, `aggregate(data, config,
data_extractors, public_partitions)` and `compute_budgets()`, lines 47-66. The arguments are the budget, the three extractors, the public
partitions, the data and the randomness; the `config` is part of the engine. The result lists pairs of a partition and its metrics. The
library is not part of the repository, so it is an arbitrary function. -/
abbrev Engine (Ω : Type) := (epsilon delta : ℝ) → (partition privacyId : Record → ℕ) → (value : Record → ℝ) → (publicPartitions : Option (List ℤ)) →
  (data : List Record) → (draw : Ω) → List (ℕ × List ℝ)

/-- The fields of `AggregationMechanism`, `__init__`, lines 29-38: the budget is that of the tested privacy property. -/
structure Mechanism where
  epsilon : ℝ
  delta : ℝ
  publicPartitions : Option (List ℤ)

/-- `_compute_aggregations`, lines 40-78. -/
def computeAggregations {Ω : Type} (E : Engine Ω) (m : Mechanism) (data : List Record) (draw : Ω) : List ℝ :=
  let result := E m.epsilon m.delta mechanismPartition mechanismPrivacyId (fun r => r.2.2) m.publicPartitions data draw
  let values := result.map fun row => row.2
  values.flatten

open Classical in
/-- `np.array` of a list of lists of numbers: rows of different lengths raise `ValueError` (numpy 1.24 and later; the repository pins
1.26.3). The array is represented by its rows. -/
noncomputable def npArray (rows : List (List ℝ)) : Except Err (List (List ℝ)) :=
  if ∀ r ∈ rows, ∀ r' ∈ rows, r.length = r'.length then .ok rows else .error .valueError

/-- `__call__`, lines 80-86, with the randomness of the runs as an argument. -/
noncomputable def call {Ω : Type} (E : Engine Ω) (m : Mechanism) (data : List Record) (numSamples : ℤ) (draws : ℕ → Ω) : Except Err (List (List ℝ)) :=
  npArray ((List.range numSamples.toNat).map fun i => computeAggregations E m data (draws i))

end Verif.Aggregation
