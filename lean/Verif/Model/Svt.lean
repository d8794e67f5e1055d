import Verif.Model.Builder
import Mathlib.Data.Real.Basic
import Mathlib.Data.Fintype.Card
import Mathlib.Algebra.BigOperators.Group.Finset.Basic
import Mathlib.Data.Fintype.BigOperators

/-!
# Model of the sparse vector technique mechanisms (`dp_auditorium/mechanisms/sparse_vector_technique.py`)

Data sets are lists of reals (the test for one-dimensional input always passes). `rng.laplace(0, scale)` is `scale` times a
draw of the standard Laplace distribution, as in numpy, and raises `ValueError` for a negative scale; the standard draws are
parameters. Arrays of shape `(num_samples, num_queries)` are functions of the two indices. `num_queries` is a natural number
(`np.ones` and `rng.laplace` raise for a negative one).
-/

namespace Verif

/-- An entry of the answer: `DataValues` (`configs/mechanism_config.py:92-102`) or a noisy query value. -/
inductive SvtOut where
  | noResponse
  | above
  | below
  | value (x : ℝ)

/-- `QueryType`, `configs/mechanism_config.py:84-89`. -/
inductive SvtQueryType where
  | unspecified
  | sum
  | revealRecords

/-- `SVTMechanismConfig`, `configs/mechanism_config.py:105-130`. -/
structure SvtConfig where
  epsilon : ℝ
  maxValue : ℝ
  minValue : ℝ
  queryType : SvtQueryType
  numQueries : ℕ
  threshold : ℝ
  maxAnswered : ℤ

/-- The six classes, lines 239-516. -/
inductive SvtVariant where
  | svt1 | svt2 | svt3 | svt4 | svt5 | svt6

namespace Svt

/-- `np.clip(x, lo, hi)`. `mechanisms/sparse_vector_technique.py:60`, `94`. -/
noncomputable def clip (x lo hi : ℝ) : ℝ := min (max x lo) hi

/-- `clipped_sum_queries`, lines 59-61. -/
noncomputable def sumQuery (lo hi : ℝ) (k : ℕ) (data : List ℝ) : Except Err (Fin k → ℝ) :=
  .ok fun _ => (data.map fun x => clip x lo hi).sum

/-- `reveal_records_queries`, lines 88-103: the last record for all but the last query, which is the second to last record. (For
`k = 0` the one entry is broadcast to the empty array of noises.) -/
noncomputable def revealQuery (lo hi : ℝ) (k : ℕ) (data : List ℝ) : Except Err (Fin k → ℝ) :=
  match data.reverse with
  | last :: second :: _ => .ok fun i => if i.val < k - 1 then clip last lo hi else clip second lo hi
  | _ => .error .valueError

/-- `self._queries.query_calculator(data)`, lines 139-151. -/
noncomputable def queryValues (cfg : SvtConfig) (data : List ℝ) : Except Err (Fin cfg.numQueries → ℝ) :=
  match cfg.queryType with
  | .sum => sumQuery cfg.minValue cfg.maxValue cfg.numQueries data
  | .revealRecords => revealQuery cfg.minValue cfg.maxValue cfg.numQueries data
  | .unspecified => .error .valueError

/-- `self._queries.sensitivity`, lines 64 and 106. -/
def sensitivity (cfg : SvtConfig) : ℝ := cfg.maxValue - cfg.minValue

/-- `query_noise_scale` of the six classes; `SVT5` adds no noise to the queries. `epsilon` is not zero. -/
noncomputable def queryScale (cfg : SvtConfig) : SvtVariant → ℝ
  | .svt1 => 4 * cfg.maxAnswered * sensitivity cfg / cfg.epsilon        -- line 253
  | .svt2 => 4 * cfg.maxAnswered * sensitivity cfg / cfg.epsilon        -- line 300
  | .svt3 => 2 * cfg.maxAnswered * sensitivity cfg / cfg.epsilon        -- line 356
  | .svt4 => 4 * sensitivity cfg / (3 * cfg.epsilon)                    -- line 405
  | .svt5 => 0                                                          -- line 449
  | .svt6 => 2 * sensitivity cfg / cfg.epsilon                          -- line 490

/-- `threshold_noise_scale` of the six classes. `mechanisms/sparse_vector_technique.py:265`, `312-315`, `368`, `412`, `453`, `497`. -/
noncomputable def thresholdScale (cfg : SvtConfig) : SvtVariant → ℝ
  | .svt1 => 2 * sensitivity cfg / cfg.epsilon                          -- line 265
  | .svt2 => 2 * sensitivity cfg * cfg.maxAnswered / cfg.epsilon        -- line 312
  | .svt3 => 2 * sensitivity cfg / cfg.epsilon                          -- line 368
  | .svt4 => 4 * sensitivity cfg / cfg.epsilon                          -- line 412
  | .svt5 => 2 * sensitivity cfg / cfg.epsilon                          -- line 453
  | .svt6 => 2 * sensitivity cfg / cfg.epsilon                          -- line 497

open Classical in
/-- `get_query_output`: the answer for a noisy query and a noisy threshold (e.g. lines 271-282; `SVT3`: 374-385). -/
noncomputable def queryOutput (v : SvtVariant) (noisyQuery noisyThreshold : ℝ) : SvtOut :=
  if noisyThreshold ≤ noisyQuery then
    match v with
    | .svt3 => .value noisyQuery
    | _ => .above
  else .below

open Classical in
/-- The loop of `__call__`, lines 219-235, over the remaining columns; `pass` is `queries_pass_threshold`. -/
noncomputable def loop {n k : ℕ} (maxAnswered : ℤ) (pass : Fin n → Fin k → Prop) :
    List (Fin k) → (Fin n → Fin k → SvtOut) → (Fin n → ℤ) → Fin n → Fin k → SvtOut
  | [], out, _ => out
  | i :: is, out, counter =>
    let aborted : Fin n → Prop := fun s => counter s ≥ maxAnswered
    if (∑ s, if aborted s then 1 else 0) = n then fun s j => if i ≤ j then .noResponse else out s j
    else
      loop maxAnswered pass is (fun s j => if aborted s ∧ j = i then .noResponse else out s j)
        (fun s => counter s + if pass s i then 1 else 0)

/-- The standard Laplace draws of one call: one for the threshold of every sample, one for every sample and query. `mechanisms/sparse_vector_technique.py:259-268`, `306-322`, `362-371`, `406-417`, `455-458`, `491-502`. -/
abbrev Draws (n k : ℕ) := Fin n → ℝ × (Fin k → ℝ)

open Classical in
/-- `AbstractSVTMechanism.__call__`, lines 187-236, for the given variant. The exceptions of the constructor for an unknown query
type are raised here. -/
noncomputable def call (v : SvtVariant) (cfg : SvtConfig) (data : List ℝ) (n : ℕ) (draws : Draws n cfg.numQueries) :
    Except Err (Fin n → Fin cfg.numQueries → SvtOut) :=
  match queryValues cfg data with
  | .error e => .error e
  | .ok q =>
    if thresholdScale cfg v < 0 then .error .valueError
    else if queryScale cfg v < 0 then .error .valueError
    else
      let noisyThreshold : Fin n → ℝ := fun s => cfg.threshold + thresholdScale cfg v * (draws s).1
      let noisyQueries : Fin n → Fin cfg.numQueries → ℝ := fun s i => q i + queryScale cfg v * (draws s).2 i
      .ok (loop cfg.maxAnswered (fun s i => noisyThreshold s ≤ noisyQueries s i) (List.finRange cfg.numQueries)
        (fun s i => queryOutput v (noisyQueries s i) (noisyThreshold s)) (fun _ => 0))

end Svt
end Verif
