import Verif.Model.TestRunner

/-!
# Model of the data set generators (`dp_auditorium/generators/`)

The Vizier client is a third-party service: a study is an arbitrary policy for the next suggestion, given the measurements completed so
far and the number of suggestions made. Parameter names, which the code prints and parses back, are an inductive type.
-/

namespace Verif

/-- The names of Vizier parameters: `f'x{i}'` (`vizier_dataset_generator.py:50`), `f'float{i}'` and `f'int{i}'`
(`classification_dataset_generator.py:55-62`). -/
inductive ParamName where
  | x (i : ℕ)
  | float (i : ℕ)
  | int (i : ℕ)
  deriving DecidableEq

/-- A Vizier trial: `parameters` is a dict. `generators/vizier_dataset_generator.py:28-43`. -/
structure VizierTrial where
  parameters : List (ParamName × ℝ)

/-- A study: what `suggest(count=1)[-1]` will return, and what has happened so far. -/
structure Study where
  policy : List (VizierTrial × ℝ) → ℕ → Option VizierTrial
  asked : ℕ
  completed : List (VizierTrial × ℝ)

/-- The attributes of a `VizierDatasetGenerator` that its methods use. `generators/vizier_dataset_generator.py:108-147`. -/
structure VizierGenerator where
  strToIdx : List (ParamName × ℕ)
  numVizierParams : ℕ
  trialLoaded : Bool
  lastTrial : Option VizierTrial
  study : Study

namespace VizierGenerator

/-- The end of `VizierDatasetGenerator.__init__` with `_get_params_name_mapping`, lines 46-54, 117-120 and 140-147; the number parsed
from a name is the one it was printed from. -/
def init (study : Study) (numParams : ℕ) : VizierGenerator :=
  ⟨(List.range numParams).map fun i => (.x i, i), numParams, false, none, study⟩

/-- `_load_trial` with `_get_trial`, lines 28-43 and 149-155. -/
def loadTrial : Step VizierGenerator Unit := fun g =>
  let g' := if g.trialLoaded then g else
    let t := g.study.policy g.study.completed g.study.asked
    { g with lastTrial := t, trialLoaded := t.isSome, study := { g.study with asked := g.study.asked + 1 } }
  match g'.lastTrial with
  | none => (g', .error .valueError)
  | some _ => (g', .ok ())

/-- `_complete_trial`, lines 157-174. -/
def completeTrial (r : ℝ) (g : VizierGenerator) : VizierGenerator :=
  match g.lastTrial with
  | none => g
  | some t => { g with trialLoaded := false, study := { g.study with completed := g.study.completed ++ [(t, r)] } }

/-- `data[i] = val`. `generators/vizier_dataset_generator.py:195`. -/
def setEntry (data : List ℝ) (i : ℕ) (v : ℝ) : Except Err (List ℝ) :=
  if i < data.length then .ok (data.set i v) else .error .indexError

/-- The loop of `_extract_params_from_trial`, lines 193-195. -/
def fill (strToIdx : List (ParamName × ℕ)) : List (ParamName × ℝ) → List ℝ → Except Err (List ℝ)
  | [], data => .ok data
  | (name, v) :: ps, data =>
    match strToIdx.lookup name with
    | none => .error .keyError
    | some i =>
      match setEntry data i v with
      | .error e => .error e
      | .ok data' => fill strToIdx ps data'

/-- `_extract_params_from_trial`, lines 176-196. -/
def extract (g : VizierGenerator) : Except Err (List ℝ) :=
  match g.lastTrial with
  | none => .error .valueError
  | some t => fill g.strToIdx t.parameters (List.replicate g.numVizierParams 0)

open Classical in
/-- The first two lines of `VizierDatasetGenerator.__call__`, 222-223: `if last_trial_result:` holds for a number other than zero. -/
noncomputable def report (last : Option ℝ) (g : VizierGenerator) : VizierGenerator :=
  match last with
  | none => g
  | some r => if r = 0 then g else completeTrial r g

/-- `VizierDatasetGenerator.__call__`, lines 204-232. -/
noncomputable def call {D : Type} (getNeighboring : List ℝ → Except Err D) (last : Option ℝ) : Step VizierGenerator D := fun g =>
  match loadTrial (report last g) with
  | (g2, .error e) => (g2, .error e)
  | (g2, .ok ()) =>
    match extract g2 with
    | .error e => (g2, .error e)
    | .ok params => (g2, getNeighboring params)

end VizierGenerator

namespace Generators

/-- `VizierScalarDataAddRemoveGenerator.get_neighboring_datasets_from_vizier_params`, lines 242-246. -/
def scalar (params : List ℝ) : Except Err (List ℝ × List ℝ) := .ok (params.dropLast, params)

/-- `array.reshape(n, d)`. `generators/classification_dataset_generator.py:161`, `generators/pipeline_dp_vizier_dataset_generator.py:79-81`. -/
def reshape (a : List ℝ) (n d : ℕ) : Except Err (List (List ℝ)) :=
  if a.length = n * d then .ok ((List.range n).map fun i => (a.drop (i * d)).take d) else .error .valueError

/-- `ClassificationDatasetGenerator.get_neighboring_datasets_from_vizier_params`, `classification_dataset_generator.py:143-166`, with
`num_float_params = sample_dim * num_samples`. -/
def classification (numSamples sampleDim : ℕ) (params : List ℝ) : Except Err ((List (List ℝ) × List ℝ) × (List (List ℝ) × List ℝ)) :=
  let features := params.take (sampleDim * numSamples)
  match reshape features numSamples sampleDim with
  | .error e => .error e
  | .ok features =>
    let labels := params.drop (sampleDim * numSamples)
    .ok ((features, labels), (features.dropLast, labels.dropLast))

/-- A parameter added to a Vizier problem: `add_float_param` or `add_int_param` with its bounds. `generators/vizier_dataset_generator.py:57-91`. -/
inductive ParamSpec where
  | float (name : ParamName) (minValue maxValue : ℝ)
  | int (name : ParamName) (minValue maxValue : ℤ)

/-- The parameters of the problem built by `_initialize_vizier_problem_and_params_lookup_table`, lines 55-84. -/
def classificationProblem (numFloatParams numIntParams : ℕ) (minValue maxValue : ℝ) (numClasses : ℤ) : List ParamSpec :=
  (List.range numFloatParams).map (fun i => .float (.float i) minValue maxValue) ++
  (List.range numIntParams).map (fun i => .int (.int (numFloatParams + i)) 0 numClasses)

/-- The lookup table of `_initialize_vizier_problem_and_params_lookup_table`, lines 55-67. -/
def classificationTable (numFloatParams numIntParams : ℕ) : List (ParamName × ℕ) :=
  (List.range numFloatParams).map (fun i => (.float i, i)) ++ (List.range numIntParams).map (fun i => (.int (numFloatParams + i), numFloatParams + i))

/-- `_generate_sparse_matrix_from_dense`, `pipeline_dp_vizier_dataset_generator.py:52-56`: `np.ndenumerate` goes through the rows. -/
def sparse (data : List (List ℝ)) : List (ℕ × ℕ × ℝ) :=
  (data.zipIdx.map fun row => row.1.zipIdx.map fun v => (row.2, v.2, v.1)).flatten

/-- `PipelineDpDatasetGenerator.get_neighboring_datasets_from_vizier_params`, lines 58-84. -/
def pipelineDp (maxPrivacyIds maxPartitions : ℕ) (params : List ℝ) : Except Err (List (ℕ × ℕ × ℝ) × List (ℕ × ℕ × ℝ)) :=
  match reshape params maxPrivacyIds maxPartitions with
  | .error e => .error e
  | .ok allData => .ok (sparse allData.dropLast, sparse allData)

/-- `privacy_id_extractor` of `AggregationMechanism`, `mechanisms/pipeline_dp/aggregation.py:56`. -/
def mechanismPrivacyId (r : ℕ × ℕ × ℝ) : ℕ := r.2.1

/-- `partition_extractor` of `AggregationMechanism`, `mechanisms/pipeline_dp/aggregation.py:55`. -/
def mechanismPartition (r : ℕ × ℕ × ℝ) : ℕ := r.1

end Generators
end Verif
