import Verif.Model.TestRunner

/-! # Model of the constant data set generator (`dp_auditorium/generators/constant_dataset_generator.py`) -/

namespace Verif.TestRunner

/-- `ConstantDatasetGenerator(dataset_pair)` and its `__call__`, `dp_auditorium/generators/constant_dataset_generator.py:25-38`: the pair,
whatever the last result, and no change of state. -/
def constantDatasetGenerator {σ D : Type} (pair : D × D) (_last : Option ℝ) : Step σ (D × D) := fun s => (s, .ok pair)

end Verif.TestRunner
