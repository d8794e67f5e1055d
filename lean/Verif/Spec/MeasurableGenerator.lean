import Verif.Spec.Sampling
import Verif.Model.Validation

/-!
# Generators whose choice of data sets is an event
-/

namespace Verif.Spec
open MeasureTheory

/-- From a given state, the generator makes countably many choices (of a new state and two data sets), and each of them for a measurable set of
estimates. This holds for a generator that ignores the estimates, and for one that looks at the floating-point digits of the last estimate. -/
def MeasurableGenerator {G D : Type} (generator : Option ℝ → Step G (D × D)) : Prop :=
  ∀ g, (Set.range fun e : ℝ => generator (some e) g).Countable ∧ ∀ y, MeasurableSet {e : ℝ | generator (some e) g = y}

/-- An estimate that is a number: what the test passes on to the generator. -/
noncomputable def realEstimate (r : Except Err PyFloat) : Except Err ℝ :=
  match r with
  | .error e => .error e
  | .ok (.num e) => .ok e.toReal
  | .ok .nan => .ok 0

end Verif.Spec
