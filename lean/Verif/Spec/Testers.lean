import Mathlib.MeasureTheory.Constructions.Pi
import Mathlib.MeasureTheory.Measure.Prod
import Mathlib.MeasureTheory.Measure.Real

/-!
# What a tester may see: independent samples of two distributions
-/

namespace Verif.Spec

open MeasureTheory

/-- The joint law of `n1` samples of `P` and `n2` samples of `Q`, all independent. -/
noncomputable def independentSamples {S : Type*} [MeasurableSpace S] (P Q : Measure S) (n1 n2 : ℕ) : Measure ((Fin n1 → S) × (Fin n2 → S)) :=
  (Measure.pi fun _ => P).prod (Measure.pi fun _ => Q)

/-- The number of entries of a list with a property, divided by the length. -/
noncomputable def fraction {S : Type*} (p : S → Prop) (l : List S) : ℝ := by
  classical exact (l.countP fun s => p s : ℕ) / (l.length : ℝ)

/-- The law of an example with its label: label 0 with probability `c` and then a sample of `P`, otherwise label 1 and a sample of
`Q`. -/
noncomputable def labelled {S : Type*} [MeasurableSpace S] (P Q : Measure S) (c : ℝ) : Measure (S × Bool) :=
  ENNReal.ofReal c • P.map (fun s => (s, false)) + ENNReal.ofReal (1 - c) • Q.map (fun s => (s, true))

end Verif.Spec
