import Verif.Spec.Privacy
import Verif.Spec.Generators
import Verif.Model.Aggregation

/-! # What the PipelineDP engine promises -/

namespace Verif.Spec
open MeasureTheory Verif.Aggregation

/-- Two random outputs, as functions of the draw, of which every event of the first is bounded by the same event of the second. -/
def Hidden {Ω O : Type} [MeasurableSpace Ω] (μ : Measure Ω) (f g : Ω → O) (eps delta : ℝ) : Prop :=
  ∀ S : Set O, MeasurableSet (f ⁻¹' S) → MeasurableSet (g ⁻¹' S) → μ.real (f ⁻¹' S) ≤ Real.exp eps * μ.real (g ⁻¹' S) + delta

/-- The engine keeps its budget: whatever the extractors and the public partitions, removing all records of one privacy id changes no
probability by more than the budget allows. -/
def EnginePrivate {Ω : Type} [MeasurableSpace Ω] (μ : Measure Ω) (E : Engine Ω) : Prop :=
  ∀ (eps delta : ℝ) (partition privacyId : Record → ℕ) (value : Record → ℝ) (pub : Option (List ℤ)) (small big : List Record),
    0 < eps → 0 ≤ delta → RemovesUser privacyId small big →
    Hidden μ (E eps delta partition privacyId value pub small) (E eps delta partition privacyId value pub big) eps delta ∧
    Hidden μ (E eps delta partition privacyId value pub big) (E eps delta partition privacyId value pub small) eps delta

end Verif.Spec
