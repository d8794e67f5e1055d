import Verif.Spec.LossLaw

/-!
# Specification: the privacy loss law of a pair of distributions

`log (dP/dQ)` under `P`, infinite where `Q` puts no mass.
-/

namespace Verif.Spec
open MeasureTheory

/-- `L` is the law, under `P`, of the privacy loss `log (dP/dQ)`: `S` is the part of `P` outside the reach of `Q`, `f` the
density of the rest of `P` with respect to `Q`. -/
def LossLaw.Of (L : LossLaw) {Ω : Type*} [MeasurableSpace Ω] (P Q : Measure Ω) : Prop :=
  ∃ (S : Set Ω) (f : Ω → ℝ), MeasurableSet S ∧ Measurable f ∧ (∀ x, 0 ≤ f x) ∧ Q S = 0 ∧ P.real S = L.inf ∧
    P.restrict Sᶜ = Q.withDensity (fun x => ENNReal.ofReal (f x)) ∧ L.μ = (P.restrict Sᶜ).map fun x => Real.log (f x)

end Verif.Spec
