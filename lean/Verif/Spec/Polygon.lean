import Verif.Spec.Privacy
import Mathlib.Algebra.Order.Floor.Ring

/-!
# Specification: privacy curves and their values on a grid
-/

namespace Verif.Spec
open MeasureTheory

/-- `h` is the exact privacy curve of the pair `(P, Q)`: `h eps` is the least delta for which they are `(eps, delta)`-indistinguishable. -/
def HsCurve {Ω : Type*} [MeasurableSpace Ω] (P Q : Measure Ω) (h : ℝ → ℝ) : Prop := ∀ eps : ℝ, IsHs P Q eps (h eps)

/-- The polygon, over the variable `e^eps`, through the values of the curve `h` at the multiples of `disc`. -/
noncomputable def gridPolygon (disc : ℝ) (h : ℝ → ℝ) (eps : ℝ) : ℝ :=
  let a := ⌊eps / disc⌋ * disc
  let b := a + disc
  h a + (Real.exp eps - Real.exp a) / (Real.exp b - Real.exp a) * (h b - h a)

end Verif.Spec
