import Mathlib.MeasureTheory.Integral.Bochner.Basic
import Mathlib.Analysis.SpecialFunctions.Exp

/-!
# The maximum mean discrepancy
-/

namespace Verif.Spec

open MeasureTheory

/-- The square of the maximum mean discrepancy of two distributions in the space of a kernel: the integral of the kernel with respect to
`(P - Q) ⊗ (P - Q)`. -/
noncomputable def mmdSq {S : Type*} [MeasurableSpace S] (k : S → S → ℝ) (P Q : Measure S) : ℝ :=
  ∫ x, ∫ x', k x x' ∂P ∂P - 2 * ∫ x, ∫ y, k x y ∂Q ∂P + ∫ y, ∫ y', k y y' ∂Q ∂Q

/-- The polynomial the tester inverts: an upper bound of the squared discrepancy of an `(epsilon, delta)`-private mechanism. -/
noncomputable def mmdBound (epsilon delta : ℝ) : ℝ :=
  (Real.exp epsilon - 1) ^ 2 + 2 * (Real.exp epsilon - Real.exp (-epsilon)) * delta + (1 + Real.exp (-epsilon)) * delta ^ 2

end Verif.Spec
