import Mathlib.MeasureTheory.Integral.Bochner.Basic
import Mathlib.Analysis.SpecialFunctions.Log.Basic

/-!
# The variational form of the Rényi divergence
-/

namespace Verif.Spec

open MeasureTheory

/-- The functional whose supremum over bounded `g` is the Rényi divergence of order `α` (Birrell et al., arXiv:2007.03814). -/
noncomputable def renyiValue {S : Type*} [MeasurableSpace S] (α : ℝ) (g : S → ℝ) (P Q : Measure S) : ℝ :=
  α / (α - 1) * Real.log (∫ x, Real.exp ((α - 1) * g x) ∂P) - Real.log (∫ x, Real.exp (α * g x) ∂Q)

end Verif.Spec
