import Verif.Spec.LossLaw
import Mathlib.Analysis.SpecialFunctions.Log.ENNRealLog
import Mathlib.InformationTheory.KullbackLeibler.Basic

/-!
# Specification: Rényi divergence

The Rényi divergence of order `α > 1` of `P` from `Q` is `1/(α-1) * log ∫ (dP/dQ)^α dQ`, infinite unless `P ≪ Q`; at order 1
it is the Kullback-Leibler divergence.
-/

namespace Verif.Spec
open MeasureTheory

/-- `∫ (dP/dQ)^α dQ`. -/
noncomputable def renyiMoment (α : ℝ) {Ω : Type*} [MeasurableSpace Ω] (P Q : Measure Ω) : ENNReal :=
  ∫⁻ x, P.rnDeriv Q x ^ α ∂Q

open Classical in
/-- Rényi divergence of order `α ≥ 1` of `P` from `Q`. -/
noncomputable def renyiDiv (α : ℝ) {Ω : Type*} [MeasurableSpace Ω] (P Q : Measure Ω) : EReal :=
  if α = 1 then (InformationTheory.klDiv P Q : EReal)
  else if P ≪ Q then ((1 / (α - 1) : ℝ) : EReal) * ENNReal.log (renyiMoment α P Q)
  else ⊤

end Verif.Spec
