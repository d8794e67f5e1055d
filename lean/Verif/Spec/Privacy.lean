import Verif.Spec.LossDist
import Verif.Spec.Discrete
import Mathlib.MeasureTheory.Integral.Bochner.Set
import Mathlib.MeasureTheory.Measure.Real
import Mathlib.MeasureTheory.Measure.Typeclasses.Probability

/-!
# Specification: differential privacy of arbitrary mechanisms

A mechanism run on two neighbouring inputs gives two measures on its output space (any measurable space).
-/

namespace Verif.Spec
open MeasureTheory

/-- `(eps, delta)`-indistinguishability in one direction: every event is at most `e^eps` times as likely under `P` as under
`Q`, up to `delta`. A mechanism is `(eps, delta)`-DP when this holds for its outputs on all neighbouring inputs, in both
directions. -/
def Indist {Ω : Type*} [MeasurableSpace Ω] (P Q : Measure Ω) (eps delta : ℝ) : Prop :=
  ∀ S, MeasurableSet S → P.real S ≤ Real.exp eps * Q.real S + delta

/-- A privacy curve `h` (delta as a function of epsilon) is valid for the pair `(P, Q)`. -/
def CurveValid {Ω : Type*} [MeasurableSpace Ω] (P Q : Measure Ω) (h : ℝ → ℝ) : Prop :=
  ∀ eps : ℝ, Indist P Q eps (h eps)

/-- `d` is the `eps`-hockey-stick divergence of `P` from `Q`: the least delta for which they are indistinguishable. -/
def IsHs {Ω : Type*} [MeasurableSpace Ω] (P Q : Measure Ω) (eps d : ℝ) : Prop := IsLeast {d | Indist P Q eps d} d

/-- The delta at `eps` of a privacy loss that is distributed like `μ` where finite and infinite with probability `inf`:
`inf + E max(0, 1 - e^(eps - L))`. -/
noncomputable def lossHs (μ : Measure ℝ) (inf eps : ℝ) : ℝ := inf + ∫ x, hinge (eps : EReal) x ∂μ

/-- The finitely supported measure with mass `p o` at `o ∈ S`. -/
noncomputable def finMeasure {O : Type*} [MeasurableSpace O] (S : Finset O) (p : O → ℝ) : Measure O :=
  ∑ o ∈ S, ENNReal.ofReal (p o) • Measure.dirac o

end Verif.Spec
