import Verif.Spec.Privacy
import Mathlib.MeasureTheory.Group.Convolution
import Mathlib.Probability.Kernel.Composition.MeasureCompProd

/-!
# Specification: privacy loss laws and adaptive composition

A privacy loss law is a probability distribution on `ℝ ∪ {+∞}`. It dominates a pair of output distributions `(P, Q)` if its
delta curve is valid for the pair. An adaptive composition runs a first mechanism and then a second one that may depend on
the first output: the joint output distributions are `P ⊗ₘ κ` and `Q ⊗ₘ η` with Markov kernels `κ`, `η`.
-/

namespace Verif.Spec
open MeasureTheory ProbabilityTheory

/-- Distribution of a privacy loss: `μ` on the finite losses, `inf` the probability of an infinite loss; total mass one. -/
structure LossLaw where
  inf : ℝ
  μ : Measure ℝ
  fin : IsFiniteMeasure μ
  inf_nonneg : 0 ≤ inf
  mass : inf + μ.real Set.univ = 1

namespace LossLaw

instance (L : LossLaw) : IsFiniteMeasure L.μ := L.fin

/-- The delta at `eps`: `inf + E max(0, 1 - e^(eps - loss))`. -/
noncomputable def hs (L : LossLaw) (eps : ℝ) : ℝ := lossHs L.μ L.inf eps

/-- The law of the sum of independent losses, `+∞` if one of them is. -/
noncomputable def conv (A B : LossLaw) : LossLaw where
  inf := 1 - (1 - A.inf) * (1 - B.inf)
  μ := A.μ.conv B.μ
  fin := inferInstance
  inf_nonneg := by
    have h1 : 0 ≤ A.μ.real Set.univ := measureReal_nonneg
    have h2 : 0 ≤ B.μ.real Set.univ := measureReal_nonneg
    nlinarith [A.inf_nonneg, B.inf_nonneg, A.mass, B.mass]
  mass := by
    have : (A.μ.conv B.μ).real Set.univ = A.μ.real Set.univ * B.μ.real Set.univ := by
      rw [measureReal_def, Measure.conv, Measure.map_apply (by fun_prop) MeasurableSet.univ, Set.preimage_univ,
        ← Set.univ_prod_univ, Measure.prod_prod, ENNReal.toReal_mul]; rfl
    rw [this]
    have a := A.mass
    have b := B.mass
    have a' : A.μ.real Set.univ = 1 - A.inf := by linarith
    have b' : B.μ.real Set.univ = 1 - B.inf := by linarith
    rw [a', b']; ring

/-- The law of a loss that is always zero. -/
noncomputable def zero : LossLaw where
  inf := 0
  μ := Measure.dirac 0
  fin := inferInstance
  inf_nonneg := le_rfl
  mass := by simp

/-- The law of the sum of all the losses of a list. -/
noncomputable def convAll : List LossLaw → LossLaw
  | [] => zero
  | A :: l => A.conv (convAll l)

/-- The delta curve of `L` is valid for the pair of output distributions `(P, Q)`. -/
def Dominates (L : LossLaw) {Ω : Type*} [MeasurableSpace Ω] (P Q : Measure Ω) : Prop := CurveValid P Q L.hs

end LossLaw

/-- The points with masses, plus an infinite loss of mass `inf`, lie stochastically above the law `L`: every increasing
test function with values in [0,1] (and value 1 at `+∞`) has at least as large an integral. The masses may exceed one. -/
def AtLeast (inf disc : ℝ) (pts : List (ℤ × ℝ)) (L : LossLaw) : Prop :=
  ∀ φ : ℝ → ℝ, Monotone φ → (∀ x, 0 ≤ φ x) → (∀ x, φ x ≤ 1) →
    L.inf + ∫ x, φ x ∂L.μ ≤ inf + expect pts fun k => φ (k * disc)

/-- A stored PMF over-approximates a law that dominates the pair `(P, Q)`. -/
def _root_.Verif.Pmf.Covers (m : Pmf) {Ω : Type*} [MeasurableSpace Ω] (P Q : Measure Ω) : Prop :=
  ∃ L : LossLaw, AtLeast m.infinityMass m.disc m.points L ∧ L.Dominates P Q

/-- A privacy requirement on one mechanism: a property of the pair of its output distributions on two neighbouring inputs,
for mechanisms with any output space. -/
def PairProp := (Ω : Type) → [MeasurableSpace Ω] → Measure Ω → Measure Ω → Prop

/-- `Adaptive C l P Q`: `(P, Q)` are the joint output distributions, on two neighbouring inputs, of mechanisms run one
after the other, the `i`-th one chosen depending on all earlier outputs, but so that whatever the earlier outputs were its
pair of output distributions satisfies the `i`-th requirement of `l`. -/
inductive Adaptive : List PairProp → (Ω : Type) → [MeasurableSpace Ω] → Measure Ω → Measure Ω → Prop
  | nil {Ω : Type} [MeasurableSpace Ω] (P : Measure Ω) [IsProbabilityMeasure P] : Adaptive [] Ω P P
  | cons {C : PairProp} {l : List PairProp} {Ω₁ Ω₂ : Type} [MeasurableSpace Ω₁] [MeasurableSpace Ω₂]
      (P Q : Measure Ω₁) [IsProbabilityMeasure P] [IsProbabilityMeasure Q] (κ η : Kernel Ω₁ Ω₂) [IsMarkovKernel κ]
      [IsMarkovKernel η] (hC : C Ω₁ P Q) (hl : ∀ x, Adaptive l Ω₂ (κ x) (η x)) :
      Adaptive (C :: l) (Ω₁ × Ω₂) (P ⊗ₘ κ) (Q ⊗ₘ η)

end Verif.Spec
