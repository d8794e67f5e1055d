import Verif.Spec.EventMeaning
import Verif.Spec.PldValid

/-!
# Specification: events with parameters in the documented ranges, for the RDP accountant
-/

namespace Verif.Spec
open Verif

/-- The steps of a tree aggregation: a positive number, or at least one number, none of them negative. -/
def StepsOk : ℤ ⊕ List ℤ → Prop
  | .inl c => 0 < c
  | .inr l => l ≠ [] ∧ ∀ c ∈ l, 0 ≤ c

/-- The elementary events that an RDP accountant is documented to support, with parameters in their ranges. -/
def RdpOk (nr : NeighborRel) : DpEvent → Prop
  | .noOp => True
  | .nonPrivate => True
  | .gaussian z => 0 ≤ z.val
  | .laplace z => 0 < z.val
  | .poissonSampled q e => SamplingRel nr ∧ 0 ≤ q.val ∧ q.val ≤ 1 ∧ ((∃ z, e = .gaussian z ∧ 0 ≤ z.val) ∨ FloatGaussians e)
  | .sampledWithoutReplacement n m e => nr = .replaceOne ∧ 0 < n ∧ 0 ≤ m ∧ m ≤ n ∧
      ((∃ z, e = .gaussian z ∧ 0 < z.val ∧ z.val ≠ ⊤) ∨ FloatGaussians e)
  | .singleEpochTreeAggregation z s => nr = .replaceSpecial ∧ 0 ≤ z.val ∧ StepsOk s
  | .randomizedResponse p k => ReplaceRel nr ∧ 0 ≤ p.val ∧ p.val ≤ 1 ∧ 1 ≤ k
  | .repeatAndSelect e mean shape => (∀ a (_ : a ∈ expand e), RdpOk nr a) ∧ 1 ≤ mean.val ∧ 0 ≤ shape.val ∧
      (shape.val = ⊤ ∨ mean.val ≠ ⊤)
  | _ => False
termination_by e => sizeOf e
decreasing_by
  rename_i h
  have := expand_size e a h
  simp; omega

end Verif.Spec
