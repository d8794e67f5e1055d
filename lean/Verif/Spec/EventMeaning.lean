import Verif.Spec.Mechanisms
import Verif.Spec.History
import Verif.Spec.Renyi
import Verif.Spec.RepeatSelect

/-!
# Specification: the mechanisms an event stands for

`EventPair nr e` is the set of pairs of output distributions, on two data sets that are neighbours in the sense of `nr`, of the
mechanisms that the elementary event `e` describes (`dp_event.py`).
-/

namespace Verif.Spec
open Verif MeasureTheory ProbabilityTheory

mutual
/-- Any nesting of `Gaussian` (positive float noise multiplier), `SelfComposed` (count at least one) and
non-empty `Composed` events. -/
def FloatGaussians : DpEvent → Prop
  | .gaussian (.float x) => 0 < x
  | .selfComposed e n => 1 ≤ n ∧ FloatGaussians e
  | .composed es => es ≠ [] ∧ FloatGaussiansL es
  | _ => False
/-- `FloatGaussians` for each element. -/
def FloatGaussiansL : List DpEvent → Prop
  | [] => True
  | e :: es => FloatGaussians e ∧ FloatGaussiansL es
end

/-- The noise multipliers of the Gaussian queries that a nesting of Gaussian events stands for. -/
noncomputable def noises (e : DpEvent) : List ℝ := (expand e).map fun | .gaussian z => z.val.toReal | _ => 0

/-- The number of steps of each tree of a tree aggregation event. -/
def treeCounts : ℤ ⊕ List ℤ → List ℕ
  | .inl c => [c.toNat]
  | .inr l => l.map Int.toNat

/-- Any mechanism at all. -/
def AnyPair : PairProp := fun _ _ _ _ => True

/-- The best of a random number of runs of a mechanism (`dp_event.py:373-390`): `C` is the set of pairs of output distributions of one
run; the outputs are compared by any score. The number of runs has a truncated negative binomial distribution with the given shape and
mean, or for infinite shape a Poisson distribution. -/
inductive SelectPair (mean shape : PyNum) (C : PairProp) : PairProp
  | tnb {Y : Type} [MeasurableSpace Y] (P Q : Measure Y) (hC : C Y P Q) (score : Y → ℝ) (hs : Measurable score) (γ : ℝ) (h0 : 0 < γ) (h1 : γ ≤ 1)
      (hγ : tnbMean shape.val.toReal γ = mean.val.toReal) (hsh : shape.val ≠ ⊤) :
    SelectPair mean shape C (Unit ⊕ Y) (repeatSelect (tnb shape.val.toReal γ) score P) (repeatSelect (tnb shape.val.toReal γ) score Q)
  | poisson {Y : Type} [MeasurableSpace Y] (P Q : Measure Y) (hC : C Y P Q) (score : Y → ℝ) (hs : Measurable score) (hsh : shape.val = ⊤) :
    SelectPair mean shape C (Unit ⊕ Y) (repeatSelect (poisson mean.val.toReal) score P) (repeatSelect (poisson mean.val.toReal) score Q)

mutual
/-- The elementary events that an event stands for are not larger than the event (so that `EventPair` is well defined). -/
lemma expand_size : ∀ (e : DpEvent), ∀ a ∈ expand e, sizeOf a ≤ sizeOf e
  | .selfComposed e n, a, h => by
      rw [expand, repeatList, List.mem_flatten] at h
      obtain ⟨l, hl, ha⟩ := h
      rw [List.eq_of_mem_replicate hl] at ha
      have := expand_size e a ha
      simp; omega
  | .composed es, a, h => by
      rw [expand] at h
      have := expandList_size es a h
      simp; omega
  | .noOp, a, h => by simp [expand] at h
  | .nonPrivate, a, h | .unsupported, a, h | .randomizedResponse _ _, a, h | .laplace _, a, h | .gaussian _, a, h
  | .poissonSampled _ _, a, h | .sampledWithReplacement _ _ _, a, h | .sampledWithoutReplacement _ _ _, a, h
  | .singleEpochTreeAggregation _ _, a, h | .repeatAndSelect _ _ _, a, h | .mixtureOfGaussians _ _ _, a, h => by
      simp only [expand, List.mem_singleton] at h
      rw [h]
lemma expandList_size : ∀ (es : List DpEvent), ∀ a ∈ expandList es, sizeOf a ≤ sizeOf es
  | [], a, h => by simp [expandList] at h
  | e :: es, a, h => by
      rw [expandList, List.mem_append] at h
      rcases h with h | h
      · have := expand_size e a h
        simp; omega
      · have := expandList_size es a h
        simp; omega
end

open Classical in
/-- The pairs of output distributions of the mechanisms that an elementary event describes. Infinite noise reveals nothing.
Events that are not accepted by the RDP accountant are not interpreted. -/
noncomputable def EventPair (nr : NeighborRel) : DpEvent → PairProp
  | .gaussian z => if z.val = ⊤ then SamePair else GaussianPair z.val.toReal
  | .laplace z => if z.val = ⊤ then SamePair else LaplacePair z.val.toReal
  | .poissonSampled q e => PoissonGaussiansPair q.val.toReal (noises e)
  | .sampledWithoutReplacement n m e => WorGaussiansPair n.toNat m.toNat (noises e)
  | .singleEpochTreeAggregation z s => if z.val = ⊤ then SamePair else TreePair z.val.toReal (treeCounts s)
  | .randomizedResponse p k => if nr = .replaceOne then RRReplaceOne k.toNat p.val.toReal else RRReplaceSpecial k.toNat p.val.toReal
  | .repeatAndSelect e mean shape => SelectPair mean shape fun Ω [MeasurableSpace Ω] P Q =>
      Adaptive ((expand e).attach.map fun a => EventPair nr a.1) Ω P Q
  | _ => AnyPair
termination_by e => sizeOf e
decreasing_by
  have := expand_size e a.1 a.2
  simp; omega

/-- The elementary events covered by `EventPair`: all those accepted by the RDP accountant, except
sampled events that contain anything but one Gaussian event with positive finite noise multiplier or a nesting of Gaussian
events with positive float noise multipliers, and except `RepeatAndSelect` of an event that is not covered or with a mean very close to
one (`SelectExact`). -/
def Covered : DpEvent → Prop
  | .repeatAndSelect e mean shape => (∀ a (_ : a ∈ expand e), Covered a) ∧ (shape.val = ⊤ ∨ SelectExact shape.val.toReal mean.val.toReal)
  | .poissonSampled _ e => (∃ z, e = .gaussian z ∧ 0 < z.val ∧ z.val ≠ ⊤) ∨ FloatGaussians e
  | .sampledWithoutReplacement n _ e => 0 < n ∧ ((∃ z, e = .gaussian z ∧ 0 < z.val ∧ z.val ≠ ⊤) ∨ FloatGaussians e)
  | _ => True
termination_by e => sizeOf e
decreasing_by
  rename_i h
  have := expand_size e a h
  simp; omega

/-- `frac` bounds the logarithm of the moment of a Poisson-sampled Gaussian query of sensitivity one at fractional orders. -/
def FracBound (frac : ℝ → PyNum → ℝ → EReal) : Prop :=
  ∀ (q z α : ℝ) (sigma : PyNum), 0 < q → q < 1 → 0 < z → sigma.val = (z : EReal) → 1 < α → (¬ ∃ m : ℤ, α = m) →
    renyiDiv α (ENNReal.ofReal (1 - q) • gaussianReal 0 (Real.toNNReal (z ^ 2)) +
      ENNReal.ofReal q • gaussianReal 1 (Real.toNNReal (z ^ 2))) (gaussianReal 0 (Real.toNNReal (z ^ 2))) ≤
        frac q sigma α * (((α - 1)⁻¹ : ℝ) : EReal)

/-- The elementary events for which the value that the RDP accountant adds at order `α` is the largest divergence of the mechanisms that
the event describes, not only a bound: all those it accepts, except samples without replacement and `RepeatAndSelect`; for
Laplace noise at orders from 1.1 up, for Poisson samples at integer orders. A tree without steps and without noise is
reported non-private although it releases nothing. -/
def RenyiTight (α : ℝ) : DpEvent → Prop
  | .laplace _ => 1.1 ≤ α
  | .poissonSampled _ e => (∃ m : ℕ, α = m) ∧ ((∃ z, e = .gaussian z ∧ 0 < z.val ∧ z.val ≠ ⊤) ∨ FloatGaussians e)
  | .singleEpochTreeAggregation z s => z.val ≠ 0 ∨ ∃ c ∈ treeCounts s, 0 < c
  | .sampledWithoutReplacement _ _ _ => False
  | .repeatAndSelect _ _ _ => False
  | _ => True

end Verif.Spec
