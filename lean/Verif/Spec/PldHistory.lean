import Verif.Spec.LossLaw
import Verif.Model.Pld
import Verif.Proofs.Pld

/-!
# Specification: histories of PLD compositions

`PldHistory nfl l p` says that `p` was obtained by any sequence of calls of `identity`, `compose` and `self_compose` from
PLDs of mechanisms, and that the mechanisms accounted for are those of `l`, in this order. No truncated result may have an
infinity mass above one (the code does not enforce it: see the findings in DESIGN.md).
-/

namespace Verif.Spec
open MeasureTheory

/-- `p` is a PLD object as returned by a pessimistic constructor: well formed, non-negative, each direction of mass one. -/
structure ProperPld (p : Pld) : Prop where
  valid : p.Valid
  pess : p.remove.pessimistic = true
  nonneg : p.remove.NonNeg
  nonnegAdd : p.add.NonNeg
  mass : totalMass p.remove = 1
  massAdd : totalMass p.add = 1

/-- `p` dominates every pair satisfying `C`: the deltas of the REMOVE direction are valid for `(P, Q)`, those of the ADD
direction for `(Q, P)`. -/
def DominatesAll (p : Pld) (C : PairProp) : Prop :=
  ∀ (Ω : Type) [MeasurableSpace Ω] (P Q : Measure Ω) [IsProbabilityMeasure P] [IsProbabilityMeasure Q], C Ω P Q →
    CurveValid P Q (fun e => p.remove.getDeltaForEpsilon e) ∧ CurveValid Q P (fun e => p.add.getDeltaForEpsilon e)

inductive PldHistory (nfl : ℕ → ℕ) : List PairProp → Pld → Prop
  | identity {disc : ℝ} {p : Pld} (hd : 0 < disc) (h : Pld.identity disc = .ok p) : PldHistory nfl [] p
  | mechanism {C : PairProp} {p : Pld} (hp : ProperPld p) (h : DominatesAll p C) : PldHistory nfl [C] p
  | compose {l l' : List PairProp} {p q r : Pld} {t : ℝ} (hp : PldHistory nfl l p) (hq : PldHistory nfl l' q)
      (h : p.compose q t = .ok r) (hi : t ≠ 0 → r.remove.infinityMass ≤ 1 ∧ r.add.infinityMass ≤ 1) :
      PldHistory nfl (l ++ l') r
  | selfCompose {l : List PairProp} {p r : Pld} {n : ℤ} {t : ℝ} (hp : PldHistory nfl l p) (ht : 0 ≤ t)
      (h : p.selfCompose nfl n t = .ok r) (hi : t ≠ 0 → r.remove.infinityMass ≤ 1 ∧ r.add.infinityMass ≤ 1) :
      PldHistory nfl (List.replicate n.toNat l).flatten r

end Verif.Spec
