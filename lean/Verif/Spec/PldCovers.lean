import Verif.Model.PldAccountant
import Verif.Spec.Accounting
import Mathlib.Algebra.Order.Group.Multiset

/-!
# Specification: what a PLD operation must guarantee for the accountant to be sound

`R p l` is to be read "the accountant's privacy loss distribution `p` accounts for one application of every elementary mechanism
in the multiset `l`", `S q l` the same for a distribution `q` that is about to be composed into it, and `B p a` "the privacy loss
distribution `p`, as returned by a constructor, accounts for one application of `a`". The structure lists what the PLD constructors
and operations promise; nothing refers to the traversal.
-/

namespace Verif.Spec
open Verif

/-- Events that leak nothing and are skipped: sampling with probability zero, one-bucket randomised response, a Gaussian
mixture whose only sensitivity is zero. -/
def Vacuous : DpEvent → Prop
  | .poissonSampled q (.gaussian _) => q.val = 0
  | .poissonSampled q (.laplace _) => q.val = 0
  | .randomizedResponse _ k => k = 1
  | .mixtureOfGaussians _ [s] _ => s.val = 0
  | _ => False

structure PldSound {P : Type} (F : PldFns P) (nr : NeighborRel) (R S : P → Multiset DpEvent → Prop) (B : P → DpEvent → Prop) :
    Prop where
  identity : R F.identity 0
  compose : ∀ p q r l l', R p l → S q l' → F.compose p q = .ok r → R r (l + l')
  selfCompose : ∀ p r c a, B p a → 1 ≤ c → F.selfCompose p c = .ok r → S r (Multiset.replicate c.toNat a)
  vacuous : ∀ p l a, Vacuous a → R p l → R p (a ::ₘ l)
  gaussian : ∀ z c p, z.val ≠ 0 → 1 ≤ c → F.fromGaussian z c (.float 1) = .ok p → S p (Multiset.replicate c.toNat (.gaussian z))
  laplace : ∀ z p, z.val ≠ 0 → F.fromLaplace z (.float 1) = .ok p → B p (.laplace z)
  mixture : ∀ d ss ps p, d.val ≠ 0 → F.fromMixture d ss ps = .ok p → B p (.mixtureOfGaussians d ss ps)
  poissonGaussian : ∀ z q p, (nr = .addOrRemoveOne ∨ nr = .replaceSpecial) → z.val ≠ 0 → q.val ≠ 0 →
    F.fromGaussian z 1 q = .ok p → B p (.poissonSampled q (.gaussian z))
  poissonLaplace : ∀ z q p, (nr = .addOrRemoveOne ∨ nr = .replaceSpecial) → z.val ≠ 0 → q.val ≠ 0 →
    F.fromLaplace z q = .ok p → B p (.poissonSampled q (.laplace z))
  randomizedResponse : ∀ n k p, (nr = .replaceOne ∨ nr = .replaceSpecial) → n.val ≠ 0 → k ≠ 1 →
    F.fromRR n k nr = .ok p → S p {.randomizedResponse n k}

mutual
/-- Randomised-response events are composed once each (count one along the whole path). -/
def RROnce : DpEvent → ℤ → Prop
  | .selfComposed e m, c => RROnce e (m * c)
  | .composed es, c => RROnceL es c
  | .randomizedResponse _ _, c => c = 1
  | _, _ => True
/-- `RROnce` for each element. -/
def RROnceL : List DpEvent → ℤ → Prop
  | [], _ => True
  | e :: es, c => RROnce e c ∧ RROnceL es c
end

/-- The elementary applications of a list of (event, count) pairs. -/
def applications (l : List (DpEvent × ℤ)) : Multiset DpEvent := (l.map fun p => p.2.toNat • (expand p.1 : Multiset DpEvent)).sum

end Verif.Spec
