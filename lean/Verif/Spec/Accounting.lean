import Verif.Model.RdpAccountant
import Verif.Spec.History

/-!
# Specification vocabulary for accountants
-/

namespace Verif.Spec
open Verif

/-- The documented contract of `_maybe_compose` with `do_compose=False` (`privacy_accountant.py:77-99`): it does not
change the state and its verdict `res e` depends on the event only. -/
def DryRun {σ : Type} (A : Accountant σ) (res : DpEvent → Except Err (Option CompositionError)) : Prop :=
  ∀ e n s, A.maybeCompose e n false s = (s, res e)

mutual
/-- All counts of `SelfComposed` events that are composed (not those inside sampled events) are positive. -/
def WfCounts : DpEvent → Prop
  | .selfComposed e n => 1 ≤ n ∧ WfCounts e
  | .composed es => WfCountsL es
  | .repeatAndSelect e _ _ => WfCounts e
  | _ => True
/-- `WfCounts` for each element. -/
def WfCountsL : List DpEvent → Prop
  | [] => True
  | e :: es => WfCounts e ∧ WfCountsL es
end

/-- A compose call is recorded: event and int, supported, positive count (also along a `SelfComposed` chain). -/
def Recorded (res : DpEvent → Except Err (Option CompositionError)) : Accountant.Call → Prop
  | .compose (.event e) (.int n) => res e = .ok none ∧ 1 ≤ n ∧ topCountsPos e
  | _ => False

open Classical in
/-- Elementary applications recorded by one call. -/
noncomputable def recordedMeaning (res : DpEvent → Except Err (Option CompositionError)) :
    Accountant.Call → List DpEvent
  | .compose (.event e) (.int n) =>
    if res e = .ok none ∧ 1 ≤ n ∧ topCountsPos e then repeatList n (expand e) else []
  | _ => []

/-- The numeric RDP functions never return a negative value (given a non-negative curve to work on). -/
structure NonNegFns {n : ℕ} (F : RdpFns n) : Prop where
  poissonGaussian : ∀ q z a, F.poissonGaussian q z = .ok a → ∀ i, 0 ≤ a i
  sampleWor : ∀ q z a, F.sampleWor q z = .ok a → ∀ i, 0 ≤ a i
  tree : ∀ z s a, F.tree z s = .ok a → ∀ i, 0 ≤ a i
  laplace : ∀ e a, F.laplace e = .ok a → ∀ i, 0 ≤ a i
  repeatAndSelect : ∀ r m s a, (∀ i, 0 ≤ r i) → F.repeatAndSelect r m s = .ok a → ∀ i, 0 ≤ a i
  randomizedResponse : ∀ p k nr a, F.randomizedResponse p k nr = .ok a → ∀ i, 0 ≤ a i

mutual
/-- No `RepeatAndSelect` event among the composed events. -/
def NoRepeat : DpEvent → Prop
  | .selfComposed e _ => NoRepeat e
  | .composed es => NoRepeatL es
  | .repeatAndSelect _ _ _ => False
  | _ => True
/-- `NoRepeat` for each element. -/
def NoRepeatL : List DpEvent → Prop
  | [] => True
  | e :: es => NoRepeat e ∧ NoRepeatL es
end

/-- Compose a list of (event, count) pairs one after the other; the calls that raised are reported. -/
noncomputable def composeAll {σ : Type} (A : Accountant σ) (s : AcctState σ) :
    List (DpEvent × ℤ) → AcctState σ × Bool
  | [] => (s, true)
  | (e, c) :: l =>
    match A.compose s (.event e) (.int c) with
    | (s', .ok ()) => composeAll A s' l
    | (s', .error _) => ((composeAll A s' l).1, false)

end Verif.Spec
