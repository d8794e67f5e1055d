import Verif.Proofs.Accountant
import Verif.Model.RdpAccountant
import Mathlib.Data.EReal.Operations
import Mathlib.Algebra.BigOperators.Group.List.Basic
import Mathlib.Algebra.Order.BigOperators.Group.List

/-! Helper lemmas about the RDP accountant. -/

namespace Verif.RdpAccountant
open Verif Verif.Spec

variable {n : ℕ} (F : RdpFns n) (nr : NeighborRel)

/-- Verdict of the dry run. -/
noncomputable def verdict (e : DpEvent) : Except Err (Option CompositionError) :=
  (maybeCompose F nr e 1 false (fun _ => 0)).2

mutual
theorem dry_indep : ∀ (e : DpEvent) (c c' : ℤ) (s s' : Arr n),
    (maybeCompose F nr e c false s).2 = (maybeCompose F nr e c' false s').2 ∧
    (maybeCompose F nr e c false s).1 = s
  | .noOp, _, _, _, _ => by simp [maybeCompose]
  | .nonPrivate, _, _, _, _ => by simp [maybeCompose]
  | .unsupported, _, _, _, _ => by simp [maybeCompose]
  | .randomizedResponse _ _, _, _, _, _ => by
      simp only [maybeCompose]; split <;> simp
  | .gaussian _, _, _, _, _ => by simp [maybeCompose]
  | .laplace _, _, _, _, _ => by simp [maybeCompose]
  | .selfComposed e m, c, c', s, s' => by
      simp only [maybeCompose]; exact dry_indep e _ _ s s'
  | .composed es, c, c', s, s' => by
      simp only [maybeCompose]; exact dryList_indep es _ _ s s'
  | .poissonSampled _ e, _, _, _, _ => by
      simp only [maybeCompose]
      split
      · cases effNoise e with
        | error err => simp
        | ok r => cases r <;> simp
      · simp
  | .sampledWithReplacement _ _ _, _, _, _, _ => by simp [maybeCompose]
  | .sampledWithoutReplacement _ _ e, _, _, _, _ => by
      simp only [maybeCompose]
      split
      · cases effNoise e with
        | error err => simp
        | ok r => cases r <;> simp
      · simp
  | .singleEpochTreeAggregation _ _, _, _, _, _ => by
      simp only [maybeCompose]; split <;> simp
  | .repeatAndSelect e _ _, c, c', s, s' => by
      simp only [maybeCompose]
      simpa using dry_indep e 1 1 s s'
  | .mixtureOfGaussians _ _ _, _, _, _, _ => by simp [maybeCompose]
theorem dryList_indep : ∀ (es : List DpEvent) (c c' : ℤ) (s s' : Arr n),
    (composeList F nr es c false s).2 = (composeList F nr es c' false s').2 ∧
    (composeList F nr es c false s).1 = s
  | [], _, _, _, _ => by simp [composeList]
  | e :: es, c, c', s, s' => by
      have h1 := dry_indep e c c' s s'
      have h1' := dry_indep e c' c s' s
      simp only [composeList]
      generalize maybeCompose F nr e c false s = r at *
      generalize maybeCompose F nr e c' false s' = r' at *
      obtain ⟨a, r⟩ := r
      obtain ⟨a', r'⟩ := r'
      obtain ⟨rfl, rfl⟩ : r = r' ∧ a = s := h1
      obtain ⟨-, rfl⟩ : r = r ∧ a' = s' := h1'
      match r with
      | .error err => simp
      | .ok (some d) => simp
      | .ok none => exact dryList_indep es c c' a a'
end

theorem dryRun : DryRun (accountant F nr) (verdict F nr) := by
  intro e c s
  have := dry_indep F nr e c 1 s (fun _ => 0)
  exact Prod.ext this.2 this.1

/-- Result of a real run does not depend on count and state. -/
theorem addTo_snd (s s' : Arr n) (c c' : ℤ) (v : Except Err (Arr n)) :
    (addTo s c v).2 = (addTo s' c' v).2 := by
  cases v <;> rfl

theorem addTo_ne {s : Arr n} {c : ℤ} {v : Except Err (Arr n)} (d : CompositionError) :
    (addTo s c v).2 ≠ .ok (some d) := by
  cases v <;> simp [addTo]

mutual
theorem real_indep : ∀ (e : DpEvent) (c c' : ℤ) (s s' : Arr n),
    (maybeCompose F nr e c true s).2 = (maybeCompose F nr e c' true s').2
  | .noOp, _, _, _, _ => by simp [maybeCompose]
  | .nonPrivate, _, _, _, _ => by simp [maybeCompose]
  | .unsupported, _, _, _, _ => by simp [maybeCompose]
  | .randomizedResponse _ _, _, _, _, _ => by
      simp only [maybeCompose]; split
      · simpa using addTo_snd _ _ _ _ _
      · rfl
  | .gaussian _, _, _, _, _ => by simpa [maybeCompose] using addTo_snd _ _ _ _ _
  | .laplace z, _, _, _, _ => by
      simp only [maybeCompose, if_true]
      cases recip z with
      | error err => rfl
      | ok v => exact addTo_snd _ _ _ _ _
  | .selfComposed e m, c, c', s, s' => by
      simp only [maybeCompose]; exact real_indep e _ _ s s'
  | .composed es, c, c', s, s' => by
      simp only [maybeCompose]; exact realList_indep es _ _ s s'
  | .poissonSampled _ e, _, _, _, _ => by
      simp only [maybeCompose]
      split
      · cases effNoise e with
        | error err => simp
        | ok r => cases r <;> simp [addTo_snd _ (fun _ => 0) _ 1]
      · simp
  | .sampledWithReplacement _ _ _, _, _, _, _ => by simp [maybeCompose]
  | .sampledWithoutReplacement sz m e, _, _, _, _ => by
      simp only [maybeCompose]
      split
      · cases effNoise e with
        | error err => simp
        | ok r =>
          cases r <;> simp only [if_true] <;> cases ratio m sz <;> first | rfl | exact addTo_snd _ _ _ _ _
      · simp
  | .singleEpochTreeAggregation _ _, _, _, _, _ => by
      simp only [maybeCompose]; split
      · simpa using addTo_snd _ _ _ _ _
      · rfl
  | .repeatAndSelect e m sh, c, c', s, s' => by
      simp only [maybeCompose, if_true]
      generalize maybeCompose F nr e 1 true (fun _ => 0) = r
      obtain ⟨a, r⟩ := r
      match r with
      | .error err => rfl
      | .ok (some d) => rfl
      | .ok none =>
        simp only
        cases F.repeatAndSelect a m sh <;> rfl
  | .mixtureOfGaussians _ _ _, _, _, _, _ => by simp [maybeCompose]
theorem realList_indep : ∀ (es : List DpEvent) (c c' : ℤ) (s s' : Arr n),
    (composeList F nr es c true s).2 = (composeList F nr es c' true s').2
  | [], _, _, _, _ => by simp [composeList]
  | e :: es, c, c', s, s' => by
      have h1 := real_indep e c c' s s'
      simp only [composeList]
      generalize maybeCompose F nr e c true s = r at *
      generalize maybeCompose F nr e c' true s' = r' at *
      obtain ⟨a, r⟩ := r
      obtain ⟨a', r'⟩ := r'
      obtain rfl : r = r' := h1
      match r with
      | .error err => rfl
      | .ok (some d) => rfl
      | .ok none => exact realList_indep es c c' a a'
end

/-- RDP curve of one event composed once into a fresh accountant. -/
noncomputable def curve (e : DpEvent) : Arr n := (maybeCompose F nr e 1 true (fun _ => 0)).1

/-- Composing the event once into a fresh accountant succeeds. -/
def Ok (e : DpEvent) : Prop := (maybeCompose F nr e 1 true (fun _ => 0)).2 = .ok none

theorem int_mul_eq_nsmul {c : ℤ} (hc : 0 ≤ c) (x : EReal) : ((c : ℝ) : EReal) * x = c.toNat • x := by
  lift c to ℕ using hc
  rw [EReal.nsmul_eq_mul]; simp

theorem nsmul_top {k : ℕ} (hk : 1 ≤ k) : k • (⊤ : EReal) = ⊤ := by
  induction k, hk using Nat.le_induction with
  | base => simp
  | succ m _ ih => rw [succ_nsmul, ih]; rfl

theorem addTo_spec {s : Arr n} {c : ℤ} (hc : 1 ≤ c) {v : Except Err (Arr n)}
    (h : (addTo s c v).2 = .ok none) :
    (addTo s c v).1 = s + c.toNat • (addTo (fun _ => 0) 1 v).1 := by
  cases v with
  | error err => simp [addTo] at h
  | ok a =>
    funext i
    simp [addTo, int_mul_eq_nsmul (show 0 ≤ c by omega)]

/-- Everything except `NoOp`, `SelfComposed`, `Composed`. -/
def Elementary : DpEvent → Prop
  | .noOp => False
  | .selfComposed _ _ => False
  | .composed _ => False
  | _ => True

mutual
theorem elementary_of_mem : ∀ (e : DpEvent), ∀ x ∈ expand e, Elementary x
  | .noOp, x, h => by simp [expand] at h
  | .selfComposed e m, x, h => by
      rw [expand, repeatList, List.mem_flatten] at h
      obtain ⟨l, hl, hx⟩ := h
      rw [List.eq_of_mem_replicate hl] at hx
      exact elementary_of_mem e x hx
  | .composed es, x, h => by rw [expand] at h; exact elementary_of_mem_list es x h
  | .nonPrivate, x, h => by simp [expand] at h; subst h; trivial
  | .unsupported, x, h => by simp [expand] at h; subst h; trivial
  | .randomizedResponse _ _, x, h => by simp [expand] at h; subst h; trivial
  | .gaussian _, x, h => by simp [expand] at h; subst h; trivial
  | .laplace _, x, h => by simp [expand] at h; subst h; trivial
  | .poissonSampled _ _, x, h => by simp [expand] at h; subst h; trivial
  | .sampledWithReplacement _ _ _, x, h => by simp [expand] at h; subst h; trivial
  | .sampledWithoutReplacement _ _ _, x, h => by simp [expand] at h; subst h; trivial
  | .singleEpochTreeAggregation _ _, x, h => by simp [expand] at h; subst h; trivial
  | .repeatAndSelect _ _ _, x, h => by simp [expand] at h; subst h; trivial
  | .mixtureOfGaussians _ _ _, x, h => by simp [expand] at h; subst h; trivial
theorem elementary_of_mem_list : ∀ (es : List DpEvent), ∀ x ∈ expandList es, Elementary x
  | [], x, h => by simp [expandList] at h
  | e :: es, x, h => by
      rw [expandList, List.mem_append] at h
      rcases h with h | h
      · exact elementary_of_mem e x h
      · exact elementary_of_mem_list es x h
end

theorem Elementary.expand_eq {e : DpEvent} (h : Elementary e) : expand e = [e] := by
  cases e <;> first | exact h.elim | simp [expand]

/-- Elementary events: everything except `NoOp`, `SelfComposed`, `Composed`. -/
theorem elem_spec (e : DpEvent) (he : Elementary e) (c : ℤ) (hc : 1 ≤ c) (s : Arr n)
    (h : (maybeCompose F nr e c true s).2 = .ok none) :
    (maybeCompose F nr e c true s).1 = s + c.toNat • curve F nr e := by
  have hc0 : 0 ≤ c := by omega
  cases e with
  | noOp => exact he.elim
  | selfComposed e m => exact he.elim
  | composed es => exact he.elim
  | nonPrivate =>
    funext i
    simp only [maybeCompose, curve, if_true, Pi.add_apply, Pi.smul_apply, zero_add]
    rw [nsmul_top (by omega)]
  | unsupported => simp [maybeCompose] at h
  | sampledWithReplacement _ _ _ => simp [maybeCompose] at h
  | mixtureOfGaussians _ _ _ => simp [maybeCompose] at h
  | gaussian z =>
    simp only [maybeCompose, if_true, curve] at *
    exact addTo_spec hc h
  | randomizedResponse p k =>
    simp only [maybeCompose, if_true, curve] at *
    split at h
    · rename_i hh; simp only [hh, if_true]; exact addTo_spec hc h
    · simp at h
  | singleEpochTreeAggregation z st =>
    simp only [maybeCompose, if_true, curve] at *
    split at h
    · rename_i hh; simp only [hh, if_true]; exact addTo_spec hc h
    · simp at h
  | laplace z =>
    simp only [maybeCompose, if_true, curve] at *
    cases hr : recip z with
    | error err => simp [hr] at h
    | ok v => simp only [hr] at h ⊢; exact addTo_spec hc h
  | poissonSampled q e =>
    simp only [maybeCompose, if_true, curve] at *
    split at h
    · rename_i hh; simp only [hh, if_true]
      cases hr : effNoise e with
      | error err => simp [hr] at h
      | ok v =>
        cases v <;> simp only [hr] at h ⊢ <;> first | exact addTo_spec hc h | simp at h
    · simp at h
  | sampledWithoutReplacement sz m e =>
    simp only [maybeCompose, if_true, curve] at *
    split at h
    · rename_i hh; simp only [hh, if_true]
      cases hr : effNoise e with
      | error err => simp [hr] at h
      | ok v =>
        cases hq : ratio m sz <;> cases v <;> simp only [hr, hq] at h ⊢ <;>
          first | exact addTo_spec hc h | simp at h
    · simp at h
  | repeatAndSelect e m sh =>
    simp only [maybeCompose, if_true, curve] at *
    generalize maybeCompose F nr e 1 true (fun _ => 0) = r at *
    obtain ⟨a, r⟩ := r
    match r, h with
    | .error err, h => simp at h
    | .ok (some d), h => simp at h
    | .ok none, h =>
      simp only at h ⊢
      cases hr : F.repeatAndSelect a m sh with
      | error err => simp [hr] at h
      | ok v =>
        funext i
        simp [int_mul_eq_nsmul hc0, add_comm]
theorem sum_repeatList {M : Type*} [AddCommMonoid M] (f : DpEvent → M) (m : ℤ) (l : List DpEvent) :
    ((repeatList m l).map f).sum = m.toNat • (l.map f).sum := by
  simp only [repeatList]
  induction m.toNat with
  | zero => simp
  | succ k ih => rw [List.replicate_succ, List.flatten_cons, List.map_append, List.sum_append, ih,
      succ_nsmul, add_comm]

theorem mem_repeatList {m : ℤ} (hm : 1 ≤ m) {l : List DpEvent} {x : DpEvent} :
    x ∈ repeatList m l ↔ x ∈ l := by
  have : m.toNat ≠ 0 := by omega
  simp [repeatList, List.mem_flatten, List.mem_replicate, this]

mutual
theorem real_spec : ∀ (e : DpEvent), WfCounts e → ∀ (c : ℤ), 1 ≤ c → ∀ (s : Arr n),
    (maybeCompose F nr e c true s).2 = .ok none →
    (maybeCompose F nr e c true s).1 = s + c.toNat • ((expand e).map (curve F nr)).sum
  | .noOp, _, c, _, s, _ => by simp [maybeCompose, expand]
  | .selfComposed e m, hw, c, hc, s, h => by
      rw [WfCounts] at hw
      simp only [maybeCompose] at h ⊢
      rw [real_spec e hw.2 (m * c) (by nlinarith [hw.1]) s h, expand, sum_repeatList, ← mul_nsmul']
      congr 2
      rw [Int.toNat_mul (by omega) (by omega), mul_comm]
  | .composed es, hw, c, hc, s, h => by
      rw [WfCounts] at hw
      simp only [maybeCompose] at h ⊢
      rw [expand]
      exact realList_spec es hw c hc s h
  | .nonPrivate, _, c, hc, s, h => by
      rw [elem_spec F nr _ (by trivial) c hc s h]; simp [expand]
  | .unsupported, _, c, hc, s, h => by
      rw [elem_spec F nr _ (by trivial) c hc s h]; simp [expand]
  | .randomizedResponse _ _, _, c, hc, s, h => by
      rw [elem_spec F nr _ (by trivial) c hc s h]; simp [expand]
  | .gaussian _, _, c, hc, s, h => by
      rw [elem_spec F nr _ (by trivial) c hc s h]; simp [expand]
  | .laplace _, _, c, hc, s, h => by
      rw [elem_spec F nr _ (by trivial) c hc s h]; simp [expand]
  | .poissonSampled _ _, _, c, hc, s, h => by
      rw [elem_spec F nr _ (by trivial) c hc s h]; simp [expand]
  | .sampledWithReplacement _ _ _, _, c, hc, s, h => by
      rw [elem_spec F nr _ (by trivial) c hc s h]; simp [expand]
  | .sampledWithoutReplacement _ _ _, _, c, hc, s, h => by
      rw [elem_spec F nr _ (by trivial) c hc s h]; simp [expand]
  | .singleEpochTreeAggregation _ _, _, c, hc, s, h => by
      rw [elem_spec F nr _ (by trivial) c hc s h]; simp [expand]
  | .repeatAndSelect _ _ _, _, c, hc, s, h => by
      rw [elem_spec F nr _ (by trivial) c hc s h]; simp [expand]
  | .mixtureOfGaussians _ _ _, _, c, hc, s, h => by
      rw [elem_spec F nr _ (by trivial) c hc s h]; simp [expand]
theorem realList_spec : ∀ (es : List DpEvent), WfCountsL es → ∀ (c : ℤ), 1 ≤ c → ∀ (s : Arr n),
    (composeList F nr es c true s).2 = .ok none →
    (composeList F nr es c true s).1 = s + c.toNat • ((expandList es).map (curve F nr)).sum
  | [], _, c, _, s, _ => by simp [composeList, expandList]
  | e :: es, hw, c, hc, s, h => by
      rw [WfCountsL] at hw
      have h1 := real_spec e hw.1 c hc s
      simp only [composeList] at h ⊢
      generalize maybeCompose F nr e c true s = r at *
      obtain ⟨a, r⟩ := r
      match r, h with
      | .error err, h => simp at h
      | .ok (some d), h => simp at h
      | .ok none, h =>
        simp only at h1 h ⊢
        rw [realList_spec es hw.2 c hc a h, h1 trivial, expandList, List.map_append, List.sum_append,
          nsmul_add, add_assoc]
end

mutual
theorem real_ok : ∀ (e : DpEvent), WfCounts e → ∀ (c : ℤ), 1 ≤ c → ∀ (s : Arr n),
    ((maybeCompose F nr e c true s).2 = .ok none ↔ ∀ a ∈ expand e, Ok F nr a)
  | .noOp, _, c, _, s => by simp [maybeCompose, expand]
  | .selfComposed e m, hw, c, hc, s => by
      rw [WfCounts] at hw
      simp only [maybeCompose]
      rw [real_ok e hw.2 (m * c) (by nlinarith [hw.1]) s, expand]
      simp only [mem_repeatList hw.1]
  | .composed es, hw, c, hc, s => by
      rw [WfCounts] at hw
      simp only [maybeCompose]
      rw [expand]
      exact realList_ok es hw c hc s
  | .nonPrivate, _, c, hc, s => by
      rw [real_indep F nr _ c 1 s (fun _ => 0)]; simp [expand, Ok]
  | .unsupported, _, c, hc, s => by
      rw [real_indep F nr _ c 1 s (fun _ => 0)]; simp [expand, Ok]
  | .randomizedResponse _ _, _, c, hc, s => by
      rw [real_indep F nr _ c 1 s (fun _ => 0)]; simp [expand, Ok]
  | .gaussian _, _, c, hc, s => by
      rw [real_indep F nr _ c 1 s (fun _ => 0)]; simp [expand, Ok]
  | .laplace _, _, c, hc, s => by
      rw [real_indep F nr _ c 1 s (fun _ => 0)]; simp [expand, Ok]
  | .poissonSampled _ _, _, c, hc, s => by
      rw [real_indep F nr _ c 1 s (fun _ => 0)]; simp [expand, Ok]
  | .sampledWithReplacement _ _ _, _, c, hc, s => by
      rw [real_indep F nr _ c 1 s (fun _ => 0)]; simp [expand, Ok]
  | .sampledWithoutReplacement _ _ _, _, c, hc, s => by
      rw [real_indep F nr _ c 1 s (fun _ => 0)]; simp [expand, Ok]
  | .singleEpochTreeAggregation _ _, _, c, hc, s => by
      rw [real_indep F nr _ c 1 s (fun _ => 0)]; simp [expand, Ok]
  | .repeatAndSelect _ _ _, _, c, hc, s => by
      rw [real_indep F nr _ c 1 s (fun _ => 0)]; simp [expand, Ok]
  | .mixtureOfGaussians _ _ _, _, c, hc, s => by
      rw [real_indep F nr _ c 1 s (fun _ => 0)]; simp [expand, Ok]
theorem realList_ok : ∀ (es : List DpEvent), WfCountsL es → ∀ (c : ℤ), 1 ≤ c → ∀ (s : Arr n),
    ((composeList F nr es c true s).2 = .ok none ↔ ∀ a ∈ expandList es, Ok F nr a)
  | [], _, c, _, s => by simp [composeList, expandList]
  | e :: es, hw, c, hc, s => by
      rw [WfCountsL] at hw
      have h1 := real_ok e hw.1 c hc s
      simp only [composeList]
      rw [expandList]
      simp only [List.mem_append, or_imp, forall_and, ← h1]
      generalize maybeCompose F nr e c true s = r at *
      obtain ⟨a, r⟩ := r
      match r with
      | .error err => simp
      | .ok (some d) => simp
      | .ok none => simpa using realList_ok es hw.2 c hc a
end

mutual
/-- The real run reports no composition error when the dry run reports none. -/
theorem real_of_dry : ∀ (e : DpEvent) (c : ℤ) (s : Arr n), (∃ c' s', (maybeCompose F nr e c' false s').2 = .ok none) →
    ∀ d, (maybeCompose F nr e c true s).2 ≠ .ok (some d)
  | .noOp, _, _, _, d => by simp [maybeCompose]
  | .nonPrivate, _, _, _, d => by simp [maybeCompose]
  | .unsupported, _, _, ⟨_, _, h⟩, d => by simp [maybeCompose] at h
  | .sampledWithReplacement _ _ _, _, _, ⟨_, _, h⟩, d => by simp [maybeCompose] at h
  | .mixtureOfGaussians _ _ _, _, _, ⟨_, _, h⟩, d => by simp [maybeCompose] at h
  | .selfComposed e m, c, s, ⟨c', s', h⟩, d => by
      simp only [maybeCompose] at h ⊢
      exact real_of_dry e _ _ ⟨_, _, h⟩ d
  | .composed es, c, s, ⟨c', s', h⟩, d => by
      simp only [maybeCompose] at h ⊢
      exact realList_of_dry es _ _ ⟨_, _, h⟩ d
  | .gaussian z, c, s, _, d => by
      simp only [maybeCompose, if_true]; exact addTo_ne d
  | .randomizedResponse p k, c, s, ⟨_, _, h⟩, d => by
      simp only [maybeCompose] at h ⊢
      split at h
      · rename_i hh; simp only [hh, if_true]; exact addTo_ne d
      · simp at h
  | .singleEpochTreeAggregation p k, c, s, ⟨_, _, h⟩, d => by
      simp only [maybeCompose] at h ⊢
      split at h
      · rename_i hh; simp only [hh, if_true]; exact addTo_ne d
      · simp at h
  | .laplace z, c, s, _, d => by
      simp only [maybeCompose, if_true]
      cases recip z with
      | error err => simp
      | ok v => exact addTo_ne d
  | .poissonSampled q e, c, s, ⟨_, _, h⟩, d => by
      simp only [maybeCompose] at h ⊢
      split at h
      · rename_i hh
        simp only [hh, if_true]
        cases hr : effNoise e with
        | error err => simp
        | ok v =>
          cases v <;> simp only [hr] at h ⊢ <;> first | exact addTo_ne d | simp at h
      · simp at h
  | .sampledWithoutReplacement sz m e, c, s, ⟨_, _, h⟩, d => by
      simp only [maybeCompose] at h ⊢
      split at h
      · rename_i hh
        simp only [hh, if_true]
        cases hr : effNoise e with
        | error err => simp
        | ok v =>
          cases hq : ratio m sz <;> cases v <;> simp only [hr] at h ⊢ <;>
            first | exact addTo_ne d | (simp; done) | simp at h
      · simp at h
  | .repeatAndSelect e m sh, c, s, ⟨_, _, h⟩, d => by
      simp only [maybeCompose, if_true] at h ⊢
      have h1 := real_of_dry e 1 (fun _ => 0) ⟨_, _, h⟩
      generalize maybeCompose F nr e 1 true (fun _ => 0) = r at *
      obtain ⟨a, r⟩ := r
      match r, h1 with
      | .error err, _ => simp
      | .ok (some d'), h1 => exact absurd rfl (h1 d')
      | .ok none, _ =>
        simp only
        cases F.repeatAndSelect a m sh <;> simp
theorem realList_of_dry : ∀ (es : List DpEvent) (c : ℤ) (s : Arr n),
    (∃ c' s', (composeList F nr es c' false s').2 = .ok none) →
    ∀ d, (composeList F nr es c true s).2 ≠ .ok (some d)
  | [], _, _, _, d => by simp [composeList]
  | e :: es, c, s, ⟨c', s', h⟩, d => by
      simp only [composeList] at h ⊢
      have hd : (maybeCompose F nr e c' false s').2 = .ok none := by
        generalize maybeCompose F nr e c' false s' = r at *
        obtain ⟨a, r⟩ := r
        match r, h with
        | .error err, h => simp at h
        | .ok (some d'), h => simp at h
        | .ok none, h => rfl
      have h1 := real_of_dry e c s ⟨_, _, hd⟩
      have h2 : ∃ s'', (composeList F nr es c' false s'').2 = .ok none := by
        generalize maybeCompose F nr e c' false s' = r at *
        obtain ⟨a, r⟩ := r
        simp only at hd; subst hd
        exact ⟨a, h⟩
      obtain ⟨s'', h2⟩ := h2
      generalize maybeCompose F nr e c true s = r at *
      obtain ⟨a, r⟩ := r
      match r, h1 with
      | .error err, _ => simp
      | .ok (some d'), h1 => exact absurd rfl (h1 d')
      | .ok none, _ => exact realList_of_dry es c a ⟨_, _, h2⟩ d
end

theorem addTo_mono {s : Arr n} {c : ℤ} (hc : 0 ≤ c) {v : Except Err (Arr n)}
    (hv : ∀ a, v = .ok a → ∀ i, 0 ≤ a i) (i : Fin n) : s i ≤ (addTo s c v).1 i := by
  cases v with
  | error err => exact le_rfl
  | ok a =>
    simp only [addTo]
    have h0 : (0 : EReal) ≤ ((c : ℝ) : EReal) * a i :=
      mul_nonneg (by exact_mod_cast hc) (hv a rfl i)
    calc s i = s i + 0 := by simp
      _ ≤ _ := by gcongr

variable (hF : NonNegFns F)
include hF

mutual
theorem mono_noRepeat : ∀ (e : DpEvent), WfCounts e → NoRepeat e → ∀ (c : ℤ), 0 ≤ c → ∀ (doC : Bool) (s : Arr n) (i : Fin n),
    s i ≤ (maybeCompose F nr e c doC s).1 i
  | .noOp, _, _, c, hc, doC, s, i => by simp [maybeCompose]
  | .nonPrivate, _, _, c, hc, doC, s, i => by
      cases doC <;> simp only [maybeCompose]
      · exact le_rfl
      · calc s i = s i + 0 := by simp
          _ ≤ _ := by simp only [if_true]; gcongr; exact le_top
  | .unsupported, _, _, c, hc, doC, s, i => by simp [maybeCompose]
  | .sampledWithReplacement _ _ _, _, _, c, hc, doC, s, i => by simp [maybeCompose]
  | .mixtureOfGaussians _ _ _, _, _, c, hc, doC, s, i => by simp [maybeCompose]
  | .selfComposed e m, hw, hn, c, hc, doC, s, i => by
      rw [WfCounts] at hw
      simp only [maybeCompose]
      exact mono_noRepeat e hw.2 (by simpa [NoRepeat] using hn) _ (by nlinarith [hw.1]) doC s i
  | .composed es, hw, hn, c, hc, doC, s, i => by
      rw [WfCounts] at hw
      simp only [maybeCompose]
      exact monoList_noRepeat es hw (by simpa [NoRepeat] using hn) _ hc doC s i
  | .gaussian z, _, _, c, hc, doC, s, i => by
      cases doC <;> simp only [maybeCompose]
      · exact le_rfl
      · exact addTo_mono hc (fun a h => hF.poissonGaussian _ _ a h) i
  | .randomizedResponse p k, _, _, c, hc, doC, s, i => by
      cases doC <;> simp only [maybeCompose] <;> split <;> first | exact le_rfl | skip
      exact addTo_mono hc (fun a h => hF.randomizedResponse _ _ _ a h) i
  | .singleEpochTreeAggregation z st, _, _, c, hc, doC, s, i => by
      cases doC <;> simp only [maybeCompose] <;> split <;> first | exact le_rfl | skip
      exact addTo_mono hc (fun a h => hF.tree _ _ a h) i
  | .laplace z, _, _, c, hc, doC, s, i => by
      cases doC <;> simp only [maybeCompose]
      · exact le_rfl
      · simp only [if_true]
        cases recip z with
        | error err => exact le_rfl
        | ok v => exact addTo_mono hc (fun a h => hF.laplace _ a h) i
  | .poissonSampled q e, _, _, c, hc, doC, s, i => by
      simp only [maybeCompose]
      split
      · cases effNoise e with
        | error err => exact le_rfl
        | ok v =>
          cases v <;> cases doC <;> simp only <;> first
            | exact le_rfl
            | exact addTo_mono hc (fun a h => hF.poissonGaussian _ _ a h) i
      · exact le_rfl
  | .sampledWithoutReplacement sz m e, _, _, c, hc, doC, s, i => by
      simp only [maybeCompose]
      split
      · cases effNoise e with
        | error err => exact le_rfl
        | ok v =>
          cases ratio m sz <;> cases v <;> cases doC <;> simp only <;> first
            | exact le_rfl
            | exact addTo_mono hc (fun a h => hF.sampleWor _ _ a h) i
      · exact le_rfl
  | .repeatAndSelect e m sh, _, hn, c, hc, doC, s, i => by simp [NoRepeat] at hn
theorem monoList_noRepeat : ∀ (es : List DpEvent), WfCountsL es → NoRepeatL es → ∀ (c : ℤ), 0 ≤ c →
    ∀ (doC : Bool) (s : Arr n) (i : Fin n), s i ≤ (composeList F nr es c doC s).1 i
  | [], _, _, c, hc, doC, s, i => by simp [composeList]
  | e :: es, hw, hn, c, hc, doC, s, i => by
      rw [WfCountsL] at hw
      rw [NoRepeatL] at hn
      have h1 := mono_noRepeat e hw.1 hn.1 c hc doC s i
      simp only [composeList]
      generalize maybeCompose F nr e c doC s = r at *
      obtain ⟨a, r⟩ := r
      match r with
      | .error err => exact h1
      | .ok (some d) => exact h1
      | .ok none => exact h1.trans (monoList_noRepeat es hw.2 hn.2 c hc doC a i)
end

mutual
/-- State entries stay non-negative, whatever happens. -/
theorem nonneg_preserved : ∀ (e : DpEvent), WfCounts e → ∀ (c : ℤ), 0 ≤ c → ∀ (doC : Bool) (s : Arr n),
    (∀ i, 0 ≤ s i) → ∀ i, 0 ≤ (maybeCompose F nr e c doC s).1 i
  | .selfComposed e m, hw, c, hc, doC, s, h, i => by
      rw [WfCounts] at hw
      simp only [maybeCompose]
      exact nonneg_preserved e hw.2 _ (by nlinarith [hw.1]) doC s h i
  | .composed es, hw, c, hc, doC, s, h, i => by
      rw [WfCounts] at hw
      simp only [maybeCompose]
      exact nonnegList_preserved es hw _ hc doC s h i
  | .repeatAndSelect e m sh, hw, c, hc, doC, s, h, i => by
      rw [WfCounts] at hw
      cases doC
      · simp only [maybeCompose]
        exact nonneg_preserved e hw 1 (by norm_num) false s h i
      · simp only [maybeCompose, if_true]
        have h1 := nonneg_preserved e hw 1 (by norm_num) true (fun _ => 0) (fun _ => le_rfl)
        generalize maybeCompose F nr e 1 true (fun _ => 0) = r at *
        obtain ⟨a, r⟩ := r
        match r with
        | .error err => exact h1 i
        | .ok (some d) => exact h1 i
        | .ok none =>
          simp only
          cases hr : F.repeatAndSelect a m sh with
          | error err => exact h1 i
          | ok v =>
            exact add_nonneg (mul_nonneg (by exact_mod_cast hc) (hF.repeatAndSelect _ _ _ _ h1 hr i)) (h i)
  | .noOp, hw, c, hc, doC, s, h, i => (h i).trans (mono_noRepeat F nr hF _ hw (by trivial) c hc doC s i)
  | .nonPrivate, hw, c, hc, doC, s, h, i => (h i).trans (mono_noRepeat F nr hF _ hw (by trivial) c hc doC s i)
  | .unsupported, hw, c, hc, doC, s, h, i => (h i).trans (mono_noRepeat F nr hF _ hw (by trivial) c hc doC s i)
  | .randomizedResponse _ _, hw, c, hc, doC, s, h, i => (h i).trans (mono_noRepeat F nr hF _ hw (by trivial) c hc doC s i)
  | .gaussian _, hw, c, hc, doC, s, h, i => (h i).trans (mono_noRepeat F nr hF _ hw (by trivial) c hc doC s i)
  | .laplace _, hw, c, hc, doC, s, h, i => (h i).trans (mono_noRepeat F nr hF _ hw (by trivial) c hc doC s i)
  | .poissonSampled _ _, hw, c, hc, doC, s, h, i => (h i).trans (mono_noRepeat F nr hF _ hw (by trivial) c hc doC s i)
  | .sampledWithReplacement _ _ _, hw, c, hc, doC, s, h, i => (h i).trans (mono_noRepeat F nr hF _ hw (by trivial) c hc doC s i)
  | .sampledWithoutReplacement _ _ _, hw, c, hc, doC, s, h, i => (h i).trans (mono_noRepeat F nr hF _ hw (by trivial) c hc doC s i)
  | .singleEpochTreeAggregation _ _, hw, c, hc, doC, s, h, i => (h i).trans (mono_noRepeat F nr hF _ hw (by trivial) c hc doC s i)
  | .mixtureOfGaussians _ _ _, hw, c, hc, doC, s, h, i => (h i).trans (mono_noRepeat F nr hF _ hw (by trivial) c hc doC s i)
theorem nonnegList_preserved : ∀ (es : List DpEvent), WfCountsL es → ∀ (c : ℤ), 0 ≤ c → ∀ (doC : Bool) (s : Arr n),
    (∀ i, 0 ≤ s i) → ∀ i, 0 ≤ (composeList F nr es c doC s).1 i
  | [], _, c, hc, doC, s, h, i => by simpa [composeList] using h i
  | e :: es, hw, c, hc, doC, s, h, i => by
      rw [WfCountsL] at hw
      have h1 := nonneg_preserved e hw.1 c hc doC s h
      simp only [composeList]
      generalize maybeCompose F nr e c doC s = r at *
      obtain ⟨a, r⟩ := r
      match r with
      | .error err => exact h1 i
      | .ok (some d) => exact h1 i
      | .ok none => exact nonnegList_preserved es hw.2 c hc doC a h1 i
end

mutual
theorem wf_of_mem : ∀ (e : DpEvent), WfCounts e → ∀ a ∈ expand e, WfCounts a
  | .selfComposed e m, hw, a, h => by
      rw [WfCounts] at hw
      rw [expand, mem_repeatList hw.1] at h
      exact wf_of_mem e hw.2 a h
  | .composed es, hw, a, h => by
      rw [WfCounts] at hw
      rw [expand] at h
      exact wf_of_mem_list es hw a h
  | .noOp, hw, a, h => by simp [expand] at h
  | .nonPrivate, hw, a, h => by simp [expand] at h; subst h; exact hw
  | .unsupported, hw, a, h => by simp [expand] at h; subst h; exact hw
  | .randomizedResponse _ _, hw, a, h => by simp [expand] at h; subst h; exact hw
  | .gaussian _, hw, a, h => by simp [expand] at h; subst h; exact hw
  | .laplace _, hw, a, h => by simp [expand] at h; subst h; exact hw
  | .poissonSampled _ _, hw, a, h => by simp [expand] at h; subst h; exact hw
  | .sampledWithReplacement _ _ _, hw, a, h => by simp [expand] at h; subst h; exact hw
  | .sampledWithoutReplacement _ _ _, hw, a, h => by simp [expand] at h; subst h; exact hw
  | .singleEpochTreeAggregation _ _, hw, a, h => by simp [expand] at h; subst h; exact hw
  | .repeatAndSelect _ _ _, hw, a, h => by simp [expand] at h; subst h; exact hw
  | .mixtureOfGaussians _ _ _, hw, a, h => by simp [expand] at h; subst h; exact hw
theorem wf_of_mem_list : ∀ (es : List DpEvent), WfCountsL es → ∀ a ∈ expandList es, WfCounts a
  | [], _, a, h => by simp [expandList] at h
  | e :: es, hw, a, h => by
      rw [WfCountsL] at hw
      rw [expandList, List.mem_append] at h
      rcases h with h | h
      · exact wf_of_mem e hw.1 a h
      · exact wf_of_mem_list es hw.2 a h
end

theorem curve_nonneg {a : DpEvent} (hw : WfCounts a) (i : Fin n) : 0 ≤ curve F nr a i :=
  nonneg_preserved F nr hF a hw 1 (by norm_num) true _ (fun _ => le_rfl) i

theorem sum_curve_nonneg {e : DpEvent} (hw : WfCounts e) (i : Fin n) :
    0 ≤ ((expand e).map (curve F nr)).sum i := by
  have hm := wf_of_mem F hF e hw
  generalize expand e = l at hm
  induction l with
  | nil => simp
  | cons a l ih =>
    simp only [List.map_cons, List.sum_cons, Pi.add_apply]
    exact add_nonneg (curve_nonneg F nr hF (hm a (by simp)) i) (ih (fun b hb => hm b (by simp [hb])))

theorem sum_curve_top {e : DpEvent} (hw : WfCounts e) (hmem : DpEvent.nonPrivate ∈ expand e) (i : Fin n) :
    ((expand e).map (curve F nr)).sum i = ⊤ := by
  have hm := wf_of_mem F hF e hw
  generalize expand e = l at hm hmem
  have hpos : ∀ l : List DpEvent, (∀ a ∈ l, WfCounts a) → 0 ≤ (l.map (curve F nr)).sum i := by
    intro l
    induction l with
    | nil => simp
    | cons a l ih =>
      intro hm
      simp only [List.map_cons, List.sum_cons, Pi.add_apply]
      exact add_nonneg (curve_nonneg F nr hF (hm a (by simp)) i) (ih (fun b hb => hm b (by simp [hb])))
  induction l with
  | nil => simp at hmem
  | cons a l ih =>
    simp only [List.map_cons, List.sum_cons, Pi.add_apply]
    have hl := hpos l (fun b hb => hm b (by simp [hb]))
    have ha := curve_nonneg F nr hF (hm a (by simp)) i
    rcases List.mem_cons.1 hmem with h | h
    · subst h
      have : curve F nr .nonPrivate i = ⊤ := by simp [curve, maybeCompose]
      rw [this, EReal.top_add_of_ne_bot (fun hb => by rw [hb] at hl; simp at hl)]
    · rw [ih (fun b hb => hm b (by simp [hb])) h,
        EReal.add_top_of_ne_bot (fun hb => by rw [hb] at ha; simp at ha)]

end Verif.RdpAccountant
