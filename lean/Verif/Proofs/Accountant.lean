import Verif.Proofs.Builder
import Verif.Spec.Accounting

/-! Helper lemmas about generic accountants. -/

namespace Verif.Accountant
open Verif Verif.Spec

variable {σ : Type} {A : Accountant σ} {res : DpEvent → Except Err (Option CompositionError)}

/-- What `compose` does, given the dry-run contract. -/
theorem compose_eq (h : DryRun A res) (s : AcctState σ) (e : DpEvent) (c : CountArg) :
    A.compose s (.event e) c =
      match res e with
      | .error err => (s, .error err)
      | .ok (some _) => (s, .error .unsupportedEventError)
      | .ok none =>
        match s.ledger.compose (.event e) c with
        | (b, .error err) => (⟨s.acct, b⟩, .error err)
        | (b, .ok ()) =>
          match A.maybeCompose e (dryCount c) true s.acct with
          | (a', .error err) => (⟨a', b⟩, .error err)
          | (a', .ok _) => (⟨a', b⟩, .ok ()) := by
  simp only [compose, h e]
  cases res e with
  | error err => rfl
  | ok r => cases r <;> rfl

theorem supports_eq (h : DryRun A res) (s : AcctState σ) (e : DpEvent) :
    A.supports s e = (s, (res e).map Option.isNone) := by
  simp only [supports, h e]
  cases res e <;> rfl

theorem compose_ledger (h : DryRun A res) (s : AcctState σ) (hs : s.ledger.Inv) (e : EventArg) (c : CountArg) :
    (A.compose s e c).1.ledger.Inv ∧
    PyEqList (expandCounts (A.compose s e c).1.ledger.eventCounts)
      (expandCounts s.ledger.eventCounts ++ recordedMeaning res (.compose e c)) := by
  cases e with
  | notAnEvent => simp [compose, hs, recordedMeaning, PyEqList.refl]
  | event e =>
    rw [compose_eq h]
    cases hr : res e with
    | error err => cases c <;> simp [hs, recordedMeaning, hr, PyEqList.refl]
    | ok r =>
      cases r with
      | some d => cases c <;> simp [hs, recordedMeaning, hr, PyEqList.refl]
      | none =>
        obtain ⟨h1, h2, h3⟩ := Builder.compose_spec s.ledger hs (.event e) c
        have hm : callMeaning (.compose (.event e) c) = recordedMeaning res (.compose (.event e) c) := by
          cases c with
          | notAnInt => rfl
          | int k =>
            simp only [callMeaning, recordedMeaning]
            by_cases hP : 1 ≤ k ∧ topCountsPos e
            · rw [if_pos hP, if_pos ⟨hr, hP⟩]
            · rw [if_neg hP, if_neg (fun h => hP h.2)]
        rw [hm] at h2
        generalize s.ledger.compose (.event e) c = r at *
        obtain ⟨b, r⟩ := r
        cases r with
        | error err => exact ⟨h1, h2⟩
        | ok u =>
          simp only
          generalize A.maybeCompose e (dryCount c) true s.acct = q
          obtain ⟨a', q⟩ := q
          cases q <;> exact ⟨h1, h2⟩

theorem run_append (a₀ : σ) (cs : List Call) (c : Call) :
    A.run a₀ (cs ++ [c]) = A.step (A.run a₀ cs) c := by
  simp [run]

theorem run_ledger (h : DryRun A res) (a₀ : σ) (cs : List Call) :
    (A.run a₀ cs).ledger.Inv ∧
    PyEqList (expandCounts (A.run a₀ cs).ledger.eventCounts) (cs.flatMap (recordedMeaning res)) := by
  induction cs using List.reverseRecOn with
  | nil => exact ⟨Builder.inv_init, .nil⟩
  | append_singleton cs c ih =>
    obtain ⟨i1, i2⟩ := ih
    rw [run_append, List.flatMap_append]
    simp only [List.flatMap_cons, List.flatMap_nil, List.append_nil]
    cases c with
    | compose e n =>
      obtain ⟨h1, h2⟩ := compose_ledger h _ i1 e n
      exact ⟨h1, h2.trans (i2.append (PyEqList.refl _))⟩
    | supports e =>
      simp only [step, supports_eq h]
      exact ⟨i1, by simpa [recordedMeaning] using i2⟩
    | ledger =>
      obtain ⟨h1, h2, -⟩ := Builder.build_spec _ i1
      refine ⟨h1, ?_⟩
      simpa [step, ledger, h2, recordedMeaning] using i2

theorem topCountsPos_of_wf : ∀ {e : DpEvent}, WfCounts e → topCountsPos e
  | .selfComposed e n, h => by
      rw [WfCounts] at h
      exact ⟨h.1, topCountsPos_of_wf h.2⟩
  | .noOp, _ | .nonPrivate, _ | .unsupported, _ | .randomizedResponse _ _, _ | .gaussian _, _ | .laplace _, _
  | .poissonSampled _ _, _ | .sampledWithReplacement _ _ _, _ | .sampledWithoutReplacement _ _ _, _
  | .singleEpochTreeAggregation _ _, _ | .repeatAndSelect _ _ _, _ | .mixtureOfGaussians _ _ _, _
  | .composed _, _ => by trivial

/-- A successful `compose`: accepted by the dry run and by the ledger, state given by the real run. -/
theorem compose_ok (h : DryRun A res) (s : AcctState σ) (hs : s.ledger.Inv) (e : DpEvent) (c : ℤ) :
    (A.compose s (.event e) (.int c)).2 = .ok () ↔
      res e = .ok none ∧ 1 ≤ c ∧ topCountsPos e ∧ ∃ r, (A.maybeCompose e c true s.acct).2 = .ok r := by
  rw [compose_eq h]
  cases hr : res e with
  | error err => simp
  | ok r =>
    cases r with
    | some d => simp
    | none =>
      obtain ⟨-, -, h3, h4⟩ := Builder.composeEvent_spec s.ledger hs e c
      simp only [Builder.compose, dryCount]
      generalize s.ledger.composeEvent e c = r at *
      obtain ⟨b, r⟩ := r
      cases r with
      | error err =>
        simp only at h3
        have : ¬ (1 ≤ c ∧ topCountsPos e) := fun h => by simpa using h3.2 h
        simp only [reduceCtorEq, true_and, false_iff]
        exact fun h => this ⟨h.1, h.2.1⟩
      | ok u =>
        have := h3.1 rfl
        simp only [true_and, this.1, this.2]
        generalize A.maybeCompose e c true s.acct = q
        obtain ⟨a', q⟩ := q
        cases q <;> simp

theorem compose_acct (h : DryRun A res) (s : AcctState σ) (e : EventArg) (c : CountArg) :
    (A.compose s e c).1.acct = s.acct ∨
    ∃ e' c', e = .event e' ∧ c = .int c' ∧ 1 ≤ c' ∧
      (A.compose s e c).1.acct = (A.maybeCompose e' c' true s.acct).1 := by
  cases e with
  | notAnEvent => left; rfl
  | event e =>
    rw [compose_eq h]
    cases hr : res e with
    | error err => left; rfl
    | ok r =>
      cases r with
      | some d => left; rfl
      | none =>
        cases c with
        | notAnInt => left; rfl
        | int c =>
          by_cases hc : 1 ≤ c
          · simp only [dryCount]
            generalize s.ledger.compose (.event e) (.int c) = r
            obtain ⟨b, r⟩ := r
            cases r with
            | error err => left; rfl
            | ok u =>
              right
              refine ⟨e, c, rfl, rfl, hc, ?_⟩
              generalize A.maybeCompose e c true s.acct = q
              obtain ⟨a', q⟩ := q
              cases q <;> rfl
          · left
            have hlt : c < 1 := by omega
            cases e <;> simp [Builder.compose, Builder.composeEvent, hlt]

theorem compose_acct_ok (h : DryRun A res) (s : AcctState σ) (e : DpEvent) (c : ℤ)
    (hok : (A.compose s (.event e) (.int c)).2 = .ok ()) :
    (A.compose s (.event e) (.int c)).1.acct = (A.maybeCompose e c true s.acct).1 := by
  rw [compose_eq h] at hok ⊢
  cases hr : res e with
  | error err => simp [hr] at hok
  | ok r =>
    cases r with
    | some d => simp [hr] at hok
    | none =>
      simp only [hr, dryCount] at hok ⊢
      generalize s.ledger.compose (.event e) (.int c) = r at *
      obtain ⟨b, r⟩ := r
      cases r with
      | error err => simp at hok
      | ok u =>
        simp only at hok ⊢
        generalize A.maybeCompose e c true s.acct = q
        obtain ⟨a', q⟩ := q
        cases q <;> rfl

end Verif.Accountant
