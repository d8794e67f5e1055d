import Verif.Proofs.RdpAccountant
import Verif.Proofs.PldAccountant
import Verif.Proofs.PldCovers

/-!
# C04-C10: accountants
-/

namespace Verif.Props
open Verif Verif.Spec

/-! ## C04: the ledger -/

/-- **C04.** For any accountant whose dry run obeys the documented contract and any history of calls, the ledger stands for
exactly the elementary applications of the calls that passed the checks, in order. -/
theorem C04_ledger_is_history {σ : Type} {A : Accountant σ} {res : DpEvent → Except Err (Option CompositionError)}
    (h : DryRun A res) (a₀ : σ) (cs : List Accountant.Call) :
    SameEvents (expand (Accountant.ledger (A.run a₀ cs)).2) (cs.flatMap (recordedMeaning res)) := by
  obtain ⟨hi, hm⟩ := Accountant.run_ledger h a₀ cs
  simp only [Accountant.ledger]
  rw [(Builder.build_spec _ hi).2.2, expand_assemble]
  exact hm

/-- What `supports` answers on a fresh accountant, as an exception-or-verdict value. -/
noncomputable def verdictOf {σ : Type} (A : Accountant σ) (a₀ : σ) (e : DpEvent) : Except Err (Option CompositionError) :=
  (A.maybeCompose e 1 false a₀).2

/-- **C04 for the RDP accountant.** -/
theorem C04_rdp_ledger {n : ℕ} (F : RdpFns n) (nr : NeighborRel) (cs : List Accountant.Call) :
    SameEvents (expand (Accountant.ledger ((RdpAccountant.accountant F nr).run RdpAccountant.init cs)).2)
      (cs.flatMap (recordedMeaning (verdictOf (RdpAccountant.accountant F nr) RdpAccountant.init))) :=
  C04_ledger_is_history (RdpAccountant.dryRun F nr) _ cs

/-- **C04 for the PLD accountant.** -/
theorem C04_pld_ledger {P : Type} (F : PldFns P) (nr : NeighborRel) (cs : List Accountant.Call) :
    SameEvents (expand (Accountant.ledger ((PldAccountant.accountant F nr).run (PldAccountant.init F) cs)).2)
      (cs.flatMap (recordedMeaning (verdictOf (PldAccountant.accountant F nr) (PldAccountant.init F)))) :=
  C04_ledger_is_history (PldAccountant.dryRun F nr) _ cs

/-- A history with a rejected (unsupported) event, a rejected count and two accepted ones. -/
example {P : Type} (F : PldFns P) :
    List.flatMap (recordedMeaning (verdictOf (PldAccountant.accountant F .addOrRemoveOne) (PldAccountant.init F)))
    [.compose (.event (.gaussian (.int 1))) (.int 2), .compose (.event .unsupported) (.int 1),
     .compose (.event (.laplace (.int 1))) (.int 0), .ledger, .supports .nonPrivate,
     .compose (.event (.composed [.laplace (.int 1), .noOp])) (.int 1)]
    = [.gaussian (.int 1), .gaussian (.int 1), .laplace (.int 1)] := by
  simp [recordedMeaning, verdictOf, PldAccountant.accountant, PldAccountant.maybeCompose, PldAccountant.composeList,
    expand, expandList, repeatList, topCountsPos]

/-! ## C05: `supports` -/

/-- Observable contract of `supports` and of rejected `compose` calls on every state of an accountant. -/
structure SupportsExact {σ : Type} (A : Accountant σ) : Prop where
  /-- `supports` never changes anything. -/
  supports_pure : ∀ s e, (A.supports s e).1 = s
  /-- its answer does not depend on the state. -/
  supports_stable : ∀ s s' e, (A.supports s e).2 = (A.supports s' e).2
  /-- answer `False`: `compose` raises `UnsupportedEventError`, whatever the count, and changes nothing. -/
  unsupported : ∀ s e c, (A.supports s e).2 = .ok false →
    A.compose s (.event e) c = (s, .error .unsupportedEventError)
  /-- answer `True`: the event is composed (never silently dropped): the composition step itself reports no error. -/
  supported : ∀ s e c, (A.supports s e).2 = .ok true → ∀ d, (A.maybeCompose e c true s.acct).2 ≠ .ok (some d)
  /-- if `compose` returns normally then `supports` answers `True`. -/
  composed : ∀ s e c, (A.compose s (.event e) c).2 = .ok () → (A.supports s e).2 = .ok true
  /-- if `supports` raises, `compose` raises the same exception and changes nothing. -/
  raises : ∀ s e c err, (A.supports s e).2 = .error err → A.compose s (.event e) c = (s, .error err)

theorem supportsExact_of_dryRun {σ : Type} {A : Accountant σ} {res : DpEvent → Except Err (Option CompositionError)}
    (h : DryRun A res) (hreal : ∀ e c s, res e = .ok none → ∀ d, (A.maybeCompose e c true s).2 ≠ .ok (some d)) :
    SupportsExact A where
  supports_pure s e := by rw [Accountant.supports_eq h]
  supports_stable s s' e := by rw [Accountant.supports_eq h, Accountant.supports_eq h]
  unsupported s e c hs := by
    rw [Accountant.supports_eq h] at hs
    rw [Accountant.compose_eq h]
    cases hr : res e with
    | error err => simp [hr, Except.map] at hs
    | ok r => cases r <;> simp_all [Except.map]
  supported s e c hs d := by
    rw [Accountant.supports_eq h] at hs
    refine hreal e c s.acct ?_ d
    cases hr : res e with
    | error err => simp [hr, Except.map] at hs
    | ok r => cases r <;> simp_all [Except.map]
  composed s e c hs := by
    rw [Accountant.supports_eq h]
    rw [Accountant.compose_eq h] at hs
    cases hr : res e with
    | error err => simp [hr] at hs
    | ok r => cases r <;> simp_all [Except.map]
  raises s e c err hs := by
    rw [Accountant.supports_eq h] at hs
    rw [Accountant.compose_eq h]
    cases hr : res e with
    | error err => simp_all [Except.map]
    | ok r => cases r <;> simp_all [Except.map]

/-- **C05 for the RDP accountant**: all events, states and neighbouring relations. -/
theorem C05_rdp_supports_exact {n : ℕ} (F : RdpFns n) (nr : NeighborRel) :
    SupportsExact (RdpAccountant.accountant F nr) :=
  supportsExact_of_dryRun (RdpAccountant.dryRun F nr)
    (fun e c s h => RdpAccountant.real_of_dry F nr e c s ⟨1, _, h⟩)

/-- **C05 for the PLD accountant**: all events, states and neighbouring relations. -/
theorem C05_pld_supports_exact {P : Type} (F : PldFns P) (nr : NeighborRel) :
    SupportsExact (PldAccountant.accountant F nr) :=
  supportsExact_of_dryRun (PldAccountant.dryRun F nr)
    (fun e c s h => PldAccountant.real_of_dry F nr e c s ⟨1, _, h⟩)

/-- **C05 (PLD)** `supports` never raises. -/
theorem C05_pld_supports_total {P : Type} (F : PldFns P) (nr : NeighborRel) (s : AcctState (PldState P)) (e : DpEvent) :
    ∃ b, ((PldAccountant.accountant F nr).supports s e).2 = .ok b := by
  rw [Accountant.supports_eq (PldAccountant.dryRun F nr)]
  obtain ⟨r, hr⟩ := PldAccountant.verdict_total F nr e
  exact ⟨r.isNone, by rw [hr]; rfl⟩

/-- **C05, disagreement (RDP).** `supports` itself may raise: a Poisson-sampled empty composition gives
`ZeroDivisionError` (`rdp_privacy_accountant.py:574`), whatever the accountant's state. -/
theorem C05_rdp_supports_raises {n : ℕ} (F : RdpFns n) (s : AcctState (Arr n)) (q : PyNum) :
    ((RdpAccountant.accountant F .addOrRemoveOne).supports s (.poissonSampled q (.composed []))).2
      = .error .zeroDivisionError := by
  simp [Accountant.supports, RdpAccountant.accountant, RdpAccountant.maybeCompose, effNoise, effNoiseLoop,
    EffNoise.invSqrt, Except.map]

/-- Both answers of `supports` occur. -/
example {n : ℕ} (F : RdpFns n) (s : AcctState (Arr n)) :
    ((RdpAccountant.accountant F .replaceOne).supports s
      (.composed [.noOp, .selfComposed (.gaussian (.int 1)) 3])).2 = .ok true ∧
    ((RdpAccountant.accountant F .replaceOne).supports s
      (.composed [.noOp, .selfComposed (.poissonSampled (.float 0.5) (.gaussian (.int 1))) 3])).2 = .ok false := by
  simp [Accountant.supports, RdpAccountant.accountant, RdpAccountant.maybeCompose, RdpAccountant.composeList]

/-! ## C06: exceptions -/

/-- **C06, disagreement (RDP).** An exception inside a `RepeatAndSelect` event loses everything accounted before: after a
`NonPrivate` event (infinite loss at every order) a failing `compose` call leaves RDP zero at every order
(`rdp_privacy_accountant.py:1110-1113`: `_rdp` is zeroed and not restored when the inner call raises). -/
theorem C06_rdp_exception_loses_loss {n : ℕ} (F : RdpFns n) (nr : NeighborRel) :
    let A := RdpAccountant.accountant F nr
    let s := (A.compose ⟨RdpAccountant.init, Builder.init⟩ (.event .nonPrivate) (.int 1)).1
    let r := A.compose s (.event (.repeatAndSelect (.laplace (.float 0)) (.int 1) (.int 1))) (.int 1)
    (∀ i, s.acct i = ⊤) ∧ r.2 = .error .zeroDivisionError ∧ (∀ i, r.1.acct i = 0) := by
  simp [Accountant.compose, RdpAccountant.accountant, RdpAccountant.maybeCompose, RdpAccountant.init, Builder.compose,
    Builder.composeEvent, Builder.init, Builder.push, Accountant.dryCount, RdpAccountant.recip]

/-- **C06 (partial, RDP).** For events without `RepeatAndSelect`, no `compose` call (returning or raising, at any depth)
decreases any RDP value.  Missing: `RepeatAndSelect` events, for which the claim is false (see above). -/
theorem C06_rdp_exception_keeps_loss_partial {n : ℕ} (F : RdpFns n) (hF : NonNegFns F) (nr : NeighborRel)
    (s : AcctState (Arr n)) (e : DpEvent) (he : WfCounts e) (hr : NoRepeat e) (c : CountArg) (i : Fin n) :
    s.acct i ≤ ((RdpAccountant.accountant F nr).compose s (.event e) c).1.acct i := by
  rcases Accountant.compose_acct (RdpAccountant.dryRun F nr) s (.event e) c with h | ⟨e', c', h1, h2, h3, h⟩
  · rw [h]
  · cases h1; rw [h]
    exact RdpAccountant.mono_noRepeat F nr hF e he hr c' (by omega) true s.acct i

/-- **C06 (PLD).** For every event, every `compose` call (returning or raising) keeps the non-private mark and moves the
PLD only upwards in any preorder for which PLD composition is inflationary. -/
theorem C06_pld_exception_keeps_loss {P : Type} (F : PldFns P) (nr : NeighborRel) (le : P → P → Prop)
    (hrefl : ∀ p, le p p) (htrans : ∀ p q r, le p q → le q r → le p r)
    (hle : ∀ p q r, F.compose p q = .ok r → le p r)
    (s : AcctState (PldState P)) (e : EventArg) (c : CountArg) :
    let s' := ((PldAccountant.accountant F nr).compose s e c).1
    (s.acct.nonDp = true → s'.acct.nonDp = true) ∧ le s.acct.pld s'.acct.pld := by
  intro s'
  rcases Accountant.compose_acct (PldAccountant.dryRun F nr) s e c with h | ⟨e', c', h1, h2, h3, h⟩
  · simp only [s', h]; exact ⟨id, hrefl _⟩
  · simp only [s', h]
    exact ⟨fun hs => PldAccountant.nonDp_mono F nr e' c' true _ hs,
      PldAccountant.pld_mono F nr le hrefl htrans hle e' c' true _⟩

/-! ## C07: `SelfComposed` is repetition -/

/-- **C07 (RDP).** `SelfComposed(e, n)`, `e` with count `n`, and `Composed([e]*n)` change the RDP values in the same way, and
each equals composing `e` once, `n` times in a row. -/
theorem C07_rdp_self_composed {n : ℕ} (F : RdpFns n) (nr : NeighborRel) (e : DpEvent) (he : WfCounts e) (m : ℕ)
    (hm : 1 ≤ m) (rdp : Arr n) (hok : (RdpAccountant.maybeCompose F nr e 1 true rdp).2 = .ok none) :
    let one := fun r => (RdpAccountant.maybeCompose F nr e 1 true r).1
    RdpAccountant.maybeCompose F nr (.selfComposed e m) 1 true rdp = (one^[m] rdp, .ok none) ∧
    RdpAccountant.maybeCompose F nr e m true rdp = (one^[m] rdp, .ok none) ∧
    RdpAccountant.maybeCompose F nr (.composed (List.replicate m e)) 1 true rdp = (one^[m] rdp, .ok none) := by
  intro one
  have hk : ∀ r, (RdpAccountant.maybeCompose F nr e 1 true r).2 = .ok none := fun r => by
    rw [RdpAccountant.real_indep F nr e 1 1 r rdp, hok]
  have hone : ∀ k, one^[k] rdp = rdp + k • ((expand e).map (RdpAccountant.curve F nr)).sum := by
    intro k
    induction k with
    | zero => simp
    | succ k ih =>
      rw [Function.iterate_succ_apply', ih]
      simp only [one]
      rw [RdpAccountant.real_spec F nr e he 1 le_rfl _ (hk _), add_assoc, succ_nsmul]
      simp
  have hcount : RdpAccountant.maybeCompose F nr e m true rdp = (one^[m] rdp, .ok none) := by
    have h2 : (RdpAccountant.maybeCompose F nr e m true rdp).2 = .ok none := by
      rw [RdpAccountant.real_indep F nr e m 1 rdp rdp, hok]
    refine Prod.ext ?_ h2
    rw [RdpAccountant.real_spec F nr e he m (by omega) _ h2, hone]
    simp
  refine ⟨by simpa [RdpAccountant.maybeCompose] using hcount, hcount, ?_⟩
  simp only [RdpAccountant.maybeCompose]
  have hl : ∀ k r, RdpAccountant.composeList F nr (List.replicate k e) 1 true r = (one^[k] r, .ok none) := by
    intro k
    induction k with
    | zero => intro r; simp [RdpAccountant.composeList]
    | succ k ih =>
      intro r
      rw [List.replicate_succ]
      simp only [RdpAccountant.composeList]
      have h1 := hk r
      have h2 : (RdpAccountant.maybeCompose F nr e 1 true r).1 = one r := rfl
      generalize RdpAccountant.maybeCompose F nr e 1 true r = q at *
      obtain ⟨a, q⟩ := q
      subst h1
      simp only at h2 ⊢
      rw [ih, h2, Function.iterate_succ_apply]
  exact hl m rdp

example {n : ℕ} (F : RdpFns n) (rdp : Arr n) :
    WfCounts (.composed [.noOp, .selfComposed .nonPrivate 2]) ∧
    (RdpAccountant.maybeCompose F .replaceOne (.composed [.noOp, .selfComposed .nonPrivate 2]) 1 true rdp).2
      = .ok none := by
  simp [WfCounts, WfCountsL, RdpAccountant.maybeCompose, RdpAccountant.composeList]

/-- **C07, disagreement (PLD).** The PLD accountant ignores the count of a randomized-response event
(`pld_privacy_accountant.py:58-80`): composing it any number of times in one call changes the state exactly as composing
it once. -/
theorem C07_pld_randomized_response_count_ignored {P : Type} (F : PldFns P) (nr : NeighborRel) (p : PyNum) (k : ℤ)
    (m c : ℤ) (s : PldState P) :
    PldAccountant.maybeCompose F nr (.selfComposed (.randomizedResponse p k) m) c true s
      = PldAccountant.maybeCompose F nr (.randomizedResponse p k) 1 true s := by
  simp [PldAccountant.maybeCompose]

/-- Consequence on the public API: with PLDs counted by a natural number (`compose` adding), a thousand randomized
responses composed in one call are accounted as one, composed one by one as a thousand. -/
theorem C07_pld_randomized_response_undercount (F : PldFns ℕ) (hF : F.compose = fun a b => .ok (a + b))
    (hRR : F.fromRR = fun _ _ _ => .ok 1) (hid : F.identity = 0) (m : ℕ) (hm : 1 ≤ m) :
    let A := PldAccountant.accountant F .replaceOne
    let e : DpEvent := .randomizedResponse (.float 2⁻¹) 2
    ((A.compose ⟨PldAccountant.init F, Builder.init⟩ (.event e) (.int m)).1.acct.pld = 1) ∧
    (A.run (PldAccountant.init F) (List.replicate m (.compose (.event e) (.int 1)))).acct.pld = m := by
  intro A e
  have hz : PldAccountant.isZero (.float 2⁻¹) = false := by
    simp [PldAccountant.isZero, PyNum.val]
  have hstep : ∀ (s : AcctState (PldState ℕ)) (c : ℤ), 1 ≤ c →
      (A.compose s (.event e) (.int c)).1.acct = ⟨s.acct.nonDp, s.acct.pld + 1⟩ := by
    intro s c hc
    have hn : ¬ c < 1 := by omega
    simp [A, e, Accountant.compose, PldAccountant.accountant, PldAccountant.maybeCompose, hz, Builder.compose,
      Builder.composeEvent, hn, PldAccountant.composeWith, hRR, hF]
  constructor
  · rw [hstep _ _ (by omega)]; simp [PldAccountant.init, hid]
  · have : ∀ k, (A.run (PldAccountant.init F) (List.replicate k (.compose (.event e) (.int 1)))).acct.pld = k := by
      intro k
      induction k with
      | zero => simp [Accountant.run, PldAccountant.init, hid]
      | succ k ih =>
        rw [List.replicate_succ', Accountant.run_append]
        simp only [Accountant.step]
        rw [hstep _ _ le_rfl]
        simp [ih]
    exact this m

/-! ## C08, C10: RDP is additive, order independent, monotone -/

/-- Sum of the RDP curves of the elementary applications of a list of composed (event, count) pairs. -/
noncomputable def totalRdp {n : ℕ} (F : RdpFns n) (nr : NeighborRel) (l : List (DpEvent × ℤ)) : Arr n :=
  ((l.flatMap fun p => repeatList p.2 (expand p.1)).map fun a =>
    (RdpAccountant.maybeCompose F nr a 1 true RdpAccountant.init).1).sum

theorem composeAll_spec {n : ℕ} (F : RdpFns n) (nr : NeighborRel) (l : List (DpEvent × ℤ))
    (hl : ∀ p ∈ l, WfCounts p.1) (s : AcctState (Arr n)) (hs : s.ledger.Inv) :
    ((composeAll (RdpAccountant.accountant F nr) s l).2 = true ↔
      ∀ p ∈ l, RdpAccountant.verdict F nr p.1 = .ok none ∧ 1 ≤ p.2 ∧ ∀ a ∈ expand p.1, RdpAccountant.Ok F nr a) ∧
    ((composeAll (RdpAccountant.accountant F nr) s l).2 = true →
      (composeAll (RdpAccountant.accountant F nr) s l).1.acct = s.acct + totalRdp F nr l) := by
  induction l generalizing s with
  | nil => simp [composeAll, totalRdp]
  | cons p l ih =>
    obtain ⟨e, c⟩ := p
    have hw : WfCounts e := hl (e, c) (by simp)
    have hinv := (Accountant.compose_ledger (RdpAccountant.dryRun F nr) s hs (.event e) (.int c)).1
    have hok := Accountant.compose_ok (RdpAccountant.dryRun F nr) s hs e c
    have hacct := Accountant.compose_acct_ok (RdpAccountant.dryRun F nr) s e c
    have hit := ih (fun p hp => hl p (by simp [hp]))
    simp only [composeAll]
    have key : (((RdpAccountant.accountant F nr).compose s (.event e) (.int c)).2 = .ok ()) ↔
        (RdpAccountant.verdict F nr e = .ok none ∧ 1 ≤ c ∧ ∀ a ∈ expand e, RdpAccountant.Ok F nr a) := by
      rw [hok]
      constructor
      · rintro ⟨h1, h2, h3, r, h4⟩
        refine ⟨h1, h2, (RdpAccountant.real_ok F nr e hw c h2 s.acct).1 ?_⟩
        cases r with
        | none => exact h4
        | some d => exact absurd h4 (RdpAccountant.real_of_dry F nr e c s.acct ⟨1, _, h1⟩ d)
      · rintro ⟨h1, h2, h3⟩
        exact ⟨h1, h2, Accountant.topCountsPos_of_wf hw, none, (RdpAccountant.real_ok F nr e hw c h2 s.acct).2 h3⟩
    generalize (RdpAccountant.accountant F nr).compose s (.event e) (.int c) = r at *
    obtain ⟨s', r⟩ := r
    cases r with
    | error err =>
      simp only at key ⊢
      refine ⟨?_, by simp⟩
      simp only [Bool.false_eq_true, false_iff]
      intro h
      have := key.2 (h (e, c) (by simp))
      simp at this
    | ok u =>
      simp only at key hacct ⊢
      have hk := key.1 trivial
      obtain ⟨i1, i2⟩ := hit s' hinv
      constructor
      · rw [i1, List.forall_mem_cons]; exact ⟨fun h => ⟨hk, h⟩, fun h => h.2⟩
      · intro h
        rw [i2 h, hacct trivial]
        have h3 := (RdpAccountant.real_ok F nr e hw c hk.2.1 s.acct).2 hk.2.2
        have := RdpAccountant.real_spec F nr e hw c hk.2.1 s.acct h3
        simp only [RdpAccountant.accountant]
        rw [this, add_assoc]
        congr 1
        simp only [totalRdp, List.flatMap_cons, List.map_append, List.sum_append]
        rw [RdpAccountant.sum_repeatList]
        rfl

/-- **C10 (additivity).** After composing any list of events with positive counts without an exception, the RDP values are
exactly the sum of the values of the elementary applications, each with its multiplicity. -/
theorem C10_rdp_additive {n : ℕ} (F : RdpFns n) (nr : NeighborRel) (l : List (DpEvent × ℤ))
    (hl : ∀ p ∈ l, WfCounts p.1)
    (hok : (composeAll (RdpAccountant.accountant F nr) ⟨RdpAccountant.init, Builder.init⟩ l).2 = true) :
    (composeAll (RdpAccountant.accountant F nr) ⟨RdpAccountant.init, Builder.init⟩ l).1.acct = totalRdp F nr l := by
  rw [(composeAll_spec F nr l hl _ Builder.inv_init).2 hok]
  simp only
  ext i
  simp [RdpAccountant.init]

/-- **C08.** Composing the same events in another order raises in neither or both orders and gives the same RDP values. -/
theorem C08_rdp_order_independent {n : ℕ} (F : RdpFns n) (nr : NeighborRel) (l l' : List (DpEvent × ℤ))
    (hperm : l.Perm l') (hl : ∀ p ∈ l, WfCounts p.1) :
    let A := RdpAccountant.accountant F nr
    let s : AcctState (Arr n) := ⟨RdpAccountant.init, Builder.init⟩
    (composeAll A s l).2 = (composeAll A s l').2 ∧
    ((composeAll A s l).2 = true → (composeAll A s l).1.acct = (composeAll A s l').1.acct) := by
  intro A s
  have hl' : ∀ p ∈ l', WfCounts p.1 := fun p hp => hl p (hperm.mem_iff.2 hp)
  have h1 := composeAll_spec F nr l hl s Builder.inv_init
  have h2 := composeAll_spec F nr l' hl' s Builder.inv_init
  have heq : (composeAll A s l).2 = (composeAll A s l').2 := by
    rw [Bool.eq_iff_iff, h1.1, h2.1]
    simp only [hperm.mem_iff]
  refine ⟨heq, fun h => ?_⟩
  rw [h1.2 h, h2.2 (heq ▸ h)]
  congr 1
  exact ((hperm.flatMap_right _).map _).sum_eq

example {n : ℕ} (F : RdpFns n) :
    (composeAll (RdpAccountant.accountant F .replaceOne) ⟨RdpAccountant.init, Builder.init⟩
      [(.composed [.noOp, .selfComposed .nonPrivate 2], 3), (.noOp, 1)]).2 = true := by
  rw [(composeAll_spec F _ _ (by simp [WfCounts, WfCountsL]) _ Builder.inv_init).1]
  simp [RdpAccountant.verdict, RdpAccountant.Ok, RdpAccountant.maybeCompose, RdpAccountant.composeList, expand,
    expandList, repeatList]

/-- **C10 (neutral element).** Composing `NoOp` (with a positive count) leaves accounting state and ledger unchanged, for both
accountants. -/
theorem C10_noop_neutral {n : ℕ} (F : RdpFns n) {P : Type} (G : PldFns P) (nr : NeighborRel) (c : ℤ) (hc : 1 ≤ c)
    (s : AcctState (Arr n)) (t : AcctState (PldState P)) :
    (RdpAccountant.accountant F nr).compose s (.event .noOp) (.int c) = (s, .ok ()) ∧
    (PldAccountant.accountant G nr).compose t (.event .noOp) (.int c) = (t, .ok ()) := by
  have hn : ¬ c < 1 := by omega
  simp [Accountant.compose, RdpAccountant.accountant, RdpAccountant.maybeCompose, PldAccountant.accountant,
    PldAccountant.maybeCompose, Builder.compose, Builder.composeEvent, hn]

/-- **C10 (monotonicity).** A `compose` call that returns never decreases an RDP value. -/
theorem C10_rdp_monotone {n : ℕ} (F : RdpFns n) (hF : NonNegFns F) (nr : NeighborRel) (s : AcctState (Arr n))
    (hs : s.ledger.Inv) (e : DpEvent) (he : WfCounts e) (c : ℤ)
    (hok : ((RdpAccountant.accountant F nr).compose s (.event e) (.int c)).2 = .ok ()) (i : Fin n) :
    s.acct i ≤ ((RdpAccountant.accountant F nr).compose s (.event e) (.int c)).1.acct i := by
  rw [Accountant.compose_acct_ok (RdpAccountant.dryRun F nr) s e c hok]
  obtain ⟨h1, h2, h3, r, h4⟩ := (Accountant.compose_ok (RdpAccountant.dryRun F nr) s hs e c).1 hok
  have h4' : (RdpAccountant.maybeCompose F nr e c true s.acct).2 = .ok none := by
    cases r with
    | none => exact h4
    | some d => exact absurd h4 (RdpAccountant.real_of_dry F nr e c s.acct ⟨1, _, h1⟩ d)
  simp only [RdpAccountant.accountant]
  rw [RdpAccountant.real_spec F nr e he c h2 s.acct h4']
  have h0 : 0 ≤ (c.toNat • ((expand e).map (RdpAccountant.curve F nr)).sum) i := by
    simp only [Pi.smul_apply]
    exact nsmul_nonneg (RdpAccountant.sum_curve_nonneg F nr hF he i) _
  calc s.acct i = s.acct i + 0 := by simp
    _ ≤ _ := by simp only [Pi.add_apply]; gcongr

/-- **C10, disagreement.** Without `WfCounts` monotonicity fails: nested negative counts are accepted and subtract. -/
theorem C10_negative_count_decreases {n : ℕ} (F : RdpFns n) (nr : NeighborRel) (z : PyNum) (a : Arr n)
    (hz : F.poissonGaussian (.float 1) (.num z) = .ok a) (m : ℕ) :
    let A := RdpAccountant.accountant F nr
    let r := A.compose ⟨RdpAccountant.init, Builder.init⟩ (.event (.composed [.selfComposed (.gaussian z) (-m)])) (.int 1)
    r.2 = .ok () ∧ ∀ i, r.1.acct i = -(m : EReal) * a i := by
  simp [Accountant.compose, RdpAccountant.accountant, RdpAccountant.maybeCompose, RdpAccountant.composeList,
    RdpAccountant.init, Builder.compose, Builder.composeEvent, RdpAccountant.addTo, hz, Accountant.dryCount]

/-! ## C09: `NonPrivate` is absorbing -/

/-- **C09 (RDP).** If any of the events composed without exception contains a `NonPrivate` application, every RDP value
is infinite, whatever came before or after. -/
theorem C09_rdp_nonprivate_absorbing {n : ℕ} (F : RdpFns n) (hF : NonNegFns F) (nr : NeighborRel)
    (l : List (DpEvent × ℤ)) (hl : ∀ p ∈ l, WfCounts p.1)
    (hok : (composeAll (RdpAccountant.accountant F nr) ⟨RdpAccountant.init, Builder.init⟩ l).2 = true)
    (p : DpEvent × ℤ) (hp : p ∈ l) (hnp : .nonPrivate ∈ expand p.1) (i : Fin n) :
    (composeAll (RdpAccountant.accountant F nr) ⟨RdpAccountant.init, Builder.init⟩ l).1.acct i = ⊤ := by
  have hpos := ((composeAll_spec F nr l hl _ Builder.inv_init).1.1 hok)
  rw [C10_rdp_additive F nr l hl hok]
  have hsum : ∀ L : List DpEvent, (∀ a ∈ L, WfCounts a) → 0 ≤ (L.map (RdpAccountant.curve F nr)).sum i := by
    intro L hL
    induction L with
    | nil => simp
    | cons a L ih =>
      simp only [List.map_cons, List.sum_cons, Pi.add_apply]
      exact add_nonneg (RdpAccountant.curve_nonneg F nr hF (hL a (by simp)) i) (ih (fun b hb => hL b (by simp [hb])))
  obtain ⟨l1, l2, rfl⟩ := List.append_of_mem hp
  have hwf : ∀ l' : List (DpEvent × ℤ), (∀ p ∈ l', WfCounts p.1) →
      ∀ a ∈ l'.flatMap (fun p => repeatList p.2 (expand p.1)), WfCounts a := by
    intro l' hl' a ha
    obtain ⟨q, hq, ha⟩ := List.mem_flatMap.1 ha
    obtain ⟨L, hL, ha⟩ := List.mem_flatten.1 ha
    rw [(List.mem_replicate.1 hL).2] at ha
    exact RdpAccountant.wf_of_mem F hF q.1 (hl' q hq) a ha
  have h1 := hsum _ (hwf l1 (fun q hq => hl q (by simp [hq])))
  have h2 := hsum _ (hwf l2 (fun q hq => hl q (by simp [hq])))
  have hc : 1 ≤ p.2.toNat := by have := (hpos p hp).2.1; omega
  have htop : ((repeatList p.2 (expand p.1)).map (RdpAccountant.curve F nr)).sum i = ⊤ := by
    rw [RdpAccountant.sum_repeatList, Pi.smul_apply, RdpAccountant.sum_curve_top F nr hF (hl p hp) hnp i,
      RdpAccountant.nsmul_top hc]
  have : totalRdp F nr (l1 ++ p :: l2) i
      = (((l1.flatMap fun p => repeatList p.2 (expand p.1)).map (RdpAccountant.curve F nr)).sum i) +
        (((repeatList p.2 (expand p.1)).map (RdpAccountant.curve F nr)).sum i +
         ((l2.flatMap fun p => repeatList p.2 (expand p.1)).map (RdpAccountant.curve F nr)).sum i) := by
    simp only [totalRdp, List.flatMap_append, List.flatMap_cons, List.map_append, List.sum_append, Pi.add_apply]
    rfl
  rw [this, htop, EReal.top_add_of_ne_bot (fun hb => by rw [hb] at h2; simp at h2),
    EReal.add_top_of_ne_bot (fun hb => by rw [hb] at h1; simp at h1)]

/-- **C09 (PLD).** Once a `compose` of an event containing a `NonPrivate` application returned, every later state of the
accountant, after whatever further calls (also failing ones), reports epsilon infinity and delta one. -/
theorem C09_pld_nonprivate_absorbing {P : Type} (F : PldFns P) (nr : NeighborRel) (cs cs' : List Accountant.Call)
    (e : DpEvent) (c : ℤ) (hnp : .nonPrivate ∈ expand e) :
    let A := PldAccountant.accountant F nr
    (A.compose (A.run (PldAccountant.init F) cs) (.event e) (.int c)).2 = .ok () →
    let s := A.run (PldAccountant.init F) (cs ++ [.compose (.event e) (.int c)] ++ cs')
    (∀ delta, PldAccountant.getEpsilon F s.acct delta = ⊤) ∧ ∀ eps, PldAccountant.getDelta F s.acct eps = 1 := by
  intro A hok s
  have hmark : (A.run (PldAccountant.init F) (cs ++ [.compose (.event e) (.int c)])).acct.nonDp = true := by
    rw [Accountant.run_append]
    simp only [Accountant.step]
    rw [Accountant.compose_acct_ok (PldAccountant.dryRun F nr) _ e c hok]
    have hinv := (Accountant.run_ledger (PldAccountant.dryRun F nr) (PldAccountant.init F) cs).1
    obtain ⟨h1, -, -, r, h4⟩ := (Accountant.compose_ok (PldAccountant.dryRun F nr) _ hinv e c).1 hok
    refine PldAccountant.nonPrivate_marks F nr e c _ hnp ?_
    cases r with
    | none => exact h4
    | some d => exact absurd h4 (PldAccountant.real_of_dry F nr e c _ ⟨1, _, h1⟩ d)
  have hs : s.acct.nonDp = true := by
    simp only [s]
    generalize cs ++ [Accountant.Call.compose (.event e) (.int c)] = cs0 at hmark
    induction cs' using List.reverseRecOn with
    | nil => simpa using hmark
    | append_singleton l call ih =>
      rw [← List.append_assoc, Accountant.run_append]
      cases call with
      | compose e c =>
        simp only [Accountant.step]
        rcases Accountant.compose_acct (PldAccountant.dryRun F nr) (A.run (PldAccountant.init F) (cs0 ++ l)) e c with
          h | ⟨e', c', -, -, -, h⟩
        · rw [h]; exact ih
        · rw [h]; exact PldAccountant.nonDp_mono F nr e' c' true _ ih
      | supports e =>
        simp only [Accountant.step]
        rw [Accountant.supports_eq (PldAccountant.dryRun F nr)]
        exact ih
      | ledger => exact ih
  simp [PldAccountant.getEpsilon, PldAccountant.getDelta, hs]

example {P : Type} (F : PldFns P) :
    DpEvent.nonPrivate ∈ expand (.selfComposed (.composed [.noOp, .nonPrivate]) 2) ∧
    ((PldAccountant.accountant F .replaceOne).compose
      ((PldAccountant.accountant F .replaceOne).run (PldAccountant.init F) [])
      (.event (.selfComposed (.composed [.noOp, .nonPrivate]) 2)) (.int 1)).2 = .ok () := by
  simp [expand, expandList, repeatList, Accountant.run, Accountant.compose, PldAccountant.accountant,
    PldAccountant.maybeCompose, PldAccountant.composeList, Builder.compose, Builder.composeEvent,
    PldAccountant.markNonDp]

/-! ## C07, PLD accountant: every application is accounted for -/

/-- **C07 (partial, PLD).** Whatever "accounts for" means (any relation `R` that the PLD constructors, `compose` and
`self_compose` satisfy): after any history of successful `compose` calls, with any nesting and any counts, the
accountant is either marked non-private or its PLD accounts for every elementary application, each with its full
multiplicity. Missing: randomised-response events under a count larger than one, for which it is false
(`C07_pld_randomized_response_count_ignored`). -/
theorem C07_pld_accounts_every_application_partial {P : Type} (F : PldFns P) (nr : NeighborRel)
    (R S : P → Multiset DpEvent → Prop) (B : P → DpEvent → Prop) (hR : PldSound F nr R S B) (cs : List (DpEvent × ℤ))
    (hcs : ∀ p ∈ cs, WfCounts p.1 ∧ RROnce p.1 p.2)
    (hok : (composeAll (PldAccountant.accountant F nr) ⟨PldAccountant.init F, Builder.init⟩ cs).2 = true) :
    let s := (composeAll (PldAccountant.accountant F nr) ⟨PldAccountant.init F, Builder.init⟩ cs).1
    s.acct.nonDp = true ∨ R s.acct.pld (applications cs) := by
  have := PldAccountant.covers_all hR cs hcs ⟨PldAccountant.init F, Builder.init⟩ 0 Builder.inv_init (Or.inr hR.identity) hok
  rwa [zero_add] at this

/-- PLDs that count applications. -/
noncomputable def countFns : PldFns ℕ where
  identity := 0
  compose p q := .ok (p + q)
  selfCompose p c := .ok (c.toNat * p)
  fromRR _ _ _ := .ok 1
  fromGaussian _ c _ := .ok c.toNat
  fromLaplace _ _ := .ok 1
  fromMixture _ _ _ := .ok 1
  epsilonForDelta p _ := (p : EReal)
  deltaForEpsilon _ _ := 0

open Classical in
lemma countFns_sound (nr : NeighborRel) :
    PldSound countFns nr (fun p l => Multiset.card (l.filter fun a => ¬ Vacuous a) ≤ p)
      (fun p l => Multiset.card (l.filter fun a => ¬ Vacuous a) ≤ p) (fun p _ => 1 ≤ p) := by
  refine ⟨by simp, ?_, ?_, ?_, ?_, ?_, ?_, ?_, ?_, ?_⟩
  · intro p q r l l' h1 h2 h
    simp only [countFns, Except.ok.injEq] at h
    rw [Multiset.filter_add, Multiset.card_add]; omega
  · intro p r c a h1 _ h
    simp only [countFns, Except.ok.injEq] at h
    refine le_trans (Multiset.card_le_card (Multiset.filter_le _ _)) ?_
    rw [Multiset.card_replicate, ← h]
    exact Nat.le_mul_of_pos_right _ h1
  · intro p l a ha h
    rw [Multiset.filter_cons_of_neg _ (by simpa using ha)]; exact h
  all_goals
    intros
    rename_i h
    simp only [countFns, Except.ok.injEq] at h
    subst h
    first
      | exact le_rfl
      | exact le_trans (Multiset.card_le_card (Multiset.filter_le _ _)) (by simp)

/-- Non-vacuity: a nested history of seven applications. -/
example : 7 ≤ (composeAll (PldAccountant.accountant countFns .addOrRemoveOne) ⟨PldAccountant.init countFns, Builder.init⟩
    [(.composed [.selfComposed (.laplace (.int 1)) 2, .noOp, .poissonSampled (.float 2⁻¹) (.gaussian (.int 3))], 2),
     (.gaussian (.int 5), 1)]).1.acct.pld := by
  have hz : ∀ k : ℤ, k ≠ 0 → PldAccountant.isZero (.int k) = false := by
    intro k hk; simp [PldAccountant.isZero, PyNum.val, hk]
  have hq : PldAccountant.isZero (.float 2⁻¹) = false := by simp [PldAccountant.isZero, PyNum.val]
  simp [composeAll, Accountant.compose, PldAccountant.accountant, PldAccountant.maybeCompose, PldAccountant.composeList,
    PldAccountant.composeWith, countFns, hz, hq, Builder.compose, Builder.composeEvent, PldAccountant.init, bind, Except.bind,
    Accountant.dryCount]

end Verif.Props
