import Verif.Spec.PldCovers
import Verif.Proofs.PldAccountant

namespace Verif.PldAccountant
open Verif Verif.Spec

variable {P : Type} (F : PldFns P) (nr : NeighborRel)

section covers
variable {F nr} {R S : P → Multiset DpEvent → Prop} {B : P → DpEvent → Prop}

lemma composeWith_covers (h : PldSound F nr R S B) {s : PldState P} {o : Except Err P} {l l' : Multiset DpEvent}
    (ho : ∀ p, o = .ok p → S p l') (hs : R s.pld l) (hok : (composeWith F s o).2 = .ok none) :
    R (composeWith F s o).1.pld (l + l') := by
  unfold composeWith at *
  cases o with
  | error err => simp at hok
  | ok p =>
    simp only at hok ⊢
    cases hc : F.compose s.pld p with
    | error err => rw [hc] at hok; simp at hok
    | ok r => exact h.compose _ _ _ _ _ hs (ho p rfl) hc

lemma bind_self (h : PldSound F nr R S B) {o : Except Err P} {a : DpEvent} (ho : ∀ p, o = .ok p → B p a) {c : ℤ} (hc : 1 ≤ c) :
    ∀ p, (o >>= fun p => F.selfCompose p c) = .ok p → S p (c.toNat • {a}) := by
  intro p hp
  rw [Multiset.nsmul_singleton]
  cases o with
  | error e => exact absurd hp (by simp [bind, Except.bind])
  | ok q => exact h.selfCompose q p c a (ho q rfl) hc hp

lemma vacuous_many (h : PldSound F nr R S B) {a : DpEvent} (ha : Vacuous a) {p : P} {l : Multiset DpEvent} (hp : R p l) (n : ℕ) :
    R p (l + n • {a}) := by
  induction n with
  | zero => simpa using hp
  | succ n ih =>
    rw [succ_nsmul, ← add_assoc, add_comm, Multiset.singleton_add]
    exact h.vacuous _ _ _ ha ih

lemma isZero_iff (z : PyNum) : isZero z = true ↔ z.val = 0 := by simp [isZero]
lemma isZero_iff' (z : PyNum) : isZero z = false ↔ z.val ≠ 0 := by simp [isZero]

lemma coe_repeatList (n : ℤ) (l : List DpEvent) : ((repeatList n l : List DpEvent) : Multiset DpEvent) = n.toNat • (l : Multiset DpEvent) := by
  unfold repeatList
  induction n.toNat with
  | zero => simp
  | succ k ih => rw [List.replicate_succ, List.flatten_cons, ← Multiset.coe_add, ih, succ_nsmul, add_comm]

mutual
theorem covers (h : PldSound F nr R S B) : ∀ (e : DpEvent), WfCounts e → ∀ (c : ℤ), 1 ≤ c → RROnce e c →
    ∀ (s : PldState P) (l : Multiset DpEvent), R s.pld l →
    (maybeCompose F nr e c true s).2 = .ok none → (maybeCompose F nr e c true s).1.nonDp = false →
    R (maybeCompose F nr e c true s).1.pld (l + c.toNat • (expand e : Multiset DpEvent))
  | .noOp, _, c, _, _, s, l, hl, _, _ => by simpa [maybeCompose, expand] using hl
  | .nonPrivate, _, c, _, _, s, l, hl, _, hn => by simp [maybeCompose, markNonDp] at hn
  | .selfComposed e m, hw, c, hc, hr, s, l, hl, hok, hn => by
      rw [WfCounts] at hw
      rw [RROnce] at hr
      simp only [maybeCompose] at hok hn ⊢
      have := covers h e hw.2 (m * c) (by nlinarith [hw.1]) hr s l hl hok hn
      rw [expand, coe_repeatList, ← mul_nsmul']
      rwa [Int.toNat_mul (by omega) (by omega), mul_comm m.toNat] at this
  | .composed es, hw, c, hc, hr, s, l, hl, hok, hn => by
      rw [WfCounts] at hw
      rw [RROnce] at hr
      simp only [maybeCompose] at hok hn ⊢
      rw [expand]
      exact coversList h es hw c hc hr s l hl hok hn
  | .randomizedResponse p k, _, c, hc, hr, s, l, hl, hok, hn => by
      rw [RROnce] at hr
      subst hr
      simp only [maybeCompose, expand] at hok hn ⊢
      split_ifs at hok hn ⊢ with h1 h2 h3
      · exact vacuous_many h (by subst h2; rfl) hl _
      · simp [markNonDp] at hn
      · exact composeWith_covers h (l' := (1 : ℤ).toNat • {.randomizedResponse p k})
          (fun q hq => by simpa using h.randomizedResponse p k q h1 ((isZero_iff' p).1 (by simpa using h3)) h2 hq) hl hok
      · simp at hok
  | .gaussian z, _, c, hc, hr, s, l, hl, hok, hn => by
      simp only [maybeCompose, expand, if_true] at hok hn ⊢
      split_ifs at hok hn ⊢ with h1
      · simp [markNonDp] at hn
      · exact composeWith_covers h (fun q hq => by
          have := h.gaussian z c q ((isZero_iff' z).1 (by simpa using h1)) hc hq
          rwa [← Multiset.nsmul_singleton] at this) hl hok
  | .laplace z, _, c, hc, hr, s, l, hl, hok, hn => by
      simp only [maybeCompose, expand, if_true] at hok hn ⊢
      split_ifs at hok hn ⊢ with h1
      · simp [markNonDp] at hn
      · exact composeWith_covers h (bind_self h (fun q hq => h.laplace z q ((isZero_iff' z).1 (by simpa using h1)) hq) hc) hl hok
  | .mixtureOfGaussians d ss ps, _, c, hc, hr, s, l, hl, hok, hn => by
      simp only [maybeCompose, expand, if_true] at hok hn ⊢
      split_ifs at hok hn ⊢ with h1 h2
      · refine vacuous_many h ?_ hl _
        match ss, h1 with
        | [x], h1 => exact (isZero_iff x).1 h1
      · simp [markNonDp] at hn
      · exact composeWith_covers h (bind_self h (fun q hq => h.mixture d ss ps q ((isZero_iff' d).1 (by simpa using h2)) hq) hc) hl hok
  | .poissonSampled q e, _, c, hc, hr, s, l, hl, hok, hn => by
      rcases poisson_eq F nr q e c true s with ⟨z, rfl⟩ | ⟨z, rfl⟩ | h'
      · simp only [maybeCompose, expand, if_true] at hok hn ⊢
        split_ifs at hok hn ⊢ with h1 h2 h3
        · exact vacuous_many h (a := .poissonSampled q (.gaussian z)) ((isZero_iff q).1 h2) hl _
        · simp [markNonDp] at hn
        · exact composeWith_covers h (bind_self h (fun p hp => h.poissonGaussian z q p h1 ((isZero_iff' z).1 (by simpa using h3))
            ((isZero_iff' q).1 (by simpa using h2)) hp) hc) hl hok
        · simp at hok
      · simp only [maybeCompose, expand, if_true] at hok hn ⊢
        split_ifs at hok hn ⊢ with h1 h2 h3
        · exact vacuous_many h (a := .poissonSampled q (.laplace z)) ((isZero_iff q).1 h2) hl _
        · simp [markNonDp] at hn
        · exact composeWith_covers h (bind_self h (fun p hp => h.poissonLaplace z q p h1 ((isZero_iff' z).1 (by simpa using h3))
            ((isZero_iff' q).1 (by simpa using h2)) hp) hc) hl hok
        · simp at hok
      · rw [h'] at hok; simp at hok
  | .unsupported, _, c, _, _, s, l, hl, hok, _ => by simp [maybeCompose] at hok
  | .sampledWithReplacement _ _ _, _, c, _, _, s, l, hl, hok, _ => by simp [maybeCompose] at hok
  | .sampledWithoutReplacement _ _ _, _, c, _, _, s, l, hl, hok, _ => by simp [maybeCompose] at hok
  | .singleEpochTreeAggregation _ _, _, c, _, _, s, l, hl, hok, _ => by simp [maybeCompose] at hok
  | .repeatAndSelect _ _ _, _, c, _, _, s, l, hl, hok, _ => by simp [maybeCompose] at hok
theorem coversList (h : PldSound F nr R S B) : ∀ (es : List DpEvent), WfCountsL es → ∀ (c : ℤ), 1 ≤ c → RROnceL es c →
    ∀ (s : PldState P) (l : Multiset DpEvent), R s.pld l →
    (composeList F nr es c true s).2 = .ok none → (composeList F nr es c true s).1.nonDp = false →
    R (composeList F nr es c true s).1.pld (l + c.toNat • (expandList es : Multiset DpEvent))
  | [], _, c, _, _, s, l, hl, _, _ => by simpa [composeList, expandList] using hl
  | e :: es, hw, c, hc, hr, s, l, hl, hok, hn => by
      rw [WfCountsL] at hw
      rw [RROnceL] at hr
      have h1 := covers h e hw.1 c hc hr.1 s l hl
      simp only [composeList] at hok hn ⊢
      generalize maybeCompose F nr e c true s = r at *
      obtain ⟨a, r⟩ := r
      match r, hok with
      | .error err, h => simp at h
      | .ok (some d), h => simp at h
      | .ok none, hok =>
        simp only at h1 hok hn ⊢
        have hna : a.nonDp = false := by
          by_contra hc'
          rw [nonDpList_mono F nr es c true a (by simpa using hc')] at hn
          simp at hn
        rw [expandList, ← Multiset.coe_add, nsmul_add, ← add_assoc]
        exact coversList h es hw.2 c hc hr.2 a _ (h1 trivial hna) hok hn
end

theorem covers_all (h : PldSound F nr R S B) (cs : List (DpEvent × ℤ)) :
    (∀ p ∈ cs, WfCounts p.1 ∧ RROnce p.1 p.2) → ∀ (s : AcctState (PldState P)) (l : Multiset DpEvent), s.ledger.Inv →
    (s.acct.nonDp = true ∨ R s.acct.pld l) → (composeAll (accountant F nr) s cs).2 = true →
    (composeAll (accountant F nr) s cs).1.acct.nonDp = true ∨
      R (composeAll (accountant F nr) s cs).1.acct.pld (l + applications cs) := by
  induction cs with
  | nil => intro _ s l _ hl _; simpa [composeAll, applications] using hl
  | cons p cs ih =>
    intro hw s l hinv hl hok
    obtain ⟨e, c⟩ := p
    obtain ⟨hwe, hre⟩ := hw (e, c) (by simp)
    have hinv' := (Accountant.compose_ledger (dryRun F nr) s hinv (.event e) (.int c)).1
    have hokiff := Accountant.compose_ok (dryRun F nr) s hinv e c
    have hacct := Accountant.compose_acct_ok (dryRun F nr) s e c
    simp only [composeAll] at hok ⊢
    generalize (accountant F nr).compose s (.event e) (.int c) = r at *
    obtain ⟨s', r⟩ := r
    match r, hok with
    | .error err, h => simp at h
    | .ok (), hok =>
      simp only [true_iff, forall_const] at hokiff hacct hok hinv' ⊢
      obtain ⟨h1, h2, h3, r, h4⟩ := hokiff
      have h4' : (maybeCompose F nr e c true s.acct).2 = .ok none := by
        cases r with
        | none => exact h4
        | some d => exact absurd h4 (real_of_dry F nr e c s.acct ⟨1, _, h1⟩ d)
      have key : s'.acct.nonDp = true ∨ R s'.acct.pld (l + c.toNat • (expand e : Multiset DpEvent)) := by
        rw [hacct]
        show (maybeCompose F nr e c true s.acct).1.nonDp = true ∨ R (maybeCompose F nr e c true s.acct).1.pld _
        rcases hl with hl | hl
        · exact Or.inl (nonDp_mono F nr e c true _ hl)
        · by_cases hn : (maybeCompose F nr e c true s.acct).1.nonDp = true
          · exact Or.inl hn
          · exact Or.inr (covers h e hwe c h2 hre s.acct l hl h4' (by simpa using hn))
      have := ih (fun p hp => hw p (by simp [hp])) s' _ hinv' key hok
      have e1 : applications ((e, c) :: cs) = c.toNat • (expand e : Multiset DpEvent) + applications cs := by
        simp [applications]
      rw [e1, ← add_assoc]
      exact this
end covers

end Verif.PldAccountant
