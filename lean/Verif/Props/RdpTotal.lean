import Verif.Proofs.RdpTotal
import Verif.Props.RdpEndToEnd

/-!
# C82, RDP accountant: every supported event with parameters in range is accepted

`RdpOk` (`Verif/Spec/RdpValid.lean`) lists the elementary events that an `RdpAccountant` supports, with the ranges of their parameters;
`expand` lists the elementary events that an event stands for. All orders are greater than one.

Missing, hence `_partial`: sampled compositions with a noise multiplier that is not a positive float (`C42_int_rest_ignored`), infinite mean in
`RepeatAndSelect` (except for the Poisson distribution). False for Laplace queries without noise (`C82_rdp_laplace_zero_violated`) and for samples
without replacement with zero or infinite noise (`C82_rdp_wor_zero_violated`, `C82_rdp_wor_infinite_violated`), which `supports` claims to be fine; Gaussian queries without noise
and Poisson samples of them are accepted.
-/

namespace Verif.Props
open Verif Verif.Spec Verif.Rdp

/-- **C82 (partial), RDP accountant.** On a new accountant no call of a history of `compose` calls raises, whatever the nesting and the
counts, if every elementary event has parameters in range. Missing: see above. -/
theorem C82_rdp_accepted_partial {n : ℕ} (hn : 0 < n) (orders : Fin n → ℝ) (ho : ∀ i, 1 < orders i) (frac : ℝ → PyNum → ℝ → EReal)
    (nr : NeighborRel) (l : List (DpEvent × ℤ)) (hl : ∀ p ∈ l, 1 ≤ p.2 ∧ WfCounts p.1 ∧ ∀ a ∈ expand p.1, RdpOk nr a) :
    Accepted orders frac nr l := by
  refine (composeAll_spec (libFns orders frac) nr l (fun p hp => (hl p hp).2.1) _ Builder.inv_init).1.2 fun p hp => ?_
  obtain ⟨h1, h2, h3⟩ := hl p hp
  have hok : ∀ a ∈ expand p.1, RdpAccountant.Ok (libFns orders frac) nr a := fun a ha =>
    atom_ok hn ho _ a (Nat.lt_succ_self _) (RdpAccountant.elementary_of_mem _ _ ha) (wfCounts_mem h2 ha) (h3 a ha)
  refine ⟨?_, h1, hok⟩
  exact RdpAccountant.dry_of_real _ nr _ 1 1 (fun _ => 0) _ ((RdpAccountant.real_ok _ nr _ h2 1 le_rfl _).2 hok)

/-- **C82, `supports`, RDP accountant.** In every state the answer for such an event is true, and the call changes nothing. -/
theorem C82_rdp_supports {n : ℕ} (hn : 0 < n) (orders : Fin n → ℝ) (ho : ∀ i, 1 < orders i) (frac : ℝ → PyNum → ℝ → EReal)
    (nr : NeighborRel) (e : DpEvent) (hw : WfCounts e) (he : ∀ a ∈ expand e, RdpOk nr a) (s : AcctState (Arr n)) :
    (rdpAccountant orders frac nr).supports s e = (s, .ok true) := by
  have hok : ∀ a ∈ expand e, RdpAccountant.Ok (libFns orders frac) nr a := fun a ha =>
    atom_ok hn ho _ a (Nat.lt_succ_self _) (RdpAccountant.elementary_of_mem _ _ ha) (wfCounts_mem hw ha) (he a ha)
  have hdry := RdpAccountant.dry_of_real _ nr e 1 0 (fun _ => 0) s.acct ((RdpAccountant.real_ok _ nr _ hw 1 le_rfl _).2 hok)
  have h2 := congrArg Prod.fst (RdpAccountant.dryRun (libFns orders frac) nr e 0 s.acct)
  have h3 : (rdpAccountant orders frac nr).maybeCompose e 0 false s.acct = (s.acct, .ok none) := Prod.ext h2 hdry
  rw [Accountant.supports, h3]
  rfl

/-- A concrete history: a training run with two Gaussian queries on each Poisson sample, hyperparameter selection among Laplace
queries, a tree aggregation and randomised response. -/
noncomputable def tunedHistory : List (DpEvent × ℤ) :=
  [(.selfComposed (.poissonSampled (.float (1 / 2)) (.composed [.gaussian (.float 1), .selfComposed (.gaussian (.float 3)) 2])) 1000, 2),
    (.repeatAndSelect (.composed [.laplace (.int 2), .noOp]) (.float 10) (.int 1), 1),
    (.composed [.singleEpochTreeAggregation (.float 4) (.inr [7, 0, 8]), .randomizedResponse (.float 1) 3], 5)]

lemma tunedHistory_ok : ∀ p ∈ tunedHistory, 1 ≤ p.2 ∧ WfCounts p.1 ∧ ∀ a ∈ expand p.1, RdpOk .replaceSpecial a := by
  intro p hp
  simp only [tunedHistory, List.mem_cons, List.not_mem_nil, or_false] at hp
  rcases hp with rfl | rfl | rfl
  · refine ⟨by norm_num, by simp [WfCounts], fun a ha => ?_⟩
    rw [expand] at ha
    have := repeatList_mem ha
    simp only [expand, List.mem_singleton] at this
    subst this
    rw [RdpOk]
    refine ⟨Or.inr rfl, ?_, ?_, Or.inr (by simp [FloatGaussians, FloatGaussiansL])⟩
    · exact EReal.coe_nonneg.2 (by norm_num)
    · show ((1 / 2 : ℝ) : EReal) ≤ 1
      exact_mod_cast (by norm_num : (1 / 2 : ℝ) ≤ 1)
  · refine ⟨le_rfl, by simp [WfCounts, WfCountsL], fun a ha => ?_⟩
    simp only [expand, List.mem_singleton] at ha
    subst ha
    rw [RdpOk]
    refine ⟨fun a ha => ?_, ?_, ?_, Or.inr (EReal.coe_ne_top _)⟩
    · simp only [expand, expandList, List.append_nil, List.mem_singleton] at ha
      subst ha
      rw [RdpOk]
      simp [PyNum.val]
    · show (1 : EReal) ≤ ((10 : ℝ) : EReal)
      exact_mod_cast (by norm_num : (1 : ℝ) ≤ 10)
    · simp [PyNum.val]
  · refine ⟨by norm_num, by simp [WfCounts, WfCountsL], fun a ha => ?_⟩
    simp only [expand, expandList, List.append_nil, List.mem_append, List.mem_singleton] at ha
    rcases ha with rfl | rfl
    · rw [RdpOk]
      exact ⟨rfl, EReal.coe_nonneg.2 (by norm_num), by simp, by simp⟩
    · rw [RdpOk]
      exact ⟨Or.inr rfl, EReal.coe_nonneg.2 (by norm_num), by simp [PyNum.val], by norm_num⟩

example (frac : ℝ → PyNum → ℝ → EReal) : Accepted (fun i : Fin 3 => (i : ℝ) + 2) frac .replaceSpecial tunedHistory :=
  C82_rdp_accepted_partial (by norm_num) _ (fun i => by have : (0 : ℝ) ≤ (i : ℝ) := by positivity
                                                        linarith) frac _ _ tunedHistory_ok

/-- With the relation under which samples without replacement are supported. -/
example : RdpOk .replaceOne (.sampledWithoutReplacement 100 10 (.gaussian (.int 2))) := by
  rw [RdpOk]
  exact ⟨rfl, by norm_num, by norm_num, by norm_num, Or.inl ⟨_, rfl, by simp [PyNum.val], by simp [PyNum.val]⟩⟩

/-- **C82, disagreement: a Laplace query without noise.** `supports` returns true, but `compose` raises `ZeroDivisionError`, in every
state, when the event is already in the ledger. A Gaussian query without noise is accepted, with infinite loss. -/
theorem C82_rdp_laplace_zero_violated {n : ℕ} (orders : Fin n → ℝ) (ho : ∀ i, 1 < orders i) (frac : ℝ → PyNum → ℝ → EReal) (nr : NeighborRel)
    (count : ℤ) (hc : 1 ≤ count) (s : AcctState (Arr n)) :
    let A := rdpAccountant orders frac nr
    let e : DpEvent := .laplace (.float 0)
    (A.supports s e).2 = .ok true ∧ (A.compose s (.event e) (.int count)).2 = .error .zeroDivisionError ∧
    (A.compose s (.event e) (.int count)).1.acct = s.acct ∧
    (A.compose s (.event e) (.int count)).1.ledger = ⟨Builder.push s.ledger.eventCounts e count, none⟩ ∧
    (A.compose s (.event (.gaussian (.float 0))) (.int count)).2 = .ok () := by
  have hc1 : ¬ count < 1 := by omega
  have hg : ∃ a, poissonGaussian frac (fun i => (orders i : EReal)) (.float 1) (.num (.float 0)) = .ok a :=
    poissonGaussian_total ho (by simp [PyNum.val]) (by simp [PyNum.val]) (by simp [PyNum.val])
  obtain ⟨a, ha⟩ := hg
  have ha : (libFns orders frac).poissonGaussian (.float 1) (.num (.float 0)) = .ok a := ha
  simp [Accountant.supports, Accountant.compose, Accountant.dryCount, RdpAccountant.accountant, RdpAccountant.maybeCompose, RdpAccountant.recip,
    Builder.compose, Builder.composeEvent, hc1, RdpAccountant.addTo, ha]

/-- **C82, disagreement: a sample without replacement without noise.** `supports` returns true, but `compose` raises
`ZeroDivisionError` for half of the data set and any orders that are not all infinite. A Poisson sample of the same query is accepted. -/
theorem C82_rdp_wor_zero_violated {n : ℕ} (hn : 0 < n) (orders : Fin n → ℝ) (ho : ∀ i, 2 ≤ orders i) (frac : ℝ → PyNum → ℝ → EReal)
    (count : ℤ) (hc : 1 ≤ count) (s : AcctState (Arr n)) :
    let A := rdpAccountant orders frac .replaceOne
    let e : DpEvent := .sampledWithoutReplacement 2 1 (.gaussian (.float 0))
    (A.supports s e).2 = .ok true ∧ (A.compose s (.event e) (.int count)).2 = .error .zeroDivisionError ∧
    ((rdpAccountant orders frac .addOrRemoveOne).compose s (.event (.poissonSampled (.float (1 / 2)) (.gaussian (.float 0)))) (.int count)).2 = .ok () := by
  have hc1 : ¬ count < 1 := by omega
  have hhalf : (0 : EReal) ≤ (PyNum.float (1 / 2)).val ∧ (PyNum.float (1 / 2)).val ≤ 1 :=
    ⟨EReal.coe_nonneg.2 (by norm_num), by
      show ((1 / 2 : ℝ) : EReal) ≤ 1
      exact_mod_cast (by norm_num : (1 / 2 : ℝ) ≤ 1)⟩
  obtain ⟨a, ha⟩ : ∃ a, poissonGaussian frac (fun i => (orders i : EReal)) (.float (1 / 2)) (.num (.float 0)) = .ok a :=
    poissonGaussian_total (fun i => by linarith [ho i]) hhalf.1 hhalf.2 (by simp [PyNum.val])
  have ha : (libFns orders frac).poissonGaussian (.float (1 / 2)) (.num (.float 0)) = .ok a := ha
  have hone : ∀ i, worScalar (1 / 2) (.float 0) (orders i : EReal) = .error .zeroDivisionError := by
    intro i
    have h2 := ho i
    have hfl : 2 ≤ ⌊orders i⌋₊ := Nat.le_floor (by exact_mod_cast h2)
    have hw : worInt (1 / 2) (.float 0) ⌊orders i⌋₊ = .error .zeroDivisionError := by
      rw [worInt, if_neg (by omega), if_pos (by simp [PyNum.val])]
    have hne : ¬ (orders i : EReal) = 1 := by
      intro h
      have : orders i = 1 := by exact_mod_cast h
      linarith
    unfold worScalar
    rw [if_neg (by push Not; exact ⟨by norm_num, by norm_num, by exact_mod_cast (by linarith : (1 : ℝ) ≤ orders i)⟩), if_neg (by norm_num),
      if_neg (by norm_num), if_neg (EReal.coe_ne_top _), if_neg hne, EReal.toReal_coe]
    dsimp only
    rw [hw]
    split_ifs <;> rfl
  have hwor : (libFns orders frac).sampleWor (1 / 2) (.num (.float 0)) = .error .zeroDivisionError := by
    show collect (fun i => worScalar (1 / 2) (.float 0) (orders i : EReal)) = _
    unfold collect
    obtain ⟨m, rfl⟩ : ∃ m, n = m + 1 := ⟨n - 1, by omega⟩
    simp only [hone, List.ofFn_succ, List.findSome?_cons]
  have hr : RdpAccountant.ratio 1 2 = .ok (1 / 2) := by norm_num [RdpAccountant.ratio]
  simp [Accountant.supports, Accountant.compose, Accountant.dryCount, RdpAccountant.accountant, RdpAccountant.maybeCompose, effNoise, hr, hwor,
    Builder.compose, Builder.composeEvent, hc1, RdpAccountant.addTo, ha, -one_div]

/-- **C82, disagreement: a sample without replacement with infinite noise.** `supports` returns true, but `compose` raises `ValueError` (the
logarithm of zero) for half of the data set and any finite orders, although nothing is released. The whole data set with the same noise is
accepted. -/
theorem C82_rdp_wor_infinite_violated {n : ℕ} (hn : 0 < n) (orders : Fin n → ℝ) (ho : ∀ i, 2 ≤ orders i) (frac : ℝ → PyNum → ℝ → EReal)
    (count : ℤ) (hc : 1 ≤ count) (s : AcctState (Arr n)) :
    let A := rdpAccountant orders frac .replaceOne
    let e : ℤ → DpEvent := fun m => .sampledWithoutReplacement 2 m (.gaussian .inf)
    (A.supports s (e 1)).2 = .ok true ∧ (A.compose s (.event (e 1)) (.int count)).2 = .error .valueError ∧
    (A.compose s (.event (e 2)) (.int count)).2 = .ok () := by
  have hc1 : ¬ count < 1 := by omega
  have hone : ∀ i, worScalar (1 / 2) .inf (orders i : EReal) = .error .valueError := by
    intro i
    have h2 := ho i
    have hfl : 2 ≤ ⌊orders i⌋₊ := Nat.le_floor (by exact_mod_cast h2)
    have hw : worInt (1 / 2) .inf ⌊orders i⌋₊ = .error .valueError := by
      rw [worInt, if_neg (by omega), if_neg (by simp [PyNum.val]), if_pos (by simp [halfInvSq])]
    have hne : ¬ (orders i : EReal) = 1 := by
      intro h
      have : orders i = 1 := by exact_mod_cast h
      linarith
    unfold worScalar
    rw [if_neg (by push Not; exact ⟨by norm_num, by norm_num, by exact_mod_cast (by linarith : (1 : ℝ) ≤ orders i)⟩), if_neg (by norm_num),
      if_neg (by norm_num), if_neg (EReal.coe_ne_top _), if_neg hne, EReal.toReal_coe]
    dsimp only
    rw [hw]
    split_ifs <;> rfl
  have hwor : (libFns orders frac).sampleWor (1 / 2) (.num .inf) = .error .valueError := by
    show collect (fun i => worScalar (1 / 2) .inf (orders i : EReal)) = _
    unfold collect
    obtain ⟨m, rfl⟩ : ∃ m, n = m + 1 := ⟨n - 1, by omega⟩
    simp only [hone, List.ofFn_succ, List.findSome?_cons]
  have hall : ∀ i, worScalar 1 .inf (orders i : EReal) = .ok ((orders i : EReal) * ((halfInvSq .inf : ℝ) : EReal)) := by
    intro i
    have h2 := ho i
    unfold worScalar
    rw [if_neg (by push Not; exact ⟨by norm_num, by norm_num, by exact_mod_cast (by linarith : (1 : ℝ) ≤ orders i)⟩), if_neg (by norm_num),
      if_pos rfl, if_neg (by simp [PyNum.val])]
  have hwor1 : (libFns orders frac).sampleWor 1 (.num .inf) = .ok _ := collect_of_ok hall
  have hr : RdpAccountant.ratio 1 2 = .ok (1 / 2) := by norm_num [RdpAccountant.ratio]
  have hr1 : RdpAccountant.ratio 2 2 = .ok 1 := by norm_num [RdpAccountant.ratio]
  simp [Accountant.supports, Accountant.compose, Accountant.dryCount, RdpAccountant.accountant, RdpAccountant.maybeCompose, effNoise, hr, hr1, hwor, hwor1,
    Builder.compose, Builder.composeEvent, hc1, RdpAccountant.addTo, -one_div]

end Verif.Props
