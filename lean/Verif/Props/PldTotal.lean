import Verif.Proofs.PldTotal
import Verif.Proofs.InfiniteNoise
import Verif.Proofs.GridClose
import Verif.Props.PldEndToEnd
import Verif.Proofs.RdpAtoms

/-!
# C82, PLD accountant: every supported event with parameters in range is accepted

`PldOk` (`Verif/Spec/PldValid.lean`) lists the elementary events that a `PLDAccountant` supports, with the ranges of their parameters;
`expand` lists the elementary events that an event stands for.

Missing, hence `_partial`: sampling probabilities with a grid point that is `math.isclose` to `log(1 - q)`,
mixtures of Gaussians with a discretization that is too coarse, more than 10^14 applications. False for randomised response with noise
parameter one (`C82_pld_rr_uniform_violated`), for events that are repeated zero times (`C82_pld_zero_count_violated`) and for infinite
noise (`C82_pld_gaussian_infinite_violated`, `C82_pld_laplace_infinite_violated`), and in some of the missing cases
(`C82_pld_isclose_violated`).
-/

namespace Verif.Props
open Verif Verif.Spec MeasureTheory ProbabilityTheory

/-- **C82 (partial), PLD accountant.** On a new accountant no call of a history of `compose` calls raises, whatever the nesting and the
counts, if every elementary event has parameters in range. Missing: see above. -/
theorem C82_pld_accepted_partial {nfl : ℕ → ℕ} (hnfl : ∀ k, k ≤ nfl k) {ppf : ℝ → ℝ → ℝ} (hppf : NormalQuantile ppf) {disc : ℝ}
    (hd : 0 < disc) {nr : NeighborRel} {cs : List (DpEvent × ℤ)}
    (hcs : ∀ p ∈ cs, 1 ≤ p.2 ∧ WfCounts p.1 ∧ ∀ a ∈ expand p.1, PldOk disc nr a) (hsize : (applications cs).card ≤ 10 ^ 14) :
    (pldAfter nfl ppf disc nr cs).2 = true :=
  history_total hnfl hppf hd cs hcs ⟨PldAccountant.init (PldLibrary.fns nfl ppf disc), Builder.init⟩ 0 Builder.inv_init (running_init hd)
    (by simpa using hsize)

/-- A concrete history: 1000 steps on Poisson samples, then twice a Laplace query and randomised response. -/
noncomputable def mixedHistory : List (DpEvent × ℤ) :=
  [(.selfComposed (.poissonSampled (.float (1 / 2)) (.gaussian (.float 1))) 1000, 1),
    (.composed [.selfComposed (.laplace (.int 2)) 2, .randomizedResponse (.float (1 / 4)) 3, .noOp], 1)]

lemma mixedHistory_ok : ∀ p ∈ mixedHistory, 1 ≤ p.2 ∧ WfCounts p.1 ∧ ∀ a ∈ expand p.1, PldOk 1e-4 .replaceSpecial a := by
  have hg : GridFree 1e-4 (.float (1 / 2)) := by
    rcases offGrid_half with h | h
    · norm_num at h
    · exact Or.inr (Or.inr (by simpa only [PyNum.val, EReal.toReal_coe] using h))
  intro p hp
  simp only [mixedHistory, List.mem_cons, List.not_mem_nil, or_false] at hp
  rcases hp with rfl | rfl
  · refine ⟨le_rfl, by simp [WfCounts], fun a ha => ?_⟩
    rw [expand] at ha
    have := repeatList_mem ha
    simp only [expand, List.mem_singleton] at this
    subst this
    refine ⟨Or.inr rfl, ?_, ?_, ⟨?_, ?_⟩, hg⟩
    · exact EReal.coe_nonneg.2 (by norm_num)
    · show ((1 / 2 : ℝ) : EReal) ≤ 1
      exact_mod_cast (by norm_num : (1 / 2 : ℝ) ≤ 1)
    · exact EReal.coe_nonneg.2 (by norm_num)
    · exact EReal.coe_ne_top _
  · refine ⟨le_rfl, by simp [WfCounts, WfCountsL], fun a ha => ?_⟩
    simp only [expand, expandList, List.append_nil, List.mem_append, List.mem_singleton] at ha
    rcases ha with ha | rfl
    · have := repeatList_mem ha
      simp only [List.mem_singleton] at this
      subst this
      exact ⟨by simp [PyNum.val], by simp [PyNum.val]⟩
    · refine ⟨Or.inr rfl, Or.inr ⟨by norm_num, EReal.coe_nonneg.2 (by norm_num), ?_⟩⟩
      show ((1 / 4 : ℝ) : EReal) < 1
      exact_mod_cast (by norm_num : (1 / 4 : ℝ) < 1)

lemma mixedHistory_card : (applications mixedHistory).card = 1003 := by
  rw [mixedHistory, applications_cons, applications_cons, expand, length_repeatList]
  simp [applications, expand, expandList, length_repeatList]

example (nfl : ℕ → ℕ) (hnfl : ∀ k, k ≤ nfl k) : ∃ ppf, (pldAfter nfl ppf 1e-4 .replaceSpecial mixedHistory).2 = true := by
  obtain ⟨ppf, h⟩ := exists_normalQuantile
  exact ⟨ppf, C82_pld_accepted_partial hnfl h (by norm_num) mixedHistory_ok (by rw [mixedHistory_card]; norm_num)⟩

/-- **C82, `supports`, PLD accountant.** In every state the answer for such an event is true, and the call changes nothing. -/
theorem C82_pld_supports {P : Type} (F : PldFns P) {disc : ℝ} {nr : NeighborRel} {e : DpEvent} (hw : WfCounts e)
    (he : ∀ a ∈ expand e, PldOk disc nr a) (s : AcctState (PldState P)) :
    (PldAccountant.accountant F nr).supports s e = (s, .ok true) := by
  have h := event_supported F e hw he 0 s.acct
  have h2 := congrArg Prod.fst (PldAccountant.dryRun F nr e 0 s.acct)
  have h3 : (PldAccountant.accountant F nr).maybeCompose e 0 false s.acct = (s.acct, .ok none) := Prod.ext h2 h
  rw [Accountant.supports, h3]
  rfl

lemma mem_applications {cs : List (DpEvent × ℤ)} {a : DpEvent} (h : a ∈ applications cs) : ∃ p ∈ cs, a ∈ expand p.1 := by
  induction cs with
  | nil => simp [applications] at h
  | cons p cs ih =>
    simp only [applications, List.map_cons, List.sum_cons, Multiset.mem_add] at h
    rcases h with h | h
    · exact ⟨p, by simp, Multiset.mem_coe.1 (Multiset.mem_of_mem_nsmul h)⟩
    · obtain ⟨p, hp, h⟩ := ih h
      exact ⟨p, by simp [hp], h⟩

/-- **C82 and C61 (partial).** For such a history without mixtures of Gaussians, and with randomised response composed once only, no call
raises, and the delta reported for `eps` holds, in both directions, for any adaptive sequence of mechanisms described by the events. -/
theorem C82_pld_sound_partial {nfl : ℕ → ℕ} (hnfl : ∀ k, k ≤ nfl k) {ppf : ℝ → ℝ → ℝ} (hppf : NormalQuantile ppf) {disc : ℝ}
    (hd : 0 < disc) {nr : NeighborRel} {cs : List (DpEvent × ℤ)}
    (hcs : ∀ p ∈ cs, 1 ≤ p.2 ∧ WfCounts p.1 ∧ ∀ a ∈ expand p.1, PldOk disc nr a) (hsize : (applications cs).card ≤ 10 ^ 14)
    (hrr : ∀ p ∈ cs, RROnce p.1 p.2) (hmix : ∀ σ ss ps, .mixtureOfGaussians σ ss ps ∉ applications cs) :
    (pldAfter nfl ppf disc nr cs).2 = true ∧
    ∀ (l : List DpEvent), (l : Multiset DpEvent) = applications cs → ∀ (Ω : Type) [MeasurableSpace Ω] (P Q : Measure Ω),
      Adaptive (l.map (PldEventPair nr)) Ω P Q → ∀ eps,
      let delta := PldAccountant.getDelta (PldLibrary.fns nfl ppf disc) (pldAfter nfl ppf disc nr cs).1 eps
      Indist P Q eps delta ∧ Indist Q P eps delta := by
  have hacc := C82_pld_accepted_partial hnfl hppf hd hcs hsize
  refine ⟨hacc, fun l hl Ω _ P Q h eps => ?_⟩
  refine C61_get_delta_no_slack_partial hnfl hppf hd (fun p hp => ⟨(hcs p hp).2.1, hrr p hp⟩) hacc (hsize.trans (by norm_num)) hmix ?_ l hl P Q h eps
  intro q e hm
  obtain ⟨p, hp, ha⟩ := mem_applications hm
  have := (hcs p hp).2.2 _ ha
  cases e <;> first | exact this.2.2.2.2 | exact this.elim

/-- The hypotheses of the last two theorems are met by the history above. -/
example : (∀ p ∈ mixedHistory, RROnce p.1 p.2) ∧ (∀ σ ss ps, DpEvent.mixtureOfGaussians σ ss ps ∉ applications mixedHistory) := by
  refine ⟨by simp [mixedHistory, RROnce, RROnceL], fun σ ss ps h => ?_⟩
  obtain ⟨p, hp, ha⟩ := mem_applications h
  have := (mixedHistory_ok p hp).2.2 _ ha
  simp only [mixedHistory, List.mem_cons, List.not_mem_nil, or_false] at hp
  rcases hp with rfl | rfl
  · rw [expand] at ha
    simpa [expand] using repeatList_mem ha
  · simp only [expand, expandList, List.append_nil, List.mem_append, List.mem_singleton] at ha
    rcases ha with ha | ha
    · simpa [expand] using repeatList_mem ha
    · simp at ha

/-- **C82, disagreement: uniform answers.** `RandomizedResponseDpEvent` documents that the noise parameter can be any value in `[0, 1]`,
one meaning an answer that does not depend on the input. `supports` returns true for it, but `compose` raises `ValueError`, in every
state and with every positive count, when the event is already in the ledger. -/
theorem C82_pld_rr_uniform_violated (nfl : ℕ → ℕ) (ppf : ℝ → ℝ → ℝ) (disc : ℝ) {nr : NeighborRel} (hnr : ReplaceRel nr) (k : ℤ) (hk : 2 ≤ k)
    (count : ℤ) (hc : 1 ≤ count) (s : AcctState (PldState Pld)) :
    let A := pldAccountant nfl ppf disc nr
    let e : DpEvent := .randomizedResponse (.float 1) k
    (A.supports s e).2 = .ok true ∧ (A.compose s (.event e) (.int count)).2 = .error .valueError ∧
    (A.compose s (.event e) (.int count)).1.acct = s.acct ∧
    (A.compose s (.event e) (.int count)).1.ledger = ⟨Builder.push s.ledger.eventCounts e count, none⟩ := by
  have hnr : nr = .replaceOne ∨ nr = .replaceSpecial := hnr
  have hk1 : k ≠ 1 := by omega
  have hc1 : ¬ count < 1 := by omega
  have hz : PldAccountant.isZero (.float 1) = false := by simp [PldAccountant.isZero, PyNum.val]
  have hf : PldLibrary.fromRR disc (.float 1) k nr = .error .valueError := by
    simp [PldLibrary.fromRR, PyNum.real?, Pld.fromRandomizedResponse]
  simp [Accountant.supports, Accountant.compose, Accountant.dryCount, PldAccountant.accountant, PldAccountant.maybeCompose, hnr, hk1, hz, Builder.compose,
    Builder.composeEvent, hc1, PldAccountant.composeWith, PldLibrary.fns, hf]

/-- **C82, disagreement: repeating an event zero times.** A composed event with a part that is repeated zero times stands for nothing.
`supports` returns true, but `compose` raises `ZeroDivisionError` when the event is already in the ledger. -/
theorem C82_pld_zero_count_violated (nfl : ℕ → ℕ) (ppf : ℝ → ℝ → ℝ) (disc : ℝ) (nr : NeighborRel) (count : ℤ) (hc : 1 ≤ count)
    (s : AcctState (PldState Pld)) :
    let A := pldAccountant nfl ppf disc nr
    let e : DpEvent := .composed [.selfComposed (.gaussian (.float 1)) 0]
    expand e = [] ∧ (A.supports s e).2 = .ok true ∧ (A.compose s (.event e) (.int count)).2 = .error .zeroDivisionError ∧
    (A.compose s (.event e) (.int count)).1.acct = s.acct ∧
    (A.compose s (.event e) (.int count)).1.ledger = ⟨Builder.push s.ledger.eventCounts e count, none⟩ := by
  have hc1 : ¬ count < 1 := by omega
  have hz : PldAccountant.isZero (.float 1) = false := by simp [PldAccountant.isZero, PyNum.val]
  have hf : PldLibrary.fromGaussian ppf disc (.float 1) 0 (.float 1) = .error .zeroDivisionError := by
    simp [PldLibrary.fromGaussian, PyNum.real?]
  simp [expand, expandList, repeatList, Accountant.supports, Accountant.compose, Accountant.dryCount, PldAccountant.accountant, PldAccountant.maybeCompose,
    PldAccountant.composeList, hz, Builder.compose, Builder.composeEvent, hc1, PldAccountant.composeWith, PldLibrary.fns, hf]

/-- **C82, disagreement: infinite Gaussian noise.** Gaussian noise of infinite scale, alone or on a Poisson sample, reveals nothing. `supports`
returns true, but `compose` raises `ValueError` (the bounds of the privacy loss are NaN), in every state and with every positive count, when
the event is already in the ledger. -/
theorem C82_pld_gaussian_infinite_violated (nfl : ℕ → ℕ) (ppf : ℝ → ℝ → ℝ) (disc : ℝ) {nr : NeighborRel} {e : DpEvent}
    (he : e = .gaussian .inf ∨
      ((nr = .addOrRemoveOne ∨ nr = .replaceSpecial) ∧ ∃ q : ℝ, 0 < q ∧ q ≤ 1 ∧ e = .poissonSampled (.float q) (.gaussian .inf)))
    (count : ℤ) (hc : 1 ≤ count) (s : AcctState (PldState Pld)) :
    let A := pldAccountant nfl ppf disc nr
    (A.supports s e).2 = .ok true ∧ (A.compose s (.event e) (.int count)).2 = .error .valueError ∧
    (A.compose s (.event e) (.int count)).1.acct = s.acct ∧
    (A.compose s (.event e) (.int count)).1.ledger = ⟨Builder.push s.ledger.eventCounts e count, none⟩ := by
  have hc1 : ¬ count < 1 := by omega
  have hz : PldAccountant.isZero .inf = false := by simp [PldAccountant.isZero, PyNum.val]
  have hf : ∀ (n : ℤ) (q : ℝ), 1 ≤ n → PldLibrary.fromGaussian ppf disc .inf n (.float q) = .error .valueError := by
    intro n q hn
    have h1 : ¬ n < 0 := by omega
    have h2 : ¬ n = 0 := by omega
    simp [PldLibrary.fromGaussian, PyNum.real?, h1, h2, InfiniteNoise.gaussianGrid_error, bind, Except.bind]
  rcases he with rfl | ⟨hnr, q, hq0, -, rfl⟩
  · simp [Accountant.supports, Accountant.compose, Accountant.dryCount, PldAccountant.accountant, PldAccountant.maybeCompose, hz, Builder.compose,
      Builder.composeEvent, hc1, PldAccountant.composeWith, PldLibrary.fns, hf count 1 hc]
  · have hzq : PldAccountant.isZero (.float q) = false := by simp [PldAccountant.isZero, PyNum.val, hq0.ne']
    simp [Accountant.supports, Accountant.compose, Accountant.dryCount, PldAccountant.accountant, PldAccountant.maybeCompose, hnr, hz, hzq,
      Builder.compose, Builder.composeEvent, hc1, PldAccountant.composeWith, PldLibrary.fns, hf 1 q le_rfl, bind, Except.bind]

/-- A concrete case: one step of infinite noise on a sample of one per cent. -/
example (nfl : ℕ → ℕ) (ppf : ℝ → ℝ → ℝ) (s : AcctState (PldState Pld)) :
    ((pldAccountant nfl ppf 1e-4 .addOrRemoveOne).compose s (.event (.poissonSampled (.float 0.01) (.gaussian .inf))) (.int 1)).2 =
      .error .valueError :=
  (C82_pld_gaussian_infinite_violated nfl ppf 1e-4 (Or.inr ⟨Or.inl rfl, 0.01, by norm_num, by norm_num, rfl⟩) 1 le_rfl s).2.1

/-- **C82, infinite Laplace noise, the computation.** Whatever the PMF of the accountant, the sampling probability in `(0, 1]`, the bound on
the truncation and the positive count: constructing the PLD of Laplace noise of infinite scale and composing with it raises `IndexError`. -/
theorem C82_pld_laplace_nan (p : Pmf) {q : ℝ} (h0 : 0 < q) (h1 : q ≤ 1) (t : ℝ) (count : ℤ) (hc : 1 ≤ count) :
    InfiniteNoise.composeLaplace p q t count = .error .indexError := by
  rw [InfiniteNoise.composeLaplace_error p h0 h1, if_neg (by omega)]

example (p : Pmf) : InfiniteNoise.composeLaplace p 1 1e-15 3 = .error .indexError :=
  C82_pld_laplace_nan p one_pos le_rfl _ 3 (by norm_num)

/-- **C82, disagreement: infinite Laplace noise.** Laplace noise of infinite scale reveals nothing. `supports` returns true, but `compose`
raises `IndexError`, in every state and with every positive count, when the event is already in the ledger. -/
theorem C82_pld_laplace_infinite_violated (nfl : ℕ → ℕ) (ppf : ℝ → ℝ → ℝ) (disc : ℝ) (nr : NeighborRel) (count : ℤ) (hc : 1 ≤ count)
    (s : AcctState (PldState Pld)) :
    let A := pldAccountant nfl ppf disc nr
    let e : DpEvent := .laplace .inf
    (A.supports s e).2 = .ok true ∧ (A.compose s (.event e) (.int count)).2 = .error .indexError ∧
    (A.compose s (.event e) (.int count)).1.acct = s.acct ∧
    (A.compose s (.event e) (.int count)).1.ledger = ⟨Builder.push s.ledger.eventCounts e count, none⟩ := by
  have hc1 : ¬ count < 1 := by omega
  have hz : PldAccountant.isZero .inf = false := by simp [PldAccountant.isZero, PyNum.val]
  have hf : PldLibrary.fromLaplace disc .inf (.float 1) = .error .indexError := by
    simp [PldLibrary.fromLaplace, PyNum.real?]
  simp [Accountant.supports, Accountant.compose, Accountant.dryCount, PldAccountant.accountant, PldAccountant.maybeCompose, hz, Builder.compose,
    Builder.composeEvent, hc1, PldAccountant.composeWith, PldLibrary.fns, hf, bind, Except.bind]

/-- **C82, disagreement: a grid point next to the limit of the loss.** On a Poisson sample with probability `q` the privacy loss is above
`log(1 - q)`. If `math.isclose` takes a grid point for this limit although the mechanism still has a larger delta at zero than is computed
there (so that the deltas increase), then `compose` raises `ValueError`, in every state and with every positive count; `supports` returns
true, and the event is in the ledger. -/
theorem C82_pld_isclose_violated (nfl : ℕ → ℕ) (ppf : ℝ → ℝ → ℝ) {disc : ℝ} (hd : 0 < disc) {nr : NeighborRel}
    (hnr : nr = .addOrRemoveOne ∨ nr = .replaceSpecial) {b q : ℝ} (hb : 0 < b) (q0 : 0 < q) (q1 : q < 1) {k : ℤ}
    (hc : Mech.IsClose (k * disc) (Real.log (1 - q))) (hk : 1 - Real.exp (k * disc) < q * (1 - Real.exp (-(1 / (2 * b)))))
    (count : ℤ) (hcount : 1 ≤ count) (s : AcctState (PldState Pld)) :
    let A := pldAccountant nfl ppf disc nr
    let e : DpEvent := .poissonSampled (.float q) (.laplace (.float b))
    (A.supports s e).2 = .ok true ∧ (A.compose s (.event e) (.int count)).2 = .error .valueError ∧
    (A.compose s (.event e) (.int count)).1.acct = s.acct ∧
    (A.compose s (.event e) (.int count)).1.ledger = ⟨Builder.push s.ledger.eventCounts e count, none⟩ := by
  have hc1 : ¬ count < 1 := by omega
  have hz : PldAccountant.isZero (.float b) = false := by simp [PldAccountant.isZero, PyNum.val, hb.ne']
  have hzq : PldAccountant.isZero (.float q) = false := by simp [PldAccountant.isZero, PyNum.val, q0.ne']
  have hf : PldLibrary.fromLaplace disc (.float b) (.float q) = .error .valueError := by
    simp [PldLibrary.fromLaplace, PyNum.real?, Mech.laplace_close_error hb q0 q1 hd hc hk, PldLibrary.total]
  simp [Accountant.supports, Accountant.compose, Accountant.dryCount, PldAccountant.accountant, PldAccountant.maybeCompose, hnr, hz, hzq,
    Builder.compose, Builder.composeEvent, hc1, PldAccountant.composeWith, PldLibrary.fns, hf, bind, Except.bind]

/-- A concrete case with the default discretization: noise multiplier 0.02 and sampling probability 0.3934693405, where `log(1 - q)` is
-0.5 up to one part in 10^9. -/
example (nfl : ℕ → ℕ) (ppf : ℝ → ℝ → ℝ) (s : AcctState (PldState Pld)) :
    ((pldAccountant nfl ppf 1e-4 .addOrRemoveOne).compose s (.event (.poissonSampled (.float 0.3934693405) (.laplace (.float 0.02))))
      (.int 1)).2 = .error .valueError := by
  have e1 := Real.exp_one_gt_d9
  have e2 := Real.exp_one_lt_d9
  have hh : Real.exp (-(1 / 2)) * Real.exp (-(1 / 2)) * Real.exp 1 = 1 := by
    rw [← Real.exp_add, ← Real.exp_add]; norm_num
  have hpos := Real.exp_pos (-(1 / 2))
  have l1 : (0.60653065955 : ℝ) < Real.exp (-(1 / 2)) := by
    by_contra hn
    push Not at hn
    have : Real.exp (-(1 / 2)) * Real.exp (-(1 / 2)) ≤ 0.60653065955 * 0.60653065955 := mul_le_mul hn hn hpos.le (by norm_num)
    nlinarith
  have l2 : Real.exp (-(1 / 2)) < 0.6065306598 := by
    by_contra hn
    push Not at hn
    have : (0.6065306598 : ℝ) * 0.6065306598 ≤ Real.exp (-(1 / 2)) * Real.exp (-(1 / 2)) := mul_le_mul hn hn (by norm_num) hpos.le
    nlinarith
  have hcast : (((-5000 : ℤ) : ℝ) * 1e-4) = -(1 / 2) := by norm_num
  have hlog1 : Real.log (1 - 0.3934693405) < -(1 / 2) := by
    rw [Real.log_lt_iff_lt_exp (by norm_num)]; norm_num at l1 ⊢; linarith
  have hlog2 : -(1 / 2) - 5e-10 ≤ Real.log (1 - 0.3934693405) := by
    rw [Real.le_log_iff_exp_le (by norm_num), sub_eq_add_neg, Real.exp_add]
    have h3 : Real.exp (-5e-10) ≤ 1 - 4.99e-10 := by
      have := Real.add_one_le_exp (5e-10 : ℝ)
      rw [Real.exp_neg, inv_le_comm₀ (Real.exp_pos _) (by norm_num)]
      refine le_trans ?_ this
      norm_num
    have := mul_le_mul l2.le h3 (Real.exp_pos _).le (by norm_num)
    refine this.trans (by norm_num)
  refine (C82_pld_isclose_violated nfl ppf (disc := 1e-4) (by norm_num) (.inl rfl) (b := 0.02) (q := 0.3934693405) (by norm_num) (by norm_num)
    (by norm_num) (k := -5000) (.inr ?_) ?_ 1 le_rfl s).2.1
  · rw [hcast, abs_of_nonneg (by linarith), max_eq_right (by rw [abs_of_neg (by norm_num), abs_of_neg (by linarith)]; linarith),
      abs_of_neg (by linarith)]
    linarith
  · rw [hcast]
    have h5 : Real.exp (-(1 / (2 * 0.02))) ≤ 1e-10 := by
      rw [show -(1 / (2 * 0.02) : ℝ) = -25 by norm_num, Real.exp_neg, inv_le_comm₀ (Real.exp_pos _) (by norm_num)]
      have h6 : Real.exp 25 = Real.exp 1 ^ 25 := by rw [← Real.exp_nat_mul]; norm_num
      rw [h6]
      refine le_trans ?_ (pow_le_pow_left₀ (by norm_num) (show (2.7 : ℝ) ≤ Real.exp 1 by linarith) 25)
      norm_num
    nlinarith

end Verif.Props
