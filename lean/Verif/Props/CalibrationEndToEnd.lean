import Verif.Props.Calibration
import Verif.Props.RdpFracAccountant
import Verif.Props.PldEndToEnd

/-!
# C74: a calibrated mechanism is as private as asked for

From the value returned by `calibrate_dp_mechanism` with a new `RdpAccountant` or `PLDAccountant` to the (epsilon, delta) guarantee of
the mechanism described by the event made from that value. Mechanisms are described as in C59 and C61, whose restrictions apply.
-/

namespace Verif.Props
open Verif Verif.Spec Verif.Calibration Verif.RdpConv MeasureTheory ProbabilityTheory

/-- Whether a builder accepts an event does not depend on the events it has already got. -/
lemma composeEvent_result (b b' : Builder) (e : DpEvent) (n : ℤ) : (b.composeEvent e n).2 = (b'.composeEvent e n).2 := by
  fun_induction Builder.composeEvent b e n with
  | case1 n h => simp [Builder.composeEvent, h]
  | case2 n h => simp only [Builder.composeEvent, if_neg h]
  | case3 e c n h => simp [Builder.composeEvent, h]
  | case4 e c n h ih => simp only [Builder.composeEvent, if_neg h, ih]
  | case5 e n h1 h2 h => rw [Builder.composeEvent.eq_3 _ _ _ h1 h2]; simp [h]
  | case6 e n h1 h2 h => rw [Builder.composeEvent.eq_3 _ _ _ h1 h2]; simp only [if_neg h]

/-- Neither does the accountant's own state. -/
lemma compose_any_ledger {σ : Type} (A : Accountant σ) (a : σ) (b b' : Builder) (e : DpEvent) (n : ℤ) :
    (A.compose ⟨a, b⟩ (.event e) (.int n)).1.acct = (A.compose ⟨a, b'⟩ (.event e) (.int n)).1.acct ∧
      (A.compose ⟨a, b⟩ (.event e) (.int n)).2 = (A.compose ⟨a, b'⟩ (.event e) (.int n)).2 := by
  have h := composeEvent_result b b' e n
  rcases hm : A.maybeCompose e (Accountant.dryCount (.int n)) false a with ⟨a1, r1⟩
  cases r1 with
  | error err => simp [Accountant.compose, hm]
  | ok r =>
    cases r with
    | some _ => simp [Accountant.compose, hm]
    | none =>
      rcases hb : b.composeEvent e n with ⟨b1, r2⟩
      rcases hb' : b'.composeEvent e n with ⟨b2, r3⟩
      rw [hb, hb'] at h
      simp only at h
      subst h
      cases r2 with
      | error err => simp [Accountant.compose, Builder.compose, hm, hb, hb']
      | ok _ =>
        rcases hm2 : A.maybeCompose e (Accountant.dryCount (.int n)) true a1 with ⟨a2, r4⟩
        cases r4 <;> simp [Accountant.compose, Builder.compose, hm, hb, hb', hm2]

/-- The state reached by the one call of `compose` in `epsilon_gap` is that of a history of one event. -/
lemma hasEpsilon_history {σ : Type} {A : Accountant σ} {a₀ : σ} {getEps : AcctState σ → ℝ → Except Err EReal}
    {mk : ℝ → Except Err DpEvent} {delta x : ℝ} {eps : EReal} (h : HasEpsilon A ⟨a₀, Builder.init⟩ getEps mk delta x eps) :
    ∃ e s, mk x = .ok e ∧ getEps s delta = .ok eps ∧ s.acct = (composeAll A ⟨a₀, Builder.init⟩ [(e, 1)]).1.acct ∧
      (composeAll A ⟨a₀, Builder.init⟩ [(e, 1)]).2 = true := by
  obtain ⟨e, s, h1, h2, h3⟩ := h
  obtain ⟨g1, g2⟩ := compose_any_ledger A a₀ (Accountant.ledger (⟨a₀, Builder.init⟩ : AcctState σ)).1.ledger Builder.init e 1
  have h2' : A.compose ⟨a₀, (Accountant.ledger (⟨a₀, Builder.init⟩ : AcctState σ)).1.ledger⟩ (.event e) (.int 1) = (s, .ok ()) := h2
  rw [h2'] at g1 g2
  rcases hc : A.compose ⟨a₀, Builder.init⟩ (.event e) (.int 1) with ⟨s', r⟩
  rw [hc] at g1 g2
  simp only at g1 g2
  subst g2
  exact ⟨e, s, h1, h3, by simp [composeAll, hc, g1], by simp [composeAll, hc]⟩

/-- `RdpAccountant.get_epsilon`, `rdp_privacy_accountant.py:1165-1174`. -/
noncomputable def rdpGetEpsilon {n : ℕ} (orders : Fin n → ℝ) (s : AcctState (Arr n)) (delta : ℝ) : Except Err EReal :=
  (computeEpsilon (List.ofFn orders) (List.ofFn s.acct) delta).map Prod.fst

/-- `PLDAccountant.get_epsilon` on an accountant object. -/
noncomputable def pldGetEpsilon (nfl : ℕ → ℕ) (ppf : ℝ → ℝ → ℝ) (disc : ℝ) (s : AcctState (PldState Pld)) (delta : ℝ) : Except Err EReal :=
  .ok (PldAccountant.getEpsilon (PldLibrary.fns nfl ppf disc) s.acct delta)

lemma historyEvents_single (e : DpEvent) : historyEvents [(e, 1)] = expand e := by
  simp [historyEvents, repeatList]

lemma computeEpsilon_nonneg {orders : List ℝ} {rdp : List EReal} {delta a : ℝ} {e : EReal}
    (h : computeEpsilon orders rdp delta = .ok (e, a)) : 0 ≤ e := by
  unfold computeEpsilon at h
  split_ifs at h
  · cases h; exact le_rfl
  · cases h; exact le_top
  · split at h
    · simp at h
    · split at h
      · simp at h
      · cases h; exact le_max_left _ _

/-- What a successful calibration with a Rényi accountant says. -/
lemma rdp_calibrated {n : ℕ} {orders : Fin n → ℝ} {frac : ℝ → PyNum → ℝ → EReal} {nr : NeighborRel} {fuel : ℕ} {brentq}
    {mk : ℝ → Except Err DpEvent} {te td : ℝ} {bracket : Bracket} {discrete : Bool} {tol : Option ℝ} {x : ℝ}
    (h : calibrate fuel brentq (rdpAccountant orders frac nr) ⟨RdpAccountant.init, Builder.init⟩ (rdpGetEpsilon orders) mk te td bracket
      discrete tol = .ok x) :
    ∃ e eps a, mk x = .ok e ∧ Accepted orders frac nr [(e, 1)] ∧ 0 ≤ eps ∧ eps ≤ te ∧
      computeEpsilon (List.ofFn orders) (List.ofFn (rdpAfter orders frac nr [(e, 1)])) td = .ok (((eps : ℝ) : EReal), a) := by
  obtain ⟨eps, he, hle⟩ := C26_calibrate_within_budget _ _ _ _ _ _ _ _ _ _ _ _ h
  obtain ⟨e, s, h1, h2, h3, h4⟩ := hasEpsilon_history he
  unfold rdpGetEpsilon at h2
  rw [h3] at h2
  cases hc : computeEpsilon (List.ofFn orders) (List.ofFn (rdpAfter orders frac nr [(e, 1)])) td with
  | error err =>
    unfold rdpAfter at hc
    rw [hc] at h2
    simp [Except.map] at h2
  | ok r =>
    obtain ⟨r1, a⟩ := r
    have h0 := computeEpsilon_nonneg hc
    unfold rdpAfter at hc
    rw [hc] at h2
    simp only [Except.map, Except.ok.injEq] at h2
    subst h2
    obtain ⟨v, rfl⟩ : ∃ v : ℝ, r1 = v := by
      refine ⟨r1.toReal, (EReal.coe_toReal ?_ ?_).symm⟩
      · exact fun hc => absurd (hc ▸ hle) (not_le.2 (EReal.coe_lt_top te))
      · exact fun hc => absurd (hc ▸ h0) (by simp)
    exact ⟨e, v, a, h1, h4, EReal.coe_nonneg.1 h0, EReal.coe_le_coe_iff.1 hle, hc⟩

/-- **C74 (partial), Rényi accountant.** If `calibrate_dp_mechanism` with a new `RdpAccountant` returns `x`, then any mechanism described by
the event of `x` (an adaptive sequence of mechanisms described by its elementary events) is (target_epsilon, target_delta)-DP. Missing,
as in C59: that `_compute_log_a_frac` bounds the moment at fractional orders is the assumption `FracBound frac`. -/
theorem C74_rdp_calibrated_partial {n : ℕ} (hn : 0 < n) (orders : Fin n → ℝ) (ho : ∀ i, 1 ≤ orders i) (frac : ℝ → PyNum → ℝ → EReal)
    (hfrac : FracBound frac) (nr : NeighborRel) (fuel : ℕ) (brentq) (mk : ℝ → Except Err DpEvent)
    (hmk : ∀ y e, mk y = .ok e → WfCounts e ∧ ∀ a ∈ expand e, Covered a)
    (te td : ℝ) (bracket : Bracket) (discrete : Bool) (tol : Option ℝ) (x : ℝ)
    (h : calibrate fuel brentq (rdpAccountant orders frac nr) ⟨RdpAccountant.init, Builder.init⟩ (rdpGetEpsilon orders) mk te td bracket
      discrete tol = .ok x) :
    ∃ e, mk x = .ok e ∧ ∀ {Ω : Type} [MeasurableSpace Ω] (P Q : Measure Ω), Adaptive ((expand e).map (EventPair nr)) Ω P Q →
      Indist P Q te td := by
  obtain ⟨e, eps, a, h1, h2, h0, hle, hc⟩ := rdp_calibrated h
  obtain ⟨hw, hcov⟩ := hmk x e h1
  refine ⟨e, h1, fun P Q hPQ => ?_⟩
  have := C59_get_epsilon_partial hn orders ho frac hfrac nr [(e, 1)] (by simpa using hw) h2 (by rwa [historyEvents_single]) P Q
    (by rwa [historyEvents_single]) td eps a hc
  exact Mech.mono_eps this hle

/-- **C74 (partial), Rényi accountant with the library's function for fractional orders.** Likewise for the modelled `_compute_log_a_frac`,
whose early stop costs at most `orderSlack` per Poisson-sampled event (C62). Missing: `RepeatAndSelectDpEvent`. -/
theorem C74_rdp_library_calibrated_partial {n : ℕ} (orders : Fin n → ℝ) (ho : ∀ i, 1 ≤ orders i) (nr : NeighborRel) (fuel : ℕ) (brentq)
    (mk : ℝ → Except Err DpEvent)
    (hmk : ∀ y e, mk y = .ok e → WfCounts e ∧ ∀ a ∈ expand e, Covered a ∧ ∀ e' m s, a ≠ .repeatAndSelect e' m s)
    (te td : ℝ) (htd : 0 < td) (bracket : Bracket) (discrete : Bool) (tol : Option ℝ) (x : ℝ)
    (h : calibrate fuel brentq (rdpAccountant orders Rdp.logAFrac nr) ⟨RdpAccountant.init, Builder.init⟩ (rdpGetEpsilon orders) mk te td bracket
      discrete tol = .ok x) :
    ∃ e, mk x = .ok e ∧ ∀ η : ℝ, 0 ≤ η → (∀ i, poissonEvents (expand e) * orderSlack (orders i) ≤ η) →
      ∀ {Ω : Type} [MeasurableSpace Ω] (P Q : Measure Ω), Adaptive ((expand e).map (EventPair nr)) Ω P Q →
        Indist P Q (te + η) (Real.sqrt (td ^ 2 + η)) := by
  obtain ⟨e, eps, a, h1, h2, h0, hle, hc⟩ := rdp_calibrated h
  obtain ⟨hw, hcov⟩ := hmk x e h1
  refine ⟨e, h1, fun η hη hs Ω _ P Q hPQ => ?_⟩
  have := (C62_get_epsilon_partial orders ho nr [(e, 1)] (by simpa using hw) h2 (by rw [historyEvents_single]; exact fun a ha => (hcov a ha).1)
    (by rw [historyEvents_single]; exact fun a ha => (hcov a ha).2) P Q (by rwa [historyEvents_single]) η hη
    (by rwa [historyEvents_single]) td eps a htd hc).2
  exact Mech.mono_eps this (by linarith)

lemma applications_single (e : DpEvent) : applications [(e, 1)] = (expand e : Multiset DpEvent) := by
  simp [applications]

/-- **C74 (partial), PLD accountant.** If `calibrate_dp_mechanism` with a new `PLDAccountant` returns `x`, then any mechanism described by
the event of `x`, also with post-processing, is (target_epsilon, target_delta)-DP, up to the slack of C61. Restrictions as in C61. -/
theorem C74_pld_calibrated_partial {nfl : ℕ → ℕ} (hnfl : ∀ k, k ≤ nfl k) {ppf : ℝ → ℝ → ℝ} (hppf : NormalQuantile ppf) {disc : ℝ}
    (hd : 0 < disc) (nr : NeighborRel) (fuel : ℕ) (brentq) (mk : ℝ → Except Err DpEvent)
    (hmk : ∀ y e, mk y = .ok e → WfCounts e ∧ RROnce e 1 ∧ (expand e).length ≤ 10 ^ 21 ∧ ∀ a ∈ expand e, DiscFine disc a)
    (te td : ℝ) (bracket : Bracket) (discrete : Bool) (tol : Option ℝ) (x : ℝ)
    (h : calibrate fuel brentq (pldAccountant nfl ppf disc nr) ⟨PldAccountant.init (PldLibrary.fns nfl ppf disc), Builder.init⟩
      (pldGetEpsilon nfl ppf disc) mk te td bracket discrete tol = .ok x) :
    ∃ e, mk x = .ok e ∧ ∀ {Ω Ω' : Type} [MeasurableSpace Ω] [MeasurableSpace Ω'] (P Q : Measure Ω),
      Adaptive ((expand e).map (PldEventPair nr)) Ω P Q → ∀ (κ : Kernel Ω Ω') [IsMarkovKernel κ],
        let delta := td + ((expand e).map (eventSlack disc)).sum
        Indist P Q te delta ∧ Indist Q P te delta ∧ Indist (P.bind κ) (Q.bind κ) te delta ∧ Indist (Q.bind κ) (P.bind κ) te delta := by
  obtain ⟨eps, he, hle⟩ := C26_calibrate_within_budget _ _ _ _ _ _ _ _ _ _ _ _ h
  obtain ⟨e, s, h1, h2, h3, h4⟩ := hasEpsilon_history he
  obtain ⟨hw, hrr, hlen, hgrid⟩ := hmk x e h1
  refine ⟨e, h1, fun {Ω Ω'} _ _ P Q hPQ κ _ => ?_⟩
  unfold pldGetEpsilon at h2
  rw [h3, Except.ok.injEq] at h2
  have hacc : (pldAfter nfl ppf disc nr [(e, 1)]).2 = true := h4
  have hcs : ∀ p ∈ [(e, (1 : ℤ))], WfCounts p.1 ∧ RROnce p.1 p.2 := by simpa using ⟨hw, hrr⟩
  have hsize : (applications [(e, 1)]).card ≤ 10 ^ 21 := by rw [applications_single]; simpa using hlen
  have hg : ∀ a ∈ applications [(e, 1)], DiscFine disc a := by rw [applications_single]; simpa using hgrid
  have hne : eps ≠ ⊤ := fun hc => absurd (hc ▸ hle) (not_le.2 (EReal.coe_lt_top te))
  have hbot : eps ≠ ⊥ := by
    rintro rfl
    unfold PldAccountant.getEpsilon at h2
    split_ifs at h2 with hn
    · exact absurd h2.symm bot_ne_top
    have hc := (pldAfter_cov hnfl hppf hd hcs hacc hsize hg).resolve_left hn
    have key := C24_epsilon_valid _ hc.valid hc.remove.nonneg hc.add.nonneg td
    have h2 : (pldAfter nfl ppf disc nr [(e, 1)]).1.pld.getEpsilonForDelta td = ⊥ := h2
    rw [h2] at key
    simp only [bot_ne_top, false_iff, not_or, not_lt] at key
    obtain ⟨r, hr, -⟩ := key.2 key.1.1 key.1.2
    exact absurd hr (EReal.bot_ne_coe r)
  obtain ⟨v, rfl⟩ : ∃ v : ℝ, eps = v := ⟨eps.toReal, (EReal.coe_toReal hne hbot).symm⟩
  obtain ⟨⟨-, k1, k2⟩, k3, k4⟩ := C61_get_epsilon_partial hnfl hppf hd hcs hacc hsize hg (expand e) (applications_single e).symm P Q hPQ td v h2 κ
  have hv := EReal.coe_le_coe_iff.1 hle
  exact ⟨Mech.mono_eps k1 hv, Mech.mono_eps k2 hv, Mech.mono_eps k3 hv, Mech.mono_eps k4 hv⟩

/-! ### Non-vacuity -/

open Classical in
/-- A root finder that finds a root if there is one. -/
noncomputable def idealBrentq (f : ℝ → Except CalErr EReal) (_ _ tol : ℝ) : Except CalErr (ℝ × Bool) :=
  if h : 0 ≤ tol ∧ ∃ r, f r = .ok 0 then .ok (h.2.choose, true) else .error (.py .valueError)

/-- It keeps the promise on which `C26_calibrate_near_boundary` and `C26_calibrate_optimal` rely. -/
lemma idealBrentq_near : BrentqNear idealBrentq := by
  intro f a b tol root h
  unfold idealBrentq at h
  split_ifs at h with hc
  simp only [Except.ok.injEq, Prod.mk.injEq, and_true] at h
  exact ⟨root, 0, h ▸ hc.2.choose_spec, le_rfl, by simpa using hc.1⟩

/-- Calibration with it succeeds on an explicit bracket if the target is attained. -/
lemma calibrate_ideal {σ : Type} (fuel : ℕ) {A : Accountant σ} {fresh : AcctState σ} {getEps : AcctState σ → ℝ → Except Err EReal}
    {mk : ℝ → Except Err DpEvent} {te td : ℝ} (hte : 0 ≤ te) (htd : 0 ≤ td ∧ td ≤ 1) {x₀ : ℝ} (a b : ℝ)
    (h : epsilonGap A fresh getEps mk te td false x₀ = .ok 0) :
    ∃ x, calibrate fuel idealBrentq A fresh getEps mk te td (.explicit a b) false none = .ok x := by
  have hc : (0 : ℝ) ≤ 1e-6 ∧ ∃ r, epsilonGap A fresh getEps mk te td false r = .ok 0 := ⟨by norm_num, x₀, h⟩
  have hr := hc.2.choose_spec
  refine ⟨hc.2.choose, ?_⟩
  unfold calibrate
  rw [if_neg (not_lt.2 hte), if_neg (not_not.2 htd)]
  simp only [effTol, Bool.false_eq_true, if_false, search, resolveBracket, idealBrentq, dif_pos hc, acceptRoot, Bool.not_true, hr,
    lt_irrefl, gt_iff_lt]

/-- The RDP of the Gaussian mechanism at order 2. -/
lemma poissonGaussian_order_two (frac : ℝ → PyNum → ℝ → EReal) {z : ℝ} (hz : 0 < z) :
    (libFns (fun _ : Fin 1 => 2) frac).poissonGaussian (.float 1) (.num (.float z)) = .ok fun _ => ((1 / z ^ 2 : ℝ) : EReal) := by
  have hone : Rdp.poissonOneOrder frac 1 (.float z) ((2 : ℝ) : EReal) = .ok ((1 / z ^ 2 : ℝ) : EReal) := by
    rw [C39_gaussian_exact frac (.float z) z rfl hz 2 (by norm_num), renyi_gaussian' (by norm_num) 1 (by rw [Ne, Real.toNNReal_eq_zero, not_le]; positivity),
      Real.coe_toNNReal _ (by positivity)]
    norm_num
    field_simp
  show Rdp.poissonGaussian frac (fun _ : Fin 1 => ((2 : ℝ) : EReal)) (.float 1) (.num (.float z)) = _
  have hq : ¬ ¬ (0 ≤ PyNum.val (.float 1) ∧ PyNum.val (.float 1) ≤ 1) := by simp [PyNum.val]
  rw [Rdp.poissonGaussian, if_neg hq]
  rw [if_neg (by simp [PyNum.val, hz.le]), Rdp.collect]
  have : Rdp.poissonOneOrder frac (PyNum.val (.float 1)).toReal (.float z) ((2 : ℝ) : EReal) = .ok ((1 / z ^ 2 : ℝ) : EReal) := by
    rw [show (PyNum.val (.float 1)).toReal = 1 from EReal.toReal_coe 1, hone]
  simp only [this]
  simp [List.ofFn_succ]

/-- A concrete calibration: the noise multiplier of a Gaussian mechanism for the epsilon that the accountant reports for noise multiplier 1 at
delta 0.1, with the one order 2. It succeeds, and Gaussian noise with the returned multiplier is as private as asked for. -/
example (frac : ℝ → PyNum → ℝ → EReal) (hfrac : FracBound frac) (fuel : ℕ) :
    let te := 1 + Real.log (1 / 2) - Real.log (1 / 5)
    ∃ x, calibrate fuel idealBrentq (rdpAccountant (fun _ : Fin 1 => 2) frac .addOrRemoveOne) ⟨RdpAccountant.init, Builder.init⟩
        (rdpGetEpsilon fun _ => 2) (fun z => .ok (.gaussian (.float z))) te (1 / 10) (.explicit (1 / 2) 4) false none = .ok x ∧
      ∀ {Ω : Type} [MeasurableSpace Ω] (P Q : Measure Ω), Adaptive [EventPair .addOrRemoveOne (.gaussian (.float x))] Ω P Q → Indist P Q te (1 / 10) := by
  intro te
  have hte : 0 ≤ te := by
    have := Real.log_le_log (by norm_num : (0 : ℝ) < 1 / 5) (by norm_num : (1 / 5 : ℝ) ≤ 1 / 2)
    show 0 ≤ 1 + Real.log (1 / 2) - Real.log (1 / 5)
    linarith
  have hgap : epsilonGap (rdpAccountant (fun _ : Fin 1 => 2) frac .addOrRemoveOne) ⟨RdpAccountant.init, Builder.init⟩
      (rdpGetEpsilon fun _ => 2) (fun z => .ok (.gaussian (.float z))) te (1 / 10) false 1 = .ok 0 := by
    have hpg := poissonGaussian_order_two frac one_pos
    norm_num at hpg
    unfold epsilonGap
    have hl : (Accountant.ledger (⟨RdpAccountant.init, Builder.init⟩ : AcctState (Arr 1))).2 = .noOp := rfl
    have hcomp : ∃ b, (rdpAccountant (fun _ : Fin 1 => 2) frac .addOrRemoveOne).compose
        (Accountant.ledger (⟨RdpAccountant.init, Builder.init⟩ : AcctState (Arr 1))).1 (.event (.gaussian (.float 1))) (.int 1) =
        (⟨fun _ => 1, b⟩, .ok ()) := by
      refine ⟨⟨Builder.push [] (.gaussian (.float 1)) 1, none⟩, ?_⟩
      simp only [Accountant.compose, RdpAccountant.accountant, RdpAccountant.maybeCompose, Bool.false_eq_true, if_false, if_true, hpg,
        RdpAccountant.addTo, Builder.compose, Builder.composeEvent, Accountant.ledger, Accountant.dryCount, lt_irrefl]
      simp [RdpAccountant.init]
      rfl
    obtain ⟨b, hb⟩ := hcomp
    simp only [Bool.false_eq_true, if_false, hl, hb, rdpGetEpsilon]
    have : computeEpsilon (List.ofFn fun _ : Fin 1 => (2 : ℝ)) (List.ofFn fun _ : Fin 1 => (1 : EReal)) (1 / 10) = .ok ((te : EReal), 2) := by
      rw [show (List.ofFn fun _ : Fin 1 => (2 : ℝ)) = [2] by simp, show (List.ofFn fun _ : Fin 1 => (1 : EReal)) = [1] by simp]
      exact computeEpsilon_example
    rw [this]
    simp only [Except.map]
    rw [← EReal.coe_sub, sub_self, EReal.coe_zero]
  obtain ⟨x, hx⟩ := calibrate_ideal fuel hte ⟨by norm_num, by norm_num⟩ (1 / 2) 4 hgap
  refine ⟨x, hx, ?_⟩
  obtain ⟨e, he, hP⟩ := C74_rdp_calibrated_partial one_pos _ (by norm_num) frac hfrac _ _ _ _ (fun y e he => by
    cases he
    simp [WfCounts, expand, Covered]) _ _ _ _ _ x hx
  cases he
  intro Ω _ P Q hPQ
  exact hP P Q (by simpa [expand] using hPQ)

end Verif.Props
