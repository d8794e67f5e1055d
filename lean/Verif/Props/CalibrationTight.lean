import Verif.Props.CalibrationEndToEnd
import Verif.Props.CrossAccountant
import Verif.Props.PldMilder

/-!
# C87: a mechanism calibrated with the PLD accountant has no more noise than needed

The converse of C74. If `calibrate_dp_mechanism` with a new `PLDAccountant` returns `x`, then a parameter value that makes the mechanism
less private than all values within the tolerance of `x` does not meet the target, up to the discretization: there are mechanisms described by
its event (an adaptive sequence of mechanisms described by the elementary events) that are not `(eps', delta')`-DP for any `eps'` below the target
by more than one discretization interval per elementary event and `delta'` below the target by more than `4e-15` per elementary event. "Less private": less
noise, more sampling or more queries (`PldMilderAll`, `Verif/Spec/PldMilder.lean`).

Missing, hence `_partial`: restrictions as in C84; that `scipy.optimize.brentq` returns a value near one with a nonnegative gap when it
says that it converged is the assumption `BrentqNear`, as in C26.
-/

namespace Verif.Props
open Verif Verif.Spec Verif.Calibration Verif.RdpConv MeasureTheory ProbabilityTheory

/-- **C87 (partial).** `t` is the tolerance in effect. `x'` is any parameter value for which the event `e'` is harsher than the events of
all values within the tolerance of the returned `x`. -/
theorem C87_pld_calibrated_tight_partial {nfl : ℕ → ℕ} (hnfl : ∀ k, k ≤ nfl k) {ppf : ℝ → ℝ → ℝ} (hppf : NormalQuantile ppf) {disc : ℝ}
    (hd : 0 < disc) (nr : NeighborRel) (fuel : ℕ) (brentq) (hB : BrentqNear brentq) (mk : ℝ → Except Err DpEvent)
    (te td : ℝ) (bracket : Bracket) (hbr : bracket.Ordered) (discrete : Bool) (tol : Option ℝ) (x : ℝ)
    (h : calibrate fuel brentq (pldAccountant nfl ppf disc nr) ⟨PldAccountant.init (PldLibrary.fns nfl ppf disc), Builder.init⟩
      (pldGetEpsilon nfl ppf disc) mk te td bracket discrete tol = .ok x) :
    ∃ t, effTol discrete tol = .ok t ∧ ∀ (N : ℕ) (e' : DpEvent), N ≤ 10 ^ 14 →
      (∀ y e, |y - x| ≤ t + (if discrete then 1 else 0) → mk y = .ok e →
        WfCounts e ∧ RROnce e 1 ∧ (expand e).length ≤ N ∧ (∀ a ∈ expand e, TightOk disc a) ∧ PldMilderAll (expand e) (expand e')) →
      ∃ (Ω : Type) (_ : MeasurableSpace Ω) (P Q : Measure Ω), Adaptive ((expand e').map (PldEventPair nr)) Ω P Q ∧
        ∀ eps' delta' : ℝ, 0 ≤ eps' → eps' + N * disc < te → delta' + 4e-15 * N < td →
          ¬ (Indist P Q eps' delta' ∧ Indist Q P eps' delta') := by
  obtain ⟨t, ht, y, eps, he, hge, hy⟩ := C26_calibrate_near_boundary _ _ hB _ _ _ _ _ _ _ hbr _ _ _ h
  refine ⟨t, ht, fun N e' hN hmk => ?_⟩
  obtain ⟨e, s, h1, h2, h3, h4⟩ := hasEpsilon_history he
  obtain ⟨hw, hrr, hlen, hok, hm⟩ := hmk y e hy h1
  have hacc : (pldAfter nfl ppf disc nr [(e, 1)]).2 = true := h4
  have hcs : ∀ p ∈ [(e, (1 : ℤ))], WfCounts p.1 ∧ RROnce p.1 p.2 := by simpa using ⟨hw, hrr⟩
  have hsize : (applications [(e, 1)]).card ≤ 10 ^ 14 := by rw [applications_single]; simpa using hlen.trans hN
  have hok' : ∀ a ∈ applications [(e, 1)], TightOk disc a := by rw [applications_single]; simpa using hok
  have htight := pldAfter_tight hnfl hppf hd hcs hacc hsize hok'
  obtain ⟨Ω, mΩ, P, Q, hA, hb⟩ := htight.harsher (applications_single e).symm hm
  refine ⟨Ω, mΩ, P, Q, hA, fun eps' delta' h0 g1 g2 hPQ => ?_⟩
  have hl : ((expand e).length : ℝ) ≤ N := by exact_mod_cast hlen
  have hc : ((applications [(e, 1)]).card : ℝ) = (expand e).length := by rw [applications_single]; rfl
  unfold pldGetEpsilon at h2
  rw [h3, Except.ok.injEq] at h2
  have h2 : PldAccountant.getEpsilon (PldLibrary.fns nfl ppf disc) (pldAfter nfl ppf disc nr [(e, 1)]).1 td = eps := h2
  rw [PldAccountant.getEpsilon, if_neg (pldAfter_dp hcs hacc hok')] at h2
  have hle : (pldAfter nfl ppf disc nr [(e, 1)]).1.pld.getEpsilonForDelta td ≤ ((eps' + (expand e).length * disc : ℝ) : EReal) := by
    refine htight.epsilon (by positivity) (lt_of_le_of_lt (hb (eps' + (expand e).length * disc) delta' ?_ ?_) ?_)
    · rw [add_sub_cancel_right]; exact hPQ.1
    · rw [add_sub_cancel_right]; exact hPQ.2
    · rw [hc]; nlinarith
  have h2 : (pldAfter nfl ppf disc nr [(e, 1)]).1.pld.getEpsilonForDelta td = eps := h2
  rw [h2] at hle
  have := EReal.coe_le_coe_iff.1 (hge.trans hle)
  nlinarith

lemma expand_self (e : DpEvent) (n : ℤ) (he : expand e = [e]) : expand (.selfComposed e n) = List.replicate n.toNat e := by
  rw [expand, he, repeatList]
  simp

lemma milder_replicate_le {a b : DpEvent} (h : PldMilder a b) (hb : PldMilder b b) {n m : ℕ} (hnm : n ≤ m) :
    PldMilderAll (List.replicate n a) (List.replicate m b) := by
  obtain ⟨k, rfl⟩ := Nat.exists_eq_add_of_le hnm
  exact pldMilder_replicate h hb n k

lemma self_ok {q z : PyNum} (q0 : 0 < q.val) {disc : ℝ} (hg : GridFree disc q) (z0 : 0 < z.val) (z1 : z.val < ⊤) {n : ℤ} (hn : 1 ≤ n) :
    WfCounts (.selfComposed (.poissonSampled q (.gaussian z)) n) ∧ RROnce (.selfComposed (.poissonSampled q (.gaussian z)) n) 1 ∧
      (expand (.selfComposed (.poissonSampled q (.gaussian z)) n)).length = n.toNat ∧
      ∀ a ∈ expand (.selfComposed (.poissonSampled q (.gaussian z)) n), TightOk disc a := by
  rw [expand_self _ _ (by simp [expand])]
  refine ⟨by simp [WfCounts, hn], by simp [RROnce], by simp, fun a ha => ?_⟩
  rw [List.eq_of_mem_replicate ha]
  exact ⟨q0.ne', hg, z0.ne', z1.ne⟩

/-- **C87 (partial), noise multiplier of DP-SGD.** Calibration of the noise multiplier of `n` steps of Poisson-sampled Gaussian noise: with every noise multiplier below the returned one by more than the tolerance,
`n` such steps miss the target, up to the discretization. Also for queries on the whole data (`q = 1`). -/
theorem C87_pld_noise_multiplier_partial {nfl : ℕ → ℕ} (hnfl : ∀ k, k ≤ nfl k) {ppf : ℝ → ℝ → ℝ} (hppf : NormalQuantile ppf) {disc : ℝ}
    (hd : 0 < disc) (nr : NeighborRel) (fuel : ℕ) (brentq) (hB : BrentqNear brentq) (q : PyNum) (q0 : 0 < q.val) (q1 : q.val ≤ 1)
    (hg : GridFree disc q) (n : ℕ) (h1 : 1 ≤ n) (hn : n ≤ 10 ^ 14) (te td : ℝ) (bracket : Bracket) (hbr : bracket.Ordered) (tol x : ℝ)
    (h : calibrate fuel brentq (pldAccountant nfl ppf disc nr) ⟨PldAccountant.init (PldLibrary.fns nfl ppf disc), Builder.init⟩
      (pldGetEpsilon nfl ppf disc) (fun z => .ok (.selfComposed (.poissonSampled q (.gaussian (.float z))) n)) te td bracket false (some tol) = .ok x)
    (x' : ℝ) (h0 : 0 < x') (hx' : x' < x - tol) :
    ∃ (Ω : Type) (_ : MeasurableSpace Ω) (P Q : Measure Ω), Adaptive (List.replicate n (SampledGaussianPair x' q.val.toReal)) Ω P Q ∧
      ∀ eps' delta' : ℝ, 0 ≤ eps' → eps' + n * disc < te → delta' + 4e-15 * n < td → ¬ (Indist P Q eps' delta' ∧ Indist Q P eps' delta') := by
  obtain ⟨t, ht, key⟩ := C87_pld_calibrated_tight_partial hnfl hppf hd nr fuel brentq hB _ te td bracket hbr false (some tol) x h
  have htt : t = tol := by
    unfold effTol at ht
    simp only [Bool.false_eq_true, if_false] at ht
    split_ifs at ht
    exact (Except.ok.inj ht).symm
  subst htt
  obtain ⟨Ω, mΩ, P, Q, hA, hb⟩ := key n (.selfComposed (.poissonSampled q (.gaussian (.float x'))) n) hn fun y e hy he => by
    cases he
    simp only [Bool.false_eq_true, if_false, add_zero, abs_le] at hy
    have hy' : x' ≤ y := by linarith
    obtain ⟨a1, a2, a3, a4⟩ := self_ok q0 hg (z := .float y) (EReal.coe_pos.2 (h0.trans_le hy')) (EReal.coe_lt_top _) (n := n) (by exact_mod_cast h1)
    refine ⟨a1, a2, by rw [a3]; simp, a4, ?_⟩
    rw [expand_self _ _ (by simp [expand]), expand_self _ _ (by simp [expand])]
    exact milder_replicate_le (.sampledGaussian _ _ (.float y) (.float x') q0 le_rfl q1 (EReal.coe_pos.2 h0) (EReal.coe_le_coe_iff.2 hy') (EReal.coe_lt_top _))
      (.sampledGaussian _ _ (.float x') (.float x') q0 le_rfl q1 (EReal.coe_pos.2 h0) le_rfl (EReal.coe_lt_top _)) le_rfl
  refine ⟨Ω, mΩ, P, Q, ?_, hb⟩
  rw [expand_self _ _ (by simp [expand])] at hA
  simpa [PldEventPair, PyNum.val] using hA

/-- **C87 (partial), number of steps of DP-SGD.** Calibration of the number of steps of Poisson-sampled Gaussian noise, an integer: any
number `n` above the returned one by at least `tol + 1` misses the target, up to the discretization. -/
theorem C87_pld_steps_partial {nfl : ℕ → ℕ} (hnfl : ∀ k, k ≤ nfl k) {ppf : ℝ → ℝ → ℝ} (hppf : NormalQuantile ppf) {disc : ℝ}
    (hd : 0 < disc) (nr : NeighborRel) (fuel : ℕ) (brentq) (hB : BrentqNear brentq) (q z : PyNum) (q0 : 0 < q.val) (q1 : q.val ≤ 1)
    (hg : GridFree disc q) (z0 : 0 < z.val) (z1 : z.val < ⊤) (te td : ℝ) (bracket : Bracket) (hbr : bracket.Ordered) (tol : Option ℝ) (x : ℝ)
    (h : calibrate fuel brentq (pldAccountant nfl ppf disc nr) ⟨PldAccountant.init (PldLibrary.fns nfl ppf disc), Builder.init⟩
      (pldGetEpsilon nfl ppf disc) (fun n => .ok (.selfComposed (.poissonSampled q (.gaussian z)) ⌊n⌋)) te td bracket true tol = .ok x) :
    ∃ t, effTol true tol = .ok t ∧ ∀ n : ℕ, x + t + 1 ≤ n → n ≤ 10 ^ 14 → 2 ≤ x - t →
      ∃ (Ω : Type) (_ : MeasurableSpace Ω) (P Q : Measure Ω),
        Adaptive (List.replicate n (SampledGaussianPair z.val.toReal q.val.toReal)) Ω P Q ∧
        ∀ eps' delta' : ℝ, 0 ≤ eps' → eps' + n * disc < te → delta' + 4e-15 * n < td → ¬ (Indist P Q eps' delta' ∧ Indist Q P eps' delta') := by
  obtain ⟨t, ht, key⟩ := C87_pld_calibrated_tight_partial hnfl hppf hd nr fuel brentq hB _ te td bracket hbr true tol x h
  refine ⟨t, ht, fun n hn hN hx => ?_⟩
  obtain ⟨Ω, mΩ, P, Q, hA, hb⟩ := key n (.selfComposed (.poissonSampled q (.gaussian z)) n) hN fun y e hy he => by
    cases he
    simp only [if_true, abs_le] at hy
    have hy1 : 1 ≤ ⌊y⌋ := Int.le_floor.2 (by push_cast; linarith)
    have hy2 : ⌊y⌋.toNat ≤ n := by
      have : (⌊y⌋ : ℝ) ≤ n := (Int.floor_le y).trans (by linarith)
      have : ⌊y⌋ ≤ (n : ℤ) := by exact_mod_cast this
      omega
    obtain ⟨a1, a2, a3, a4⟩ := self_ok q0 hg z0 z1 hy1
    refine ⟨a1, a2, by rw [a3]; exact hy2, a4, ?_⟩
    rw [expand_self _ _ (by simp [expand]), expand_self _ _ (by simp [expand])]
    have hm : PldMilder (.poissonSampled q (.gaussian z)) (.poissonSampled q (.gaussian z)) := .sampledGaussian _ _ _ _ q0 le_rfl q1 z0 le_rfl z1
    exact milder_replicate_le hm hm (by simpa using hy2)
  refine ⟨Ω, mΩ, P, Q, ?_, hb⟩
  rw [expand_self _ _ (by simp [expand])] at hA
  simpa [PldEventPair] using hA

/-! ### Non-vacuity -/

/-- A root finder that only ever tries `x₀`. -/
noncomputable def pointBrentq (x₀ : ℝ) (f : ℝ → Except CalErr EReal) (_ _ tol : ℝ) : Except CalErr (ℝ × Bool) :=
  open Classical in if 0 ≤ tol ∧ f x₀ = .ok 0 then .ok (x₀, true) else .error (.py .valueError)

lemma pointBrentq_near (x₀ : ℝ) : BrentqNear (pointBrentq x₀) := by
  intro f a b tol root h
  unfold pointBrentq at h
  split_ifs at h with hc
  simp only [Except.ok.injEq, Prod.mk.injEq, and_true] at h
  exact ⟨root, 0, h ▸ hc.2, le_rfl, by simpa using hc.1⟩

/-- Calibration for the epsilon that the accountant reports for `x₀` returns `x₀`. -/
lemma calibrate_point {nfl : ℕ → ℕ} {ppf : ℝ → ℝ → ℝ} {disc : ℝ} {nr : NeighborRel} (fuel : ℕ) {mk : ℝ → Except Err DpEvent} {x₀ te td : ℝ} {e : DpEvent}
    (h0 : 0 ≤ te) (hd : 0 ≤ td ∧ td ≤ 1) (discrete : Bool) {tol : Option ℝ} {t : ℝ} (ht : effTol discrete tol = .ok t) (ht0 : 0 ≤ t)
    (hx : (if discrete then (pyRound x₀ : ℝ) else x₀) = x₀) (hmk : mk x₀ = .ok e) (hacc : (pldAfter nfl ppf disc nr [(e, 1)]).2 = true)
    (hte : PldAccountant.getEpsilon (PldLibrary.fns nfl ppf disc) (pldAfter nfl ppf disc nr [(e, 1)]).1 td = te) (a b : ℝ) :
    calibrate fuel (pointBrentq x₀) (pldAccountant nfl ppf disc nr) ⟨PldAccountant.init (PldLibrary.fns nfl ppf disc), Builder.init⟩
      (pldGetEpsilon nfl ppf disc) mk te td (.explicit a b) discrete tol = .ok x₀ := by
  have hgap : epsilonGap (pldAccountant nfl ppf disc nr) ⟨PldAccountant.init (PldLibrary.fns nfl ppf disc), Builder.init⟩
      (pldGetEpsilon nfl ppf disc) mk te td discrete x₀ = .ok 0 := by
    rcases hc : (pldAccountant nfl ppf disc nr).compose
      ⟨PldAccountant.init (PldLibrary.fns nfl ppf disc), Builder.init⟩ (.event e) (.int 1) with ⟨s, r⟩
    cases r with
    | error err => simp [pldAfter, composeAll, hc] at hacc
    | ok u =>
      have hs : (pldAfter nfl ppf disc nr [(e, 1)]).1 = s.acct := by simp [pldAfter, composeAll, hc]
      rw [hs] at hte
      obtain ⟨g1, g2⟩ := compose_any_ledger (pldAccountant nfl ppf disc nr) (PldAccountant.init (PldLibrary.fns nfl ppf disc))
        (Accountant.ledger (⟨PldAccountant.init (PldLibrary.fns nfl ppf disc), Builder.init⟩ : AcctState (PldState Pld))).1.ledger Builder.init e 1
      rcases hc' : (pldAccountant nfl ppf disc nr).compose
        (Accountant.ledger (⟨PldAccountant.init (PldLibrary.fns nfl ppf disc), Builder.init⟩ : AcctState (PldState Pld))).1 (.event e) (.int 1) with ⟨s', r'⟩
      have hc'' : (pldAccountant nfl ppf disc nr).compose ⟨PldAccountant.init (PldLibrary.fns nfl ppf disc),
        (Accountant.ledger (⟨PldAccountant.init (PldLibrary.fns nfl ppf disc), Builder.init⟩ : AcctState (PldState Pld))).1.ledger⟩ (.event e) (.int 1) = (s', r') := hc'
      rw [hc, hc''] at g1 g2
      simp only at g1 g2
      subst g2
      have hl : (Accountant.ledger (⟨PldAccountant.init (PldLibrary.fns nfl ppf disc), Builder.init⟩ : AcctState (PldState Pld))).2 = .noOp := rfl
      unfold epsilonGap
      simp only [hx, hmk, hl, hc', pldGetEpsilon, g1, hte]
      rw [← EReal.coe_sub, sub_self, EReal.coe_zero]
  unfold calibrate
  rw [if_neg (not_lt.2 h0), if_neg (not_not.2 hd), ht]
  dsimp only
  generalize epsilonGap (pldAccountant nfl ppf disc nr) ⟨PldAccountant.init (PldLibrary.fns nfl ppf disc), Builder.init⟩
    (pldGetEpsilon nfl ppf disc) mk te td discrete = f at hgap ⊢
  have hone : pointBrentq x₀ f a b t = .ok (x₀, true) := if_pos ⟨ht0, hgap⟩
  simp only [search, resolveBracket, hone, acceptRoot, Bool.not_true, Bool.false_eq_true, if_false, hgap, lt_irrefl, gt_iff_lt, hx]

/-- The PLD accountant reports a finite epsilon at delta 0.2 for `n` Gaussian queries with noise multiplier `√n`. -/
lemma reported_finite {nfl : ℕ → ℕ} (hnfl : ∀ k, k ≤ nfl k) {ppf : ℝ → ℝ → ℝ} (hppf : NormalQuantile ppf) {disc : ℝ} (hd : 0 < disc)
    {n : ℕ} {z : ℝ} (hz : 0 < z) (hzn : z ^ 2 = n) (h1 : 1 ≤ n) (hn : n ≤ 10 ^ 9) {e : DpEvent}
    (hE : e = .selfComposed (.poissonSampled (.float 1) (.gaussian (.float z))) n) :
    (pldAfter nfl ppf disc .addOrRemoveOne [(e, 1)]).2 = true ∧ ∃ te : ℝ,
      PldAccountant.getEpsilon (PldLibrary.fns nfl ppf disc) (pldAfter nfl ppf disc .addOrRemoveOne [(e, 1)]).1 (1 / 5) = te ∧ 0 ≤ te := by
  have q0 : 0 < (PyNum.float 1).val := EReal.coe_pos.2 one_pos
  have z0 : 0 < (PyNum.float z).val := EReal.coe_pos.2 hz
  have hg : GridFree disc (.float 1) := Or.inr (Or.inl (by simp [PyNum.val]))
  obtain ⟨w1, w2, w3, w4⟩ := self_ok q0 hg z0 (EReal.coe_lt_top _) (n := (n : ℤ)) (by exact_mod_cast h1)
  rw [← hE] at w1 w2 w3 w4
  have hexp : expand e = List.replicate n (.poissonSampled (.float 1) (.gaussian (.float z))) := by
    rw [hE, expand_self _ _ (by simp [expand])]; rfl
  have hcs : ∀ p ∈ [(e, (1 : ℤ))], WfCounts p.1 ∧ RROnce p.1 p.2 := by simpa using ⟨w1, w2⟩
  have hcard : (applications [(e, 1)]).card = n := by rw [applications_single, hexp]; simp
  have hsize : (applications [(e, 1)]).card ≤ 10 ^ 14 := by rw [hcard]; exact hn.trans (by norm_num)
  have hok : ∀ a ∈ applications [(e, 1)], TightOk disc a := by rw [applications_single]; simpa using w4
  have hacc : (pldAfter nfl ppf disc .addOrRemoveOne [(e, 1)]).2 = true := by
    refine C82_pld_accepted_partial hnfl hppf hd ?_ hsize
    intro p hp
    rw [List.mem_singleton.1 hp]
    refine ⟨by norm_num, w1, fun a ha => ?_⟩
    rw [hexp] at ha
    rw [List.eq_of_mem_replicate ha]
    exact ⟨Or.inl rfl, q0.le, le_rfl, ⟨z0.le, EReal.coe_ne_top _⟩, hg⟩
  refine ⟨hacc, ?_⟩
  have hrdp : rdpAfter (fun _ : Fin 1 => 2) Rdp.logAFrac .addOrRemoveOne [(e, 1)] = (fun _ => 1) ∧
      Accepted (fun _ : Fin 1 => 2) Rdp.logAFrac .addOrRemoveOne [(e, 1)] := by
    have hpg := poissonGaussian_order_two Rdp.logAFrac hz
    have hn0 : (n : ℝ) ≠ 0 := by positivity
    have hmul : ((n : ℝ) : EReal) * ((1 / z ^ 2 : ℝ) : EReal) = 1 := by
      rw [← EReal.coe_mul, hzn, mul_one_div_cancel hn0, EReal.coe_one]
    rw [one_div] at hmul
    have hcomp : ∃ b, (rdpAccountant (fun _ : Fin 1 => 2) Rdp.logAFrac .addOrRemoveOne).compose ⟨RdpAccountant.init, Builder.init⟩
        (.event e) (.int 1) = (⟨fun _ => 1, b⟩, .ok ()) := by
      refine ⟨⟨Builder.push [] (.poissonSampled (.float 1) (.gaussian (.float z))) n, none⟩, ?_⟩
      have hen : effNoise (.gaussian (.float z)) = .ok (.num (.float z)) := by simp [effNoise]
      have hlt : n ≠ 0 := by omega
      rw [hE]
      simp only [hen, Accountant.compose, RdpAccountant.accountant, RdpAccountant.maybeCompose, Bool.false_eq_true, if_false, if_true, hpg,
        RdpAccountant.addTo, Builder.compose, Builder.composeEvent, Accountant.dryCount, lt_irrefl]
      simp only [one_div, mul_one, one_mul, Int.cast_natCast, hmul, RdpAccountant.init]
      simp [hlt, hmul, Builder.init]
      funext i
      simp [RdpAccountant.init]
    obtain ⟨b, hb⟩ := hcomp
    exact ⟨by simp [rdpAfter, composeAll, hb], by simp [Accepted, composeAll, hb]⟩
  have hfin := C85_get_epsilon_partial hnfl hppf hd hcs hacc hsize hok (fun _ : Fin 1 => 2) (by norm_num) hrdp.2
    (by
      intro a ha
      rw [applications_single, hexp, Multiset.coe_replicate] at ha
      rw [Multiset.eq_of_mem_replicate ha, Covered]
      exact Or.inr (by simp [FloatGaussians, hz]))
    0 le_rfl (fun i => by rw [orderSlack, if_pos ⟨2, by norm_num⟩, mul_zero]) (1 / 10) _ 2 (by norm_num)
    (by
      rw [hrdp.1, show (List.ofFn fun _ : Fin 1 => (2 : ℝ)) = [2] by simp, show (List.ofFn fun _ : Fin 1 => (1 : EReal)) = [1] by simp]
      exact computeEpsilon_example) (1 / 5)
    (Or.inr (by
      have : (n : ℝ) ≤ 10 ^ 9 := by exact_mod_cast hn
      rw [hcard, add_zero, Real.sqrt_sq (by norm_num)]
      linarith))
  have hdp := pldAfter_dp hcs hacc hok
  rw [PldAccountant.getEpsilon, if_neg hdp] at hfin ⊢
  have hc := (pldAfter_cov hnfl hppf hd hcs hacc (by rw [hcard]; exact hn.trans (by norm_num)) (by
    intro a ha
    rw [applications_single, hexp, Multiset.coe_replicate] at ha
    rw [Multiset.eq_of_mem_replicate ha]
    trivial)).resolve_left hdp
  have key := C24_epsilon_valid _ hc.valid hc.remove.nonneg hc.add.nonneg (1 / 5)
  have hnt : (pldAfter nfl ppf disc .addOrRemoveOne [(e, 1)]).1.pld.getEpsilonForDelta (1 / 5) ≠ ⊤ := fun hh => by
    have hfin : (pldAfter nfl ppf disc .addOrRemoveOne [(e, 1)]).1.pld.getEpsilonForDelta (1 / 5) ≤ _ := hfin
    rw [hh] at hfin
    exact absurd hfin (not_le.2 (EReal.coe_lt_top _))
  have := (not_congr key.1).1 hnt
  push Not at this
  obtain ⟨r, h1, h2, -⟩ := key.2 this.1 this.2
  exact ⟨r, h1, h2⟩

/-- Calibration of the noise multiplier of one Gaussian query on the whole data, for the epsilon that the accountant reports for noise
multiplier one at delta 0.2: it returns one, and noise multipliers below `1 - 1e-3` miss the target. -/
example (nfl : ℕ → ℕ) (hnfl : ∀ k, k ≤ nfl k) (fuel : ℕ) : ∃ ppf, ∃ te : ℝ,
    calibrate fuel (pointBrentq 1) (pldAccountant nfl ppf 1e-4 .addOrRemoveOne) ⟨PldAccountant.init (PldLibrary.fns nfl ppf 1e-4), Builder.init⟩
      (pldGetEpsilon nfl ppf 1e-4) (fun z => .ok (.selfComposed (.poissonSampled (.float 1) (.gaussian (.float z))) (1 : ℕ))) te (1 / 5)
      (.explicit (1 / 2) 2) false (some 1e-3) = .ok 1 ∧
    ∀ x' : ℝ, 0 < x' → x' < 1 - 1e-3 → ∃ (Ω : Type) (_ : MeasurableSpace Ω) (P Q : Measure Ω), Adaptive [SampledGaussianPair x' 1] Ω P Q ∧
      ∀ eps' delta' : ℝ, 0 ≤ eps' → eps' + 1e-4 < te → delta' + 4e-15 < 1 / 5 → ¬ (Indist P Q eps' delta' ∧ Indist Q P eps' delta') := by
  obtain ⟨ppf, hppf⟩ := exists_normalQuantile
  obtain ⟨hacc, te, hte, h0⟩ := reported_finite hnfl hppf (disc := 1e-4) (by norm_num) one_pos (n := 1) (by norm_num) le_rfl (by norm_num) rfl
  have hcal := calibrate_point (mk := fun z => .ok (.selfComposed (.poissonSampled (.float 1) (.gaussian (.float z))) (1 : ℕ))) fuel h0
    ⟨by norm_num, by norm_num⟩ false (tol := some 1e-3) (t := 1e-3) (by simp [effTol]; norm_num) (by norm_num) rfl rfl hacc hte (1 / 2) 2
  refine ⟨ppf, te, hcal, fun x' h1 h2 => ?_⟩
  simpa [PyNum.val] using C87_pld_noise_multiplier_partial hnfl hppf (by norm_num) .addOrRemoveOne fuel _ (pointBrentq_near 1) (.float 1)
    (EReal.coe_pos.2 one_pos) le_rfl (Or.inr (Or.inl (by simp [PyNum.val]))) 1 le_rfl (by norm_num) te (1 / 5) _ (by show (1 / 2 : ℝ) ≤ 2; norm_num) 1e-3 1 hcal x' h1 h2

/-- Calibration of the number of Gaussian queries with noise multiplier two, for the epsilon reported for four: it returns four, and six or more miss the target. -/
example (nfl : ℕ → ℕ) (hnfl : ∀ k, k ≤ nfl k) (fuel : ℕ) : ∃ ppf, ∃ te : ℝ,
    calibrate fuel (pointBrentq 4) (pldAccountant nfl ppf 1e-4 .addOrRemoveOne) ⟨PldAccountant.init (PldLibrary.fns nfl ppf 1e-4), Builder.init⟩
      (pldGetEpsilon nfl ppf 1e-4) (fun n => .ok (.selfComposed (.poissonSampled (.float 1) (.gaussian (.float 2))) ⌊n⌋)) te (1 / 5)
      (.explicit 1 100) true none = .ok 4 ∧
    ∀ n : ℕ, 6 ≤ n → n ≤ 10 ^ 14 → ∃ (Ω : Type) (_ : MeasurableSpace Ω) (P Q : Measure Ω), Adaptive (List.replicate n (SampledGaussianPair 2 1)) Ω P Q ∧
      ∀ eps' delta' : ℝ, 0 ≤ eps' → eps' + n * 1e-4 < te → delta' + 4e-15 * n < 1 / 5 → ¬ (Indist P Q eps' delta' ∧ Indist Q P eps' delta') := by
  obtain ⟨ppf, hppf⟩ := exists_normalQuantile
  obtain ⟨hacc, te, hte, h0⟩ := reported_finite hnfl hppf (disc := 1e-4) (by norm_num) (z := 2) (by norm_num) (n := 4) (by norm_num) (by norm_num) (by norm_num) rfl
  have h4 : ⌊(4 : ℝ)⌋ = 4 := by norm_num
  have hr : (pyRound 4 : ℝ) = 4 := by
    have := pyRound_intCast 4
    push_cast at this
    rw [this]; norm_num
  have hcal := calibrate_point (mk := fun n => .ok (.selfComposed (.poissonSampled (.float 1) (.gaussian (.float 2))) ⌊n⌋)) (x₀ := 4) fuel h0
    ⟨by norm_num, by norm_num⟩ true (tol := none) (t := 1) (by simp [effTol]) (by norm_num) (by simpa using hr) (by rw [h4]; rfl) hacc hte 1 100
  refine ⟨ppf, te, hcal, fun n h1 h2 => ?_⟩
  obtain ⟨t, ht, key⟩ := C87_pld_steps_partial hnfl hppf (by norm_num) .addOrRemoveOne fuel _ (pointBrentq_near 4) (.float 1) (.float 2)
    (EReal.coe_pos.2 one_pos) le_rfl (Or.inr (Or.inl (by simp [PyNum.val]))) (EReal.coe_pos.2 (by norm_num)) (EReal.coe_lt_top _) te (1 / 5) _
    (by show (1 : ℝ) ≤ 100; norm_num) none 4 hcal
  simp only [effTol, if_true, Except.ok.injEq] at ht
  subst ht
  have h6 : (6 : ℝ) ≤ n := by exact_mod_cast h1
  simpa [PyNum.val] using key n (by linarith) h2 (by norm_num)

end Verif.Props
