import Verif.Proofs.RdpSelect

/-!
# C59: the RDP accountant is sound, end to end

From the events composed into an `RdpAccountant` to the (epsilon, delta) guarantee for the mechanisms they describe: `composeAll`
is a history of `compose` calls (`Verif/Spec/Accounting.lean`), `expand` lists the elementary events it stands for
(`Verif/Spec/History.lean`), `EventPair` is the set of mechanisms described by an elementary event
(`Verif/Spec/EventMeaning.lean`), `Adaptive` runs mechanisms one after the other, each one chosen depending on earlier outputs
(`Verif/Spec/LossLaw.lean`), `Indist` is (epsilon, delta)-indistinguishability.
-/

namespace Verif.Props
open Verif Verif.Spec Verif.Rdp Verif.RdpConv MeasureTheory ProbabilityTheory

/-- An `RdpAccountant` for the given orders and neighbouring relation, with all numeric functions of the library except
`_compute_log_a_frac`, for which any function `frac` may stand. -/
noncomputable abbrev rdpAccountant {n : ℕ} (orders : Fin n → ℝ) (frac : ℝ → PyNum → ℝ → EReal) (nr : NeighborRel) : Accountant (Arr n) :=
  RdpAccountant.accountant (libFns orders frac) nr

/-- The elementary events that a history of `compose(event, count)` calls stands for. -/
def historyEvents (l : List (DpEvent × ℤ)) : List DpEvent := l.flatMap fun p => repeatList p.2 (expand p.1)

/-- The `_rdp` array after a history of calls on a new accountant. -/
noncomputable def rdpAfter {n : ℕ} (orders : Fin n → ℝ) (frac : ℝ → PyNum → ℝ → EReal) (nr : NeighborRel) (l : List (DpEvent × ℤ)) : Arr n :=
  (composeAll (rdpAccountant orders frac nr) ⟨RdpAccountant.init, Builder.init⟩ l).1.acct

/-- No call of the history raised an exception. -/
def Accepted {n : ℕ} (orders : Fin n → ℝ) (frac : ℝ → PyNum → ℝ → EReal) (nr : NeighborRel) (l : List (DpEvent × ℤ)) : Prop :=
  (composeAll (rdpAccountant orders frac nr) ⟨RdpAccountant.init, Builder.init⟩ l).2 = true

/-- **C59 (partial), Rényi divergences.** After any accepted history of events, the array of the accountant bounds, at every
order, the Rényi divergence of the joint output of any adaptive sequence of mechanisms described by these events. Missing:
that `_compute_log_a_frac` bounds the moment at fractional orders is the assumption
`FracBound frac`. -/
theorem C59_rdp_curve_partial {n : ℕ} (orders : Fin n → ℝ) (ho : ∀ i, 1 ≤ orders i) (frac : ℝ → PyNum → ℝ → EReal) (hfrac : FracBound frac)
    (nr : NeighborRel) (l : List (DpEvent × ℤ)) (hl : ∀ p ∈ l, WfCounts p.1)
    (hacc : Accepted orders frac nr l) (hcov : ∀ e ∈ historyEvents l, Covered e) {Ω : Type} [MeasurableSpace Ω] (P Q : Measure Ω)
    (h : Adaptive ((historyEvents l).map (EventPair nr)) Ω P Q) (i : Fin n) :
    renyiDiv (orders i) P Q ≤ rdpAfter orders frac nr l i := by
  unfold rdpAfter
  have hspec := (composeAll_spec (libFns orders frac) nr l hl ⟨RdpAccountant.init, Builder.init⟩ Builder.inv_init).1.1 hacc
  rw [C10_rdp_additive (libFns orders frac) nr l hl hacc]
  have hmem : ∀ a ∈ historyEvents l, RdpAccountant.Elementary a ∧ WfCounts a ∧ RdpAccountant.Ok (libFns orders frac) nr a := by
    intro a ha
    obtain ⟨p, hp, hap⟩ := List.mem_flatMap.1 ha
    have ha' := repeatList_mem hap
    exact ⟨RdpAccountant.elementary_of_mem _ _ ha', wfCounts_mem (hl p hp) ha', (hspec p hp).2.2 a ha'⟩
  refine (sequence_sound (F := libFns orders frac) ho (historyEvents l) (fun a ha => ?_) P Q h i).trans (le_of_eq ?_)
  · exact atom_sound orders ho frac hfrac nr _ a (Nat.lt_succ_self _) (hmem a ha).1 (hmem a ha).2.1 (hcov a ha) (hmem a ha).2.2
  · unfold totalRdp
    rw [sum_apply]
    rfl

lemma curve_of {n : ℕ} {orders : Fin n → ℝ} {a : Arr n} {Ω : Type} [MeasurableSpace Ω] {P Q : Measure Ω}
    (h : ∀ i, renyiDiv (orders i) P Q ≤ a i) : RdpCurve (List.ofFn orders) (List.ofFn a) P Q := by
  intro x hx
  obtain ⟨i, hi, hx⟩ := List.getElem_of_mem hx
  rw [List.getElem_zip, List.getElem_ofFn, List.getElem_ofFn] at hx
  rw [← hx]
  exact h _

/-- **C59 (partial), `get_epsilon`.** If `get_epsilon(delta)` returns a finite `eps` after an accepted history of events, any
adaptive sequence of mechanisms described by these events is `(eps, delta)`-indistinguishable. -/
theorem C59_get_epsilon_partial {n : ℕ} (hn : 0 < n) (orders : Fin n → ℝ) (ho : ∀ i, 1 ≤ orders i) (frac : ℝ → PyNum → ℝ → EReal)
    (hfrac : FracBound frac) (nr : NeighborRel) (l : List (DpEvent × ℤ))
    (hl : ∀ p ∈ l, WfCounts p.1) (hacc : Accepted orders frac nr l) (hcov : ∀ e ∈ historyEvents l, Covered e) {Ω : Type}
    [MeasurableSpace Ω] (P Q : Measure Ω) (h : Adaptive ((historyEvents l).map (EventPair nr)) Ω P Q) (delta eps a : ℝ)
    (he : computeEpsilon (List.ofFn orders) (List.ofFn (rdpAfter orders frac nr l)) delta = .ok ((eps : EReal), a)) :
    Indist P Q eps delta := by
  obtain ⟨hp, hq⟩ := Adaptive.prob h
  refine (C36_compute_epsilon_sound _ _ delta a _ (fun _ => ⟨by simp, ?_, ?_⟩) he).2 eps rfl P Q
    (curve_of (C59_rdp_curve_partial orders ho frac hfrac nr l hl hacc hcov P Q h))
  · intro hc
    have := congrArg List.length hc
    simp at this
    omega
  · intro b hb
    obtain ⟨i, rfl⟩ := (List.mem_ofFn' _ _).1 hb
    exact ho i

/-- **C59 (partial), `get_delta`.** Likewise for `get_delta(eps)`. -/
theorem C59_get_delta_partial {n : ℕ} (orders : Fin n → ℝ) (ho : ∀ i, 1 ≤ orders i) (frac : ℝ → PyNum → ℝ → EReal)
    (hfrac : FracBound frac) (nr : NeighborRel) (l : List (DpEvent × ℤ))
    (hl : ∀ p ∈ l, WfCounts p.1) (hacc : Accepted orders frac nr l) (hcov : ∀ e ∈ historyEvents l, Covered e) {Ω : Type}
    [MeasurableSpace Ω] (P Q : Measure Ω) (h : Adaptive ((historyEvents l).map (EventPair nr)) Ω P Q) (delta eps a : ℝ)
    (he : computeDelta (List.ofFn orders) (List.ofFn (rdpAfter orders frac nr l)) eps = .ok (delta, a)) :
    Indist P Q eps delta := by
  obtain ⟨hp, hq⟩ := Adaptive.prob h
  exact (C35_compute_delta_sound _ _ eps delta a he).2.2.2 P Q
    (curve_of (C59_rdp_curve_partial orders ho frac hfrac nr l hl hacc hcov P Q h))

/-- The assumption on fractional orders can be met. -/
example : FracBound fun _ _ _ => ⊤ := by
  intro q z α _ _ _ _ _ hα _
  rw [EReal.top_mul_coe_of_pos (by rw [inv_pos]; linarith)]
  exact le_top

/-- A concrete history: two Gaussian events and a Poisson-sampled pair of Gaussian queries on the same sample. -/
noncomputable def sampleHistory : List (DpEvent × ℤ) :=
  [(.gaussian (.float 1), 2), (.poissonSampled (.float (1 / 2)) (.composed [.gaussian (.float 2), .gaussian (.float 3)]), 1)]

lemma sampleHistory_ok (frac : ℝ → PyNum → ℝ → EReal) :
    Accepted (fun _ : Fin 1 => 2) frac .addOrRemoveOne sampleHistory ∧ (∀ p ∈ sampleHistory, WfCounts p.1) ∧
      ∀ e ∈ historyEvents sampleHistory, Covered e := by
  have hw : ∀ p ∈ sampleHistory, WfCounts p.1 := by simp [sampleHistory, WfCounts]
  have h1 : ∀ (q : ℝ) (z : ℝ), 0 ≤ q → q ≤ 1 → 0 < z → ∀ c : ℤ, (RdpAccountant.addTo (fun _ : Fin 1 => (0 : EReal)) c
      (poissonGaussian frac (fun _ => ((2 : ℝ) : EReal)) (.float q) (.num (.float z)))).2 = .ok none := by
    intro q z h0 h1 hz c
    have hq : ¬ ¬ (0 ≤ PyNum.val (.float q) ∧ PyNum.val (.float q) ≤ 1) := by
      rw [not_not]; exact ⟨by simpa [PyNum.val] using h0, by simpa [PyNum.val] using EReal.coe_le_coe_iff.2 h1⟩
    have hz' : ¬ PyNum.val (.float z) < 0 := by rw [not_lt]; simpa [PyNum.val] using hz.le
    have hone : poissonOneOrder frac q (.float z) ((2 : ℝ) : EReal) = .ok (renyiDiv 2 (ENNReal.ofReal (1 - q) • gaussianReal 0 (Real.toNNReal (z ^ 2)) +
        ENNReal.ofReal q • gaussianReal 1 (Real.toNNReal (z ^ 2))) (gaussianReal 0 (Real.toNNReal (z ^ 2)))) := by
      have := C39_poisson_exact frac (.float z) z rfl hz q h0 h1 2 le_rfl
      exact_mod_cast this
    rw [poissonGaussian, if_neg hq, if_neg hz', collect]
    simp [PyNum.val, hone, RdpAccountant.addTo, List.ofFn_succ]
  refine ⟨(composeAll_spec _ _ _ hw _ Builder.inv_init).1.2 fun p hp => ?_, hw, ?_⟩
  · obtain ⟨z, hz, hen, -⟩ := C42_effective_noise_partial (.composed [.gaussian (.float 2), .gaussian (.float 3)])
      (by simp [FloatGaussians, FloatGaussiansL])
    rcases List.mem_cons.1 hp with rfl | hp
    · refine ⟨by simp [RdpAccountant.verdict, RdpAccountant.maybeCompose], by simp, fun a ha => ?_⟩
      simp only [expand, List.mem_singleton] at ha
      subst ha
      simp only [RdpAccountant.Ok, RdpAccountant.maybeCompose, if_true]
      exact h1 1 1 zero_le_one le_rfl one_pos 1
    · rw [List.mem_singleton] at hp
      subst hp
      refine ⟨by simp [RdpAccountant.verdict, RdpAccountant.maybeCompose, hen], by simp, fun a ha => ?_⟩
      simp only [expand, List.mem_singleton] at ha
      subst ha
      simp only [RdpAccountant.Ok, RdpAccountant.maybeCompose, hen, if_true, true_or]
      exact h1 (1 / 2) z (by norm_num) (by norm_num) hz 1
  · intro e he
    simp [historyEvents, sampleHistory, expand, repeatList] at he
    rcases he with rfl | rfl
    · simp [Covered]
    · rw [Covered]
      exact Or.inr (by simp [FloatGaussians, FloatGaussiansL])

/-- Mechanisms described by the events exist: a sum released twice with noise. -/
example (a b : Vec 1) (hab : ‖a - b‖ ≤ 1) :
    Adaptive ((historyEvents [(.gaussian (.float 1), 2)]).map (EventPair .addOrRemoveOne)) (Vec 1 × Vec 1 × Unit)
      (gaussianVec a (1 * 1) ⊗ₘ Kernel.const _ (gaussianVec a (1 * 1) ⊗ₘ Kernel.const _ (Measure.dirac ())))
      (gaussianVec b (1 * 1) ⊗ₘ Kernel.const _ (gaussianVec b (1 * 1) ⊗ₘ Kernel.const _ (Measure.dirac ()))) := by
  have hp : EventPair .addOrRemoveOne (.gaussian (.float 1)) (Vec 1) (gaussianVec a (1 * 1)) (gaussianVec b (1 * 1)) := by
    have hval : PyNum.val (.float 1) = ((1 : ℝ) : EReal) := rfl
    simp only [EventPair]
    rw [if_neg (by rw [hval]; exact EReal.coe_ne_top 1), hval, EReal.toReal_coe]
    exact GaussianPair.mk a b 1 one_pos hab
  have e : historyEvents [(.gaussian (.float 1), 2)] = [.gaussian (.float 1), .gaussian (.float 1)] := by
    simp [historyEvents, repeatList, expand]
  rw [e]
  refine .cons _ _ _ _ hp fun x => ?_
  simp only [Kernel.const_apply]
  refine .cons _ _ _ _ hp fun x => ?_
  simp only [Kernel.const_apply]
  exact .nil _

/-- `RepeatAndSelect` events are covered: a geometric number of runs, and (nested) a Poisson number of runs of it. -/
example : Covered (.repeatAndSelect (.selfComposed (.gaussian (.float 1)) 3) (.float 10) (.int 1)) ∧
    Covered (.repeatAndSelect (.composed [.laplace (.float 1), .repeatAndSelect (.gaussian (.float 1)) (.float 10) (.int 1)]) (.int 5) .inf) := by
  have h1 : Covered (.gaussian (.float 1)) := by simp [Covered]
  have h2 : Covered (.repeatAndSelect (.gaussian (.float 1)) (.float 10) (.int 1)) := by
    rw [Covered]
    refine ⟨fun a ha => ?_, Or.inr (Or.inl (by simp [PyNum.val]))⟩
    simp only [expand, List.mem_singleton] at ha
    rw [ha]; exact h1
  constructor
  · rw [Covered]
    refine ⟨fun a ha => ?_, Or.inr (Or.inl (by simp [PyNum.val]))⟩
    simp [expand, repeatList] at ha
    rw [ha]; exact h1
  · rw [Covered]
    refine ⟨fun a ha => ?_, Or.inl rfl⟩
    simp [expand, expandList] at ha
    rcases ha with rfl | rfl
    · simp [Covered]
    · exact h2

end Verif.Props
