import Verif.Proofs.FalseAlarmMeasurable
import Verif.Props.FalseAlarm
import Verif.Props.MmdTester
import Verif.Props.RenyiTester
import Verif.Proofs.RdpAtoms

/-!
# C76 for the testers whose estimates are continuous
-/

namespace Verif.Props
open Verif.Spec Verif.TestRunner Testers MeasureTheory

variable {U G D X : Type} [MeasurableSpace U] [MeasurableSpace X] {μ : Measure U} [IsProbabilityMeasure μ]

/-- The estimate of the MMD tester is a measurable function of the samples, or is not returned. -/
theorem Aux.mmd_measurable {S : Type} [MeasurableSpace S] {t : MmdTester S} (hk : MmdTester.GoodKernel t.kernel) (n : ℕ) {fp : ℝ} (hf : fp ≠ 0) :
    (∀ (z : (Fin n → S) × (Fin n → S)) (e : ℝ), t.estimateLowerBound (List.ofFn z.1) (List.ofFn z.2) fp ≠ .ok e) ∨
    ∃ f : (Fin n → S) × (Fin n → S) → ℝ, Measurable f ∧ ∀ z, t.estimateLowerBound (List.ofFn z.1) (List.ofFn z.2) fp = .ok (f z) := by
  by_cases h1 : n = 1
  · left
    intro z e h
    rw [MmdTester.estimate_one t (.inl h1)] at h
    cases h
  by_cases h0 : min (n / 2) (n / 2) = 0
  · left
    intro z e h
    rw [MmdTester.estimate_eq t h1 h1] at h
    unfold MmdTester.fromValues at h
    simp only [if_pos h0] at h
    cases h
  right
  have hg : Measurable fun (z : (Fin n → S) × (Fin n → S)) (i : Fin (min (n / 2) (n / 2))) => t.quad (MmdTester.group z i) := by
    refine measurable_pi_iff.2 fun i => (MmdTester.quad_measurable hk).comp ?_
    unfold MmdTester.group
    fun_prop
  have hb : ∀ {f g : (Fin n → S) × (Fin n → S) → ℝ}, Measurable f → Measurable g → Measurable fun z => t.boundOf (f z) (g z) := by
    intro f g hf hg
    unfold MmdTester.boundOf
    fun_prop
  have hs : Measurable fun z : (Fin n → S) × (Fin n → S) => (∑ i, t.quad (MmdTester.group z i)) / ((min (n / 2) (n / 2) : ℕ) : ℝ) :=
    (Finset.measurable_fun_sum _ fun i _ => (measurable_pi_apply i).comp hg).div_const _
  have ht : Measurable fun z : (Fin n → S) × (Fin n → S) => MmdTester.tol1 (fun i => t.quad (MmdTester.group z i)) fp := by
    have : Measurable fun v : Fin (min (n / 2) (n / 2)) → ℝ => MmdTester.tol1 v fp := by
      unfold MmdTester.tol1 Bernstein.sampleVariance
      fun_prop
    exact this.comp hg
  refine ⟨_, (hb hs (measurable_const (a := MmdTester.tol0 (min (n / 2) (n / 2)) fp))).max (g := fun z => if min (n / 2) (n / 2) = 1 then t.boundOfInf else t.boundOf
    ((∑ i, t.quad (MmdTester.group z i)) / ((min (n / 2) (n / 2) : ℕ) : ℝ)) (MmdTester.tol1 (fun i => t.quad (MmdTester.group z i)) fp)) ?_, fun z => ?_⟩
  · by_cases h : min (n / 2) (n / 2) = 1
    · simp only [if_pos h]
      exact measurable_const
    · simp only [if_neg h]
      exact hb hs ht
  · rw [MmdTester.estimate_eq t h1 h1, MmdTester.fromValues_eq t h0 hf]

/-- **C76, MMD tester.** `M d` is the law of one output of the mechanism on `d`; the outputs may be post-processed before the test. If the
mechanism is `(ε, δ)`-differentially private on the generated pairs of data sets, a test with the MMD tester for `(ε, δ)` reports a violation
with probability at most `2 * max_num_trials` times the failure probability of the tester in `C67_sound_partial`. -/
theorem C76_mmd_partial {d : ℕ} {kernel : Kernel} {bandwidth epsilon delta : ℝ} {t : MmdTester (Fin d → ℝ)}
    (ht : mmdTester d kernel bandwidth epsilon delta = .ok t) (hb : 0 ≤ bandwidth) {generator : Option ℝ → Step G (D × D)}
    (hG : MeasurableGenerator generator) {sampler : D → U → ℕ → X} {M : D → Measure X} (hM : ∀ d, IsProbabilityMeasure (M d))
    (hs : IndependentDraws μ sampler M) {post : X → Fin d → ℝ} (hp : Measurable post)
    (hdp : ∀ last g d1 d2, (generator last g).2 = .ok (d1, d2) → Indist (M d1) (M d2) epsilon delta ∧ Indist (M d2) (M d1) epsilon delta)
    (cfg : RunnerConfig) (hf0 : 0 < cfg.failureProbability) (hf1 : cfg.failureProbability ≤ 1) (n : ℕ) (hn : n = cfg.numSamples.toNat / 2) (g : G) :
    (Measure.infinitePi fun _ : ℕ => μ).real ((countingRunner generator sampler post t.estimateLowerBound t.rejectProperty).Accused cfg g) ≤
        2 * cfg.maxNumTrials.toNat * (cfg.failureProbability +
          2 * (cfg.failureProbability / 2) ^ (3 * n / (3 * n + 7 * Real.log (2 / cfg.failureProbability)))) ∧
    (n ≤ 1 + 10 * Real.log (2 / cfg.failureProbability) →
      (Measure.infinitePi fun _ : ℕ => μ).real ((countingRunner generator sampler post t.estimateLowerBound t.rejectProperty).Accused cfg g) ≤
        2 * cfg.maxNumTrials.toNat * cfg.failureProbability) := by
  obtain ⟨-, -, -, -, hk⟩ := Aux.mmd_ok ht hb
  have hn' : n = min (cfg.numSamples.toNat / 2) (cfg.numSamples.toNat / 2) := by omega
  have hr : MeasurableSet {e : ℝ | t.rejectProperty e} := measurableSet_lt measurable_const measurable_id
  have hi : ∀ d, IsProbabilityMeasure ((M d).map post) := fun d => Measure.isProbabilityMeasure_map hp.aemeasurable
  constructor
  · refine measurable_false_alarm hG hs hM hp hr (Aux.mmd_measurable hk _ hf0.ne') ?_ (fun last g d1 d2 hd => ?_) g
    · have : 0 < cfg.failureProbability / 2 := by linarith
      positivity
    · obtain ⟨k1, k2⟩ := hdp last g d1 d2 hd
      exact ⟨C67_sound_partial ht hb (Mech.Indist.map k1 hp) (Mech.Indist.map k2 hp) _ _ n hn' hf0 hf1,
        C67_sound_partial ht hb (Mech.Indist.map k2 hp) (Mech.Indist.map k1 hp) _ _ n hn' hf0 hf1⟩
  · intro hsmall
    refine measurable_false_alarm hG hs hM hp hr (Aux.mmd_measurable hk _ hf0.ne') hf0.le (fun last g d1 d2 hd => ?_) g
    obtain ⟨k1, k2⟩ := hdp last g d1 d2 hd
    exact ⟨C67_small_partial ht hb (Mech.Indist.map k1 hp) (Mech.Indist.map k2 hp) _ _ n hn' hf0 hf1 hsmall,
      C67_small_partial ht hb (Mech.Indist.map k2 hp) (Mech.Indist.map k1 hp) _ _ n hn' hf0 hf1 hsmall⟩

/-- With `γ < 1` the estimate of the Rényi tester is a number that depends measurably on the samples, or is not returned. -/
theorem Aux.renyi_measurable {S : Type} [MeasurableSpace S] {t : RenyiTester S} (hm : t.MeasurableTraining) (hα : t.alpha ≠ 1) (n : ℕ) {fp : ℝ}
    (hf0 : 0 < fp) (hf1 : fp ≤ 1) (hγ : RenyiTester.gamma (n - n / 2) fp t.bound t.alpha < 1) :
    (∀ z : (Fin n → S) × (Fin n → S), ∃ e, t.estimateLowerBound (List.ofFn z.1) (List.ofFn z.2) fp = .error e) ∨
    ∃ f : (Fin n → S) × (Fin n → S) → ℝ, Measurable f ∧ ∀ z, t.estimateLowerBound (List.ofFn z.1) (List.ofFn z.2) fp = .ok (.num (f z)) := by
  obtain ⟨a, N, hn, ha, hN⟩ : ∃ a N, n = a + N ∧ n / 2 = a ∧ n - n / 2 = N := ⟨n / 2, n - n / 2, by omega, rfl, rfl⟩
  rw [hN] at hγ
  subst hn
  have e := fun z => RenyiTester.estimate_eq t ha ha z hf0 hf1 hα
  rw [min_self] at e
  by_cases h : 0 < a
  · right
    let G : (Fin a → S) × (Fin a → S) → S → ℝ := fun w => t.output (List.ofFn w.1) (List.ofFn w.2)
    have hG : Measurable fun z : ((Fin a → S) × (Fin a → S)) × S => G z.1 z.2 := RenyiTester.measurable_output hm a a
    have m1 := (RenyiTester.measurable_mean (t.alpha - 1) hG N).comp
      (measurable_fst.prodMk (measurable_fst.comp measurable_snd) : Measurable fun z : ((Fin a → S) × (Fin a → S)) × ((Fin N → S) × (Fin N → S)) => (z.1, z.2.1))
    have m2 := (RenyiTester.measurable_mean t.alpha hG N).comp
      (measurable_fst.prodMk (measurable_snd.comp measurable_snd) : Measurable fun z : ((Fin a → S) × (Fin a → S)) × ((Fin N → S) × (Fin N → S)) => (z.1, z.2.2))
    have hp : Measurable (RenyiTester.parts (S := S) (a := a) (N := N) (b := a) (M := N)) := by
      unfold RenyiTester.parts
      fun_prop
    refine ⟨_, ((((measurable_const (a := t.alpha / (t.alpha - 1))).mul (Real.measurable_log.comp m1)).sub (Real.measurable_log.comp m2)).sub_const
      (Real.log ((1 + RenyiTester.gamma N fp t.bound t.alpha) / (1 - RenyiTester.gamma N fp t.bound t.alpha)))).comp hp, fun z => ?_⟩
    rw [e z, if_pos ⟨rfl, h⟩, if_pos hγ]
    rfl
  · left
    intro z
    rw [e z, if_neg (fun k => h k.2)]
    exact ⟨_, rfl⟩

/-- **C76, Rényi tester.** The same for a mechanism with Rényi divergences of order `alpha` at most `epsilon`, tested for this property, if there
are so many samples that the number `γ` of the code is below one and the estimates are numbers. -/
theorem C76_renyi_partial {X' : Type} [MeasurableSpace X'] {epsilon alpha configAlpha learningRate epochs batchSize bound : ℝ}
    {network : List X' → List X' → X' → ℝ} {t : RenyiTester X'}
    (ht : renyiTester (.renyiDp epsilon alpha) configAlpha learningRate epochs batchSize bound network = .ok t)
    (hm : ∀ a b : ℕ, Measurable fun z : ((Fin a → X') × (Fin b → X')) × X' => network (List.ofFn z.1.1) (List.ofFn z.1.2) z.2)
    {generator : Option ℝ → Step G (D × D)} (hG : MeasurableGenerator generator) {sampler : D → U → ℕ → X} {M : D → Measure X}
    (hM : ∀ d, IsProbabilityMeasure (M d)) (hs : IndependentDraws μ sampler M) {post : X → X'} (hp : Measurable post)
    (hdp : ∀ last g d1 d2, (generator last g).2 = .ok (d1, d2) → renyiDiv alpha (M d1) (M d2) ≤ (epsilon : EReal) ∧
      renyiDiv alpha (M d2) (M d1) ≤ (epsilon : EReal))
    (cfg : RunnerConfig) (hf0 : 0 < cfg.failureProbability) (hf1 : cfg.failureProbability ≤ 1) (n : ℕ)
    (hn : n = cfg.numSamples.toNat - cfg.numSamples.toNat / 2)
    (hγ : max √(3 * Real.log (2 / cfg.failureProbability) * Real.exp (2 * (alpha - 1) * bound) / n)
      √(2 * Real.log (2 / cfg.failureProbability) * Real.exp (2 * alpha * bound) / n) < 1) (g : G) :
    (Measure.infinitePi fun _ : ℕ => μ).real ((countingRunner generator sampler post
      (fun x y fp => realEstimate (t.estimateLowerBound x y fp)) fun e => t.rejectProperty (.num e)).Accused cfg g) ≤
      2 * cfg.maxNumTrials.toNat * cfg.failureProbability := by
  have hi : ∀ d, IsProbabilityMeasure ((M d).map post) := fun d => Measure.isProbabilityMeasure_map hp.aemeasurable
  obtain ⟨h1, h2, htt⟩ := Aux.renyi_ok ht
  have hγ' : RenyiTester.gamma (cfg.numSamples.toNat - cfg.numSamples.toNat / 2) cfg.failureProbability t.bound t.alpha < 1 := by
    rw [htt, ← hn]
    exact hγ
  have hest := Aux.renyi_measurable (t := t) (by rw [htt]; exact hm) (by rw [htt]; exact h1.ne') cfg.numSamples.toNat hf0 hf1 hγ'
  have hset : ∀ z : (Fin cfg.numSamples.toNat → X') × (Fin cfg.numSamples.toNat → X'), (∃ e, realEstimate (t.estimateLowerBound (List.ofFn z.1) (List.ofFn z.2)
      cfg.failureProbability) = .ok e ∧ t.rejectProperty (.num e)) → ∃ b, t.estimateLowerBound (List.ofFn z.1) (List.ofFn z.2)
      cfg.failureProbability = .ok b ∧ t.rejectProperty b := by
    rintro z ⟨e, he, hr⟩
    rcases hest with h | ⟨f, -, h⟩
    · obtain ⟨e', h⟩ := h z
      rw [h] at he
      cases he
    · rw [h z] at he ⊢
      refine ⟨_, rfl, ?_⟩
      injection he with he
      rw [EReal.toReal_coe] at he
      rwa [he]
  refine measurable_false_alarm hG hs hM hp ?_ ?_ hf0.le (fun last g d1 d2 hd => ?_) g
  · have : {e : ℝ | t.rejectProperty (.num e)} = {e : ℝ | t.threshold < e} := by
      ext e
      exact EReal.coe_lt_coe_iff
    rw [this]
    exact measurableSet_lt measurable_const measurable_id
  · rcases hest with h | ⟨f, hf, h⟩
    · left
      intro z e he
      obtain ⟨e', h⟩ := h z
      simp only [h, realEstimate] at he
      cases he
    · right
      refine ⟨f, hf, fun z => ?_⟩
      simp only [h, realEstimate, EReal.toReal_coe]
  · obtain ⟨k1, k2⟩ := hdp last g d1 d2 hd
    exact ⟨(measureReal_mono (fun z => hset z) (by unfold independentSamples; finiteness)).trans (C68_sound ht hm (renyi_map h1.le hp k1) _ _ hf0 hf1),
      (measureReal_mono (fun z => hset z) (by unfold independentSamples; finiteness)).trans (C68_sound ht hm (renyi_map h1.le hp k2) _ _ hf0 hf1)⟩

/-- A generator that chooses the data sets by the sign of the last estimate. -/
noncomputable def signGenerator (last : Option ℝ) : Step Unit (ℝ × ℝ) := fun s =>
  (s, .ok (match last with
    | none => (0, 1)
    | some e => if 0 ≤ e then (0, 1) else (1, 0)))

lemma signGenerator_measurable : MeasurableGenerator signGenerator := by
  have h : ∀ e : ℝ, signGenerator (some e) = if 0 ≤ e then signGenerator none else fun s => (s, .ok (1, 0)) := fun e => by
    funext s
    by_cases he : 0 ≤ e
    · rw [if_pos he]
      simp [signGenerator, he]
    · rw [if_neg he]
      simp [signGenerator, he]
  refine fun g => ⟨((Set.finite_singleton ((g, Except.ok (1, 0)) : Unit × Except Err (ℝ × ℝ))).insert (signGenerator none g)).countable.mono ?_, fun y => ?_⟩
  · rintro _ ⟨e, rfl⟩
    dsimp only
    rw [h]
    split_ifs
    · exact .inl rfl
    · exact .inr rfl
  · have : {e : ℝ | signGenerator (some e) g = y} = {e : ℝ | if 0 ≤ e then signGenerator none g = y else (g, Except.ok (1, 0)) = y} := by
      ext e
      simp only [Set.mem_ofPred_eq, h]
      split_ifs <;> rfl
    rw [this]
    have e2 : {e : ℝ | if 0 ≤ e then signGenerator none g = y else (g, Except.ok (1, 0)) = y} =
        ({e : ℝ | 0 ≤ e} ∩ {_e : ℝ | signGenerator none g = y}) ∪ ({e : ℝ | 0 ≤ e}ᶜ ∩ {_e : ℝ | (g, Except.ok (1, 0)) = y}) := by
      ext e
      by_cases he : 0 ≤ e <;> simp [he]
    rw [e2]
    have h0 : MeasurableSet {e : ℝ | 0 ≤ e} := measurableSet_le measurable_const measurable_id
    exact (h0.inter (MeasurableSet.const _)).union (h0.compl.inter (MeasurableSet.const _))

/-- A mechanism that releases its data or zero, tested with ten adaptive trials of thirty samples. -/
example : ∃ t, mmdTester 1 .laplacian 2 1 (1 / 2) = .ok t ∧
    (Measure.infinitePi fun _ : ℕ => Measure.infinitePi fun _ : ℕ => fairCoin).real
      ((countingRunner signGenerator (fun (d : ℝ) (u : ℕ → Bool) i => if u i then d else 0) (fun x (_ : Fin 1) => x) t.estimateLowerBound
        t.rejectProperty).Accused ⟨10, 0.001, 30⟩ ()) ≤ 0.02 := by
  have ht := C67_init 1 .laplacian 2 1 (1 / 2)
  rw [if_pos ⟨one_pos, by norm_num⟩] at ht
  refine ⟨_, ht, ?_⟩
  have hd : ∀ x y : ℝ, Indist (fairCoin.map fun b : Bool => if b then x else 0) (fairCoin.map fun b : Bool => if b then y else 0) 1 (1 / 2) := by
    intro x y A hA
    refine (half_indist 0 x y A hA).trans (add_le_add_left (mul_le_mul_of_nonneg_right (Real.exp_le_exp.2 zero_le_one) measureReal_nonneg) _)
  have := (C76_mmd_partial ht (by norm_num) (μ := Measure.infinitePi fun _ : ℕ => fairCoin) signGenerator_measurable
    (sampler := fun (d : ℝ) (u : ℕ → Bool) i => if u i then d else 0) (fun d => Measure.isProbabilityMeasure_map (measurable_of_finite _).aemeasurable)
    (draws_of_bits (D := ℝ) fairCoin (f := fun d b => if b then d else 0) (fun _ => measurable_of_finite _)) (post := fun x (_ : Fin 1) => x)
    (by fun_prop) (fun _ _ d1 d2 _ => ⟨hd d1 d2, hd d2 d1⟩) ⟨10, 0.001, 30⟩ (by norm_num) (by norm_num) 15 rfl ()).2 ?_
  · refine this.trans (le_of_eq ?_)
    rw [show (10 : ℤ).toNat = 10 from rfl]
    norm_num
  · have h1 : Real.log 8 ≤ Real.log (2 / 0.001) := Real.log_le_log (by norm_num) (by norm_num)
    have h2 : Real.log 8 = 3 * Real.log 2 := by
      rw [show (8 : ℝ) = 2 ^ 3 by norm_num, Real.log_pow]
      norm_num
    have := Real.log_two_gt_d9
    push_cast
    norm_num at *
    linarith

/-- A Gaussian mechanism with sensitivity and standard deviation one, tested for `(2, 1)`-Rényi privacy with ten adaptive trials. -/
example : ∃ t, renyiTester (S := ℝ) (.renyiDp 1 2) 2 0.01 10 100 1 (fun l1 l2 x => (l1.sum - l2.sum) * x) = .ok t ∧
    (Measure.infinitePi fun _ : ℕ => Measure.infinitePi fun _ : ℕ => ProbabilityTheory.gaussianReal 0 1).real
      ((countingRunner signGenerator (fun (d : ℝ) (u : ℕ → ℝ) i => d + u i) id
        (fun x y fp => realEstimate (t.estimateLowerBound x y fp)) fun e => t.rejectProperty (.num e)).Accused ⟨10, 0.01, 6000⟩ ()) ≤ 0.2 := by
  have ht := C68_init (S := ℝ) (.renyiDp 1 2) 2 0.01 10 100 1 (fun l1 l2 x => (l1.sum - l2.sum) * x)
  rw [if_pos ⟨by norm_num, by norm_num, by norm_num, by norm_num⟩] at ht
  simp only at ht
  rw [if_pos ⟨by norm_num, by norm_num, trivial⟩] at ht
  refine ⟨_, ht, ?_⟩
  have hg : ∀ d : ℝ, (ProbabilityTheory.gaussianReal 0 1).map (fun x => d + x) = ProbabilityTheory.gaussianReal d 1 := fun d => by
    rw [ProbabilityTheory.gaussianReal_map_const_add, zero_add]
  have := C76_renyi_partial ht (fun a b => by simp only [List.sum_ofFn]; fun_prop)
    (μ := Measure.infinitePi fun _ : ℕ => ProbabilityTheory.gaussianReal 0 1) signGenerator_measurable
    (sampler := fun (d : ℝ) (u : ℕ → ℝ) i => d + u i) (fun d => Measure.isProbabilityMeasure_map (by fun_prop))
    (draws_of_bits (D := ℝ) (ProbabilityTheory.gaussianReal 0 1) (f := fun d x => d + x) (fun _ => by fun_prop)) (post := id) measurable_id
    (fun last _ d1 d2 hd => ?_) ⟨10, 0.01, 6000⟩ (by norm_num) (by norm_num) 3000 rfl ?_ ()
  · refine this.trans (le_of_eq ?_)
    rw [show (10 : ℤ).toNat = 10 from rfl]
    norm_num
  · have hd' : (d1 = 0 ∧ d2 = 1) ∨ (d1 = 1 ∧ d2 = 0) := by
      unfold signGenerator at hd
      injection hd with hd
      cases last with
      | none => exact .inl ⟨(Prod.mk.inj hd).1.symm, (Prod.mk.inj hd).2.symm⟩
      | some e =>
        dsimp only at hd
        split_ifs at hd
        · exact .inl ⟨(Prod.mk.inj hd).1.symm, (Prod.mk.inj hd).2.symm⟩
        · exact .inr ⟨(Prod.mk.inj hd).1.symm, (Prod.mk.inj hd).2.symm⟩
    have r1 : renyiDiv 2 (ProbabilityTheory.gaussianReal 1 1) (ProbabilityTheory.gaussianReal 0 1) ≤ ((1 : ℝ) : EReal) := by
      rw [renyi_gaussian' (by norm_num) _ one_ne_zero]
      norm_num
    have r2 := renyi_gaussian_rev (by norm_num) r1
    rw [hg, hg]
    rcases hd' with ⟨rfl, rfl⟩ | ⟨rfl, rfl⟩
    · exact ⟨r2, r1⟩
    · exact ⟨r1, r2⟩
  · have h4 : Real.exp 4 = Real.exp 1 ^ 4 := by rw [← Real.exp_nat_mul]; norm_num
    have u4 : Real.exp 1 ^ 4 ≤ 2.7183 ^ 4 := pow_le_pow_left₀ (Real.exp_pos 1).le (by linarith [Real.exp_one_lt_d9]) 4
    have hL0 : 0 ≤ Real.log (2 / 0.01) := Real.log_nonneg (by norm_num)
    have hL : Real.log (2 / 0.01) ≤ 6 := by
      rw [Real.log_le_iff_le_exp (by norm_num), show (6 : ℝ) = (6 : ℕ) * 1 by norm_num, Real.exp_nat_mul]
      have : (2.718 : ℝ) ^ 6 ≤ Real.exp 1 ^ 6 := pow_le_pow_left₀ (by norm_num) (by linarith [Real.exp_one_gt_d9]) 6
      norm_num at this ⊢
      linarith
    have h24 : Real.exp 2 ≤ Real.exp 4 := Real.exp_le_exp.2 (by norm_num)
    have hb : ∀ k E : ℝ, 0 ≤ k → k ≤ 3 → 0 ≤ E → E ≤ 60 → √(k * Real.log (2 / 0.01) * E / (3000 : ℕ)) < 1 := by
      intro k E hk0 hk hE0 hE
      rw [Real.sqrt_lt' one_pos, div_lt_iff₀ (by norm_num)]
      have h1 := mul_le_mul (mul_le_mul hk hL hL0 (by norm_num)) hE hE0 (by norm_num)
      refine h1.trans_lt ?_
      norm_num
    have h60 : Real.exp 4 ≤ 60 := by
      rw [h4]
      norm_num at u4
      linarith
    refine max_lt (hb 3 _ (by norm_num) le_rfl (Real.exp_pos _).le ?_) (hb 2 _ (by norm_num) (by norm_num) (Real.exp_pos _).le ?_)
    · rw [show (2 * (2 - 1) * 1 : ℝ) = 2 by norm_num]
      linarith
    · rw [show (2 * 2 * 1 : ℝ) = 4 by norm_num]
      exact h60

end Verif.Props
