import Verif.Proofs.FalseAlarmSampling
import Verif.Model.ConstantGenerator
import Verif.Props.Testers
import Verif.Props.HockeyStickTester

/-!
# C76: how often a privacy test accuses a mechanism that has the tested property
-/

namespace Verif.Props
open Verif.Spec Verif.TestRunner Testers MeasureTheory

variable {U G D S S' X : Type} [MeasurableSpace U] [MeasurableSpace X] {μ : Measure U} [IsProbabilityMeasure μ]

/-- **C76, partial.** Let the generator be adaptive, and let the tester reject the samples for every pair of data sets that the generator
can produce, in either order, with probability at most the failure probability. Then the test reports a violation with probability at
most the failure probability times twice the number of trials. Missing: the claim without this factor, which is false, see
`C76_trials_violated`. -/
theorem C76_false_alarm_partial (p : SampledRunner U G D S S') (cfg : RunnerConfig) (hf : 0 ≤ cfg.failureProbability) (g : G)
    (hE : MeasurableSet (p.Accused cfg g))
    (h : ∀ last g d1 d2, (p.generator last g).2 = .ok (d1, d2) →
      (μ.prod μ).real (p.Rejects cfg d1 d2) ≤ cfg.failureProbability ∧ (μ.prod μ).real (p.Rejects cfg d2 d1) ≤ cfg.failureProbability) :
    (Measure.infinitePi fun _ : ℕ => μ).real (p.Accused cfg g) ≤ 2 * cfg.maxNumTrials.toNat * cfg.failureProbability := by
  rw [accused_eq] at hE ⊢
  have := acc_le p cfg μ (b := ENNReal.ofReal cfg.failureProbability) (fun last g d hd => by
    obtain ⟨h1, h2⟩ := h last g d.1 d.2 hd
    exact ⟨(ENNReal.le_ofReal_iff_toReal_le (measure_ne_top _ _) hf).2 h1, (ENNReal.le_ofReal_iff_toReal_le (measure_ne_top _ _) hf).2 h2⟩)
    cfg.maxNumTrials.toNat none g hE
  refine (ENNReal.toReal_mono (by finiteness) this).trans (le_of_eq ?_)
  simp [ENNReal.toReal_mul, ENNReal.toReal_ofReal hf]

/-- **C76, histogram tester, discrete mechanisms.** `M d` is the law of one output of the mechanism on `d`. If the mechanism is
`(ε, δ)`-differentially private on the generated pairs of data sets, a test with the histogram tester for `(ε, δ)` reports a violation with
probability at most `2 * max_num_trials * failure_probability`. -/
theorem C76_histogram_discrete_partial (histogramSize : ℤ) (epsilon delta : ℝ) (useOriginal : Bool) {generator : Option ℝ → Step G (D × D)}
    {sampler : D → U → ℕ → ℤ} {M : D → Measure ℤ} (hM : ∀ d, IsProbabilityMeasure (M d)) (hs : IndependentDraws μ sampler M)
    (hdp : ∀ last g d1 d2, (generator last g).2 = .ok (d1, d2) → Indist (M d1) (M d2) epsilon delta ∧ Indist (M d2) (M d1) epsilon delta)
    (cfg : RunnerConfig) (hf0 : 0 < cfg.failureProbability) (hf1 : cfg.failureProbability ≤ 1) (g : G) :
    (Measure.infinitePi fun _ : ℕ => μ).real ((countingRunner generator sampler id
      (discreteTester histogramSize epsilon delta useOriginal).estimateLowerBound
      (discreteTester histogramSize epsilon delta useOriginal).rejectProperty).Accused cfg g) ≤
      2 * cfg.maxNumTrials.toNat * cfg.failureProbability := by
  obtain ⟨h1, h2⟩ := counting_false_alarm (generator := generator) (cfg := cfg) hs hM measurable_id (b := id) measurable_id
    (est := (discreteTester histogramSize epsilon delta useOriginal).estimateLowerBound)
    (rej := (discreteTester histogramSize epsilon delta useOriginal).rejectProperty) (fun z z' h => by rw [show z = z' from h])
    (fun last g d1 d2 hd => by
      obtain ⟨k1, k2⟩ := hdp last g d1 d2 hd
      rw [Measure.map_id, Measure.map_id]
      exact ⟨C64_reject_discrete histogramSize epsilon delta useOriginal k1 _ _ hf0 hf1,
        C64_reject_discrete histogramSize epsilon delta useOriginal k2 _ _ hf0 hf1⟩) g
  exact C76_false_alarm_partial _ cfg hf0.le g h1 h2

lemma measurableSet_inBin (lo hi : ℝ) (k j : ℕ) : MeasurableSet {x | inBin lo hi k j (clip lo hi x)} := by
  have hc : Measurable (clip lo hi) := (measurable_id.max measurable_const).min measurable_const
  have : MeasurableSet {x | inBin lo hi k j x} := by
    unfold inBin
    exact (measurableSet_le measurable_const measurable_id).inter ((measurableSet_lt measurable_id measurable_const).union
      ((MeasurableSet.const _).inter (measurableSet_eq_fun measurable_id measurable_const)))
  exact hc this

/-- **C76, histogram tester, continuous mechanisms**, with any post-processing of the samples, for example `tanh`. -/
theorem C76_histogram_continuous_partial (histogramSize : ℤ) (lo hi epsilon delta : ℝ) (useOriginal : Bool)
    {generator : Option ℝ → Step G (D × D)} {sampler : D → U → ℕ → X} {M : D → Measure X} (hM : ∀ d, IsProbabilityMeasure (M d))
    (hs : IndependentDraws μ sampler M) {post : X → ℝ} (hp : Measurable post)
    (hdp : ∀ last g d1 d2, (generator last g).2 = .ok (d1, d2) → Indist (M d1) (M d2) epsilon delta ∧ Indist (M d2) (M d1) epsilon delta)
    (cfg : RunnerConfig) (hf0 : 0 < cfg.failureProbability) (hf1 : cfg.failureProbability ≤ 1) (g : G) :
    (Measure.infinitePi fun _ : ℕ => μ).real ((countingRunner generator sampler post
      (continuousTester histogramSize lo hi epsilon delta useOriginal).estimateLowerBound
      (continuousTester histogramSize lo hi epsilon delta useOriginal).rejectProperty).Accused cfg g) ≤
      2 * cfg.maxNumTrials.toNat * cfg.failureProbability := by
  classical
  set n := cfg.numSamples.toNat with hn
  set cell : (Fin n → ℝ) → Fin n → Fin histogramSize.toNat → Bool := fun z i j => decide (inBin lo hi histogramSize.toNat j (clip lo hi (z i))) with hcell
  have hcm : Measurable cell := by
    refine measurable_pi_iff.2 fun i => measurable_pi_iff.2 fun j => measurable_to_bool ?_
    have : (fun z : Fin n → ℝ => cell z i j) ⁻¹' {true} = (fun z : Fin n → ℝ => z i) ⁻¹' {x | inBin lo hi histogramSize.toNat j (clip lo hi x)} := by
      ext z
      simp [hcell]
    rw [this]
    exact (measurable_pi_apply i) (measurableSet_inBin lo hi _ _)
  have hest : ∀ z z' : Fin n → ℝ, cell z = cell z' →
      estimateContinuous histogramSize lo hi (List.ofFn z) = estimateContinuous histogramSize lo hi (List.ofFn z') := by
    intro z z' h
    unfold estimateContinuous
    simp only [List.length_ofFn, List.map_ofFn]
    congr 4
    refine List.map_congr_left fun j hj => ?_
    have hj := List.mem_range.1 hj
    congr 2
    have cnt : ∀ w : Fin n → ℝ, (List.ofFn (clip lo hi ∘ w)).countP (fun x => decide (inBin lo hi histogramSize.toNat j x)) =
        (List.ofFn fun i => cell w i ⟨j, hj⟩).countP (fun b => b) := by
      intro w
      have : (List.ofFn fun i => cell w i ⟨j, hj⟩) = (List.ofFn (clip lo hi ∘ w)).map fun x => decide (inBin lo hi histogramSize.toNat j x) := by
        rw [List.map_ofFn]; rfl
      rw [this, List.countP_map]
      rfl
    rw [cnt, cnt, h]
  obtain ⟨h1, h2⟩ := counting_false_alarm (generator := generator) (cfg := cfg) hs hM hp (b := fun z => (cell z.1, cell z.2))
    ((hcm.comp measurable_fst).prodMk (hcm.comp measurable_snd))
    (est := (continuousTester histogramSize lo hi epsilon delta useOriginal).estimateLowerBound)
    (rej := (continuousTester histogramSize lo hi epsilon delta useOriginal).rejectProperty) (fun z z' h => by
      obtain ⟨k1, k2⟩ := Prod.mk.inj h
      unfold HistogramTester.estimateLowerBound
      simp only [continuousTester, hest _ _ k1, hest _ _ k2, List.length_ofFn])
    (fun last g d1 d2 hd => by
      obtain ⟨k1, k2⟩ := hdp last g d1 d2 hd
      have i1 := Measure.isProbabilityMeasure_map (μ := M d1) hp.aemeasurable
      have i2 := Measure.isProbabilityMeasure_map (μ := M d2) hp.aemeasurable
      exact ⟨C64_reject histogramSize lo hi epsilon delta useOriginal (Mech.Indist.map k1 hp) _ _ hf0 hf1,
        C64_reject histogramSize lo hi epsilon delta useOriginal (Mech.Indist.map k2 hp) _ _ hf0 hf1⟩) g
  exact C76_false_alarm_partial _ cfg hf0.le g h1 h2

lemma take_ofFn {X' : Type} {n k : ℕ} (hk : k ≤ n) (z : Fin n → X') : (List.ofFn z).take k = List.ofFn fun i : Fin k => z (Fin.castLE hk i) := by
  refine List.ext_getElem (by simp [hk]) fun i h1 h2 => ?_
  simp

/-- **C76, hockey-stick tester**, for numbers of samples at which the tester keeps its failure probability (C65). -/
theorem C76_hockey_stick_partial {X' : Type} [MeasurableSpace X'] (t : HockeyStickTester X') (ht : t.MeasurableTraining)
    {generator : Option ℝ → Step G (D × D)} {sampler : D → U → ℕ → X} {M : D → Measure X} (hM : ∀ d, IsProbabilityMeasure (M d))
    (hs : IndependentDraws μ sampler M) {post : X → X'} (hp : Measurable post)
    (hdp : ∀ last g d1 d2, (generator last g).2 = .ok (d1, d2) → Indist (M d1) (M d2) t.epsilon t.delta ∧ Indist (M d2) (M d1) t.epsilon t.delta)
    (cfg : RunnerConfig) (hf0 : 0 < cfg.failureProbability) (hf1 : cfg.failureProbability ≤ 1) (m : ℕ)
    (hm : ((cfg.numSamples.toNat - cfg.numSamples.toNat / 2 : ℕ) : ℝ) = m * (Real.exp t.epsilon + 1)) (g : G) :
    (Measure.infinitePi fun _ : ℕ => μ).real ((countingRunner generator sampler post t.estimateLowerBound t.rejectProperty).Accused cfg g) ≤
      2 * cfg.maxNumTrials.toNat * cfg.failureProbability := by
  classical
  set n := cfg.numSamples.toNat with hn
  have hle : n / 2 ≤ n := Nat.div_le_self _ _
  set cls : (Fin n → X') × (Fin n → X') → X' → Bool := fun z => t.train ((List.ofFn z.1).take (n / 2)) ((List.ofFn z.2).take (n / 2)) with hcls
  have hcm : ∀ {f : (Fin n → X') × (Fin n → X') → X'}, Measurable f → Measurable fun z => cls z (f z) := by
    intro f hf
    have : (fun z => cls z (f z)) = (fun w : ((Fin (n / 2) → X') × (Fin (n / 2) → X')) × X' => t.train (List.ofFn w.1.1) (List.ofFn w.1.2) w.2) ∘
        fun z => ((fun i => z.1 (Fin.castLE hle i), fun i => z.2 (Fin.castLE hle i)), f z) := by
      funext z
      simp only [hcls, take_ofFn hle, Function.comp]
    rw [this]
    refine (ht (n / 2) (n / 2)).comp (Measurable.prodMk (Measurable.prodMk ?_ ?_) hf)
    · exact measurable_pi_iff.2 fun i => (measurable_pi_apply _).comp measurable_fst
    · exact measurable_pi_iff.2 fun i => (measurable_pi_apply _).comp measurable_snd
  set b : (Fin n → X') × (Fin n → X') → (Fin n → Bool) × (Fin n → Bool) := fun z => (fun i => cls z (z.1 i), fun i => cls z (z.2 i)) with hb
  have hbm : Measurable b := (measurable_pi_iff.2 fun i => hcm ((measurable_pi_apply i).comp measurable_fst)).prodMk
    (measurable_pi_iff.2 fun i => hcm ((measurable_pi_apply i).comp measurable_snd))
  have hacc : ∀ z : (Fin n → X') × (Fin n → X'), HockeyStickTester.accuracy (cls z) (t.inputs ((List.ofFn z.1).drop (n / 2)) ((List.ofFn z.2).drop (n / 2))) =
      HockeyStickTester.accuracy id ((HockeyStickTester.mk t.epsilon t.delta fun _ _ => id).inputs ((List.ofFn (b z).1).drop (n / 2))
        ((List.ofFn (b z).2).drop (n / 2))) := by
    intro z
    have e1 : List.ofFn (b z).1 = (List.ofFn z.1).map (cls z) := by rw [List.map_ofFn]; rfl
    have e2 : List.ofFn (b z).2 = (List.ofFn z.2).map (cls z) := by rw [List.map_ofFn]; rfl
    have e3 : (HockeyStickTester.mk t.epsilon t.delta fun _ _ => id).inputs ((List.ofFn (b z).1).drop (n / 2)) ((List.ofFn (b z).2).drop (n / 2)) =
        (t.inputs ((List.ofFn z.1).drop (n / 2)) ((List.ofFn z.2).drop (n / 2))).map fun e => (cls z e.1, e.2) := by
      rw [e1, e2]
      unfold HockeyStickTester.inputs HockeyStickTester.cutoff
      simp only [List.map_append, List.map_map, List.length_drop, List.length_map, List.length_ofFn, ← List.map_drop, ← List.map_take]
      rfl
    rw [e3]
    unfold HockeyStickTester.accuracy
    rw [List.length_map, List.countP_map]
    rfl
  have hlen : ∀ z z' : (Fin n → X') × (Fin n → X'), (t.inputs ((List.ofFn z.1).drop (n / 2)) ((List.ofFn z.2).drop (n / 2))).length =
      (t.inputs ((List.ofFn z'.1).drop (n / 2)) ((List.ofFn z'.2).drop (n / 2))).length := by
    intro z z'
    unfold HockeyStickTester.inputs
    simp only [List.length_append, List.length_map, List.length_take, List.length_drop, List.length_ofFn]
  have hest : ∀ z z' : (Fin n → X') × (Fin n → X'), b z = b z' → t.estimateLowerBound (List.ofFn z.1) (List.ofFn z.2) cfg.failureProbability =
      t.estimateLowerBound (List.ofFn z'.1) (List.ofFn z'.2) cfg.failureProbability := by
    intro z z' h
    unfold HockeyStickTester.estimateLowerBound Testers.split
    simp only [List.length_ofFn]
    by_cases h1 : n = 1
    · simp only [if_pos h1]
    · simp only [if_neg h1]
      unfold HockeyStickTester.divergenceOnSamples
      have k := hacc z
      rw [h, ← hacc z'] at k
      simp only [hcls] at k
      simp only [hlen z z', List.length_drop, List.length_ofFn]
      rw [k]
  obtain ⟨h1, h2⟩ := counting_false_alarm (generator := generator) (cfg := cfg) hs hM hp (b := b) hbm
    (est := t.estimateLowerBound) (rej := t.rejectProperty) hest
    (fun last g d1 d2 hd => by
      obtain ⟨k1, k2⟩ := hdp last g d1 d2 hd
      have i1 := Measure.isProbabilityMeasure_map (μ := M d1) hp.aemeasurable
      have i2 := Measure.isProbabilityMeasure_map (μ := M d2) hp.aemeasurable
      exact ⟨C65_reject_partial t ht (Mech.Indist.map k1 hp) _ m hm hf0 hf1, C65_reject_partial t ht (Mech.Indist.map k2 hp) _ m hm hf0 hf1⟩) g
  exact C76_false_alarm_partial _ cfg hf0.le g h1 h2

/-- If the random bits are independent bits of law `P`, a sample computed from each of them is an independent draw. -/
lemma draws_of_bits {X Y : Type} [MeasurableSpace X] [MeasurableSpace Y] (P : Measure Y) [IsProbabilityMeasure P] {f : D → Y → X}
    (hf : ∀ d, Measurable (f d)) : IndependentDraws (Measure.infinitePi fun _ : ℕ => P) (fun d u i => f d (u i)) (fun d => P.map (f d)) := by
  intro d n
  have hm : Measurable fun (u : ℕ → Y) (i : Fin n) => f d (u i) := measurable_pi_iff.2 fun i => (hf d).comp (measurable_pi_apply _)
  have := Measure.isProbabilityMeasure_map (μ := P) (hf d).aemeasurable
  refine ⟨hm, (Measure.pi_eq fun t ht => ?_).symm⟩
  classical
  rw [Measure.map_apply hm (MeasurableSet.univ_pi ht)]
  have e : (fun (u : ℕ → Y) (i : Fin n) => f d (u i)) ⁻¹' Set.univ.pi t =
      Set.pi (Finset.range n : Set ℕ) fun i => if h : i < n then f d ⁻¹' t ⟨i, h⟩ else Set.univ := by
    ext u
    simp only [Set.mem_preimage, Set.mem_pi, Set.mem_univ, true_implies, Finset.mem_coe, Finset.mem_range]
    refine ⟨fun h i hi => ?_, fun h i => ?_⟩
    · rw [dif_pos hi]
      exact h ⟨i, hi⟩
    · have := h i i.2
      rwa [dif_pos i.2] at this
  rw [e, Measure.infinitePi_pi]
  · rw [Finset.prod_range]
    refine Finset.prod_congr rfl fun i _ => ?_
    rw [dif_pos i.2, Measure.map_apply (hf d) (ht i)]
  · intro i hi
    rw [dif_pos (Finset.mem_range.1 hi)]
    exact hf d (ht _)

/-- A fair coin. -/
noncomputable def fairCoin : Measure Bool := ENNReal.ofReal (1 / 2) • Measure.dirac false + ENNReal.ofReal (1 / 2) • Measure.dirac true

instance : IsProbabilityMeasure fairCoin := ⟨by
  unfold fairCoin
  rw [Measure.add_apply, Measure.smul_apply, Measure.smul_apply, measure_univ, measure_univ, smul_eq_mul, mul_one, ← ENNReal.ofReal_add] <;> norm_num⟩

lemma fairCoin_singleton (b : Bool) : fairCoin {b} = ENNReal.ofReal (1 / 2) := by
  unfold fairCoin
  rw [Measure.add_apply, Measure.smul_apply, Measure.smul_apply, Measure.dirac_apply, Measure.dirac_apply]
  cases b <;> simp

/-- A mechanism that ignores its data and tosses a coin. -/
def coinSampler (_ : ℝ) (u : ℕ → Bool) (i : ℕ) : ℤ := if u i then 1 else 0

/-- Always the data sets 0 and 1. -/
def constantGenerator : Option ℝ → Step Unit (ℝ × ℝ) := constantDatasetGenerator (0, 1)

/-- **C76, violated by the code.** A mechanism that ignores its data is `(0, 0)`-differentially private. Tested with the histogram tester for
this guarantee, it is accused with a probability as close to one as one likes if there are enough samples and trials, whatever the failure
probability that the result reports: the failure probability is not divided by the number of trials. -/
theorem C76_trials_violated (useOriginal : Bool) {fp c : ℝ} (hf0 : 0 < fp) (hc : c < 1) :
    ∃ M : ℝ → Measure ℤ, (∀ d, IsProbabilityMeasure (M d)) ∧ IndependentDraws (Measure.infinitePi fun _ : ℕ => fairCoin) coinSampler M ∧
    (∀ d d', Indist (M d) (M d') 0 0) ∧ ∃ n T : ℤ, c < (Measure.infinitePi fun _ : ℕ => Measure.infinitePi fun _ : ℕ => fairCoin).real
      ((countingRunner constantGenerator coinSampler id (discreteTester 2 0 0 useOriginal).estimateLowerBound
        (discreteTester 2 0 0 useOriginal).rejectProperty).Accused ⟨T, fp, n⟩ ()) := by
  classical
  have hfm : Measurable fun b : Bool => if b then (1 : ℤ) else 0 := measurable_of_finite _
  refine ⟨fun _ => fairCoin.map fun b : Bool => if b then (1 : ℤ) else 0, fun _ => Measure.isProbabilityMeasure_map hfm.aemeasurable,
    draws_of_bits (D := ℝ) fairCoin (f := fun _ b => if b then (1 : ℤ) else 0) (fun _ => hfm), fun d d' A _ => by simp, ?_⟩
  obtain ⟨N, hN⟩ := C64_detects 0 useOriginal (delta := 0) one_pos hf0
  obtain ⟨n, hn⟩ : ∃ n, n = N + 1 := ⟨_, rfl⟩
  obtain ⟨b0, hb0, hrej0⟩ := hN n (by omega)
  set μ : Measure (ℕ → Bool) := Measure.infinitePi fun _ : ℕ => fairCoin with hμ
  set A : Bool → Set (ℕ → Bool) := fun b => Set.pi (Finset.range n : Set ℕ) fun _ => {b} with hA
  have hAm : ∀ b, MeasurableSet (A b) := fun b => MeasurableSet.pi (Finset.countable_toSet _) fun _ _ => MeasurableSet.singleton _
  have hAμ : ∀ b, μ (A b) = ENNReal.ofReal (1 / 2) ^ n := fun b => by
    rw [hμ, hA, Measure.infinitePi_pi _ (fun _ _ => MeasurableSet.singleton _), Finset.prod_const, Finset.card_range, fairCoin_singleton]
  set R : Set ((ℕ → Bool) × (ℕ → Bool)) := A false ×ˢ A true with hR
  have hRm : MeasurableSet R := (hAm _).prod (hAm _)
  have hRμ : (μ.prod μ) R ≠ 0 := by
    rw [hR, Measure.prod_prod, hAμ, hAμ]
    simp
  set q := (μ.prod μ) Rᶜ with hq
  have hq1 : q < 1 := by
    rw [hq, prob_compl_eq_one_sub hRm]
    exact ENNReal.sub_lt_self ENNReal.one_ne_top one_ne_zero hRμ
  set p := countingRunner constantGenerator coinSampler id (discreteTester 2 0 0 useOriginal).estimateLowerBound
    (discreteTester 2 0 0 useOriginal).rejectProperty with hp
  -- no pair of samples in `R` up to trial `T`
  set B : ℕ → Set (ℕ → ℕ → Bool) := fun T => {ω | ∀ t < T, (ω (2 * t), ω (2 * t + 1)) ∉ R} with hB
  have hBm : ∀ T, MeasurableSet (B T) := fun T => by
    have : B T = ⋂ t ∈ Finset.range T, (fun ω : ℕ → ℕ → Bool => (ω (2 * t), ω (2 * t + 1))) ⁻¹' Rᶜ := by
      ext ω
      simp [hB]
    rw [this]
    exact Finset.measurableSet_biInter _ fun t _ => ((measurable_pi_apply _).prodMk (measurable_pi_apply _)) hRm.compl
  have hBμ : ∀ T, (Measure.infinitePi fun _ : ℕ => μ) (B T) = q ^ T := by
    intro T
    induction T with
    | zero =>
      have : B 0 = Set.univ := by ext ω; simp [hB]
      rw [this, measure_univ, pow_zero]
    | succ T ih =>
      rw [stream_apply μ (hBm _)]
      have e : ∀ u, (Measure.infinitePi fun _ : ℕ => μ) {ω | consTwo (u, ω) ∈ B (T + 1)} = Rᶜ.indicator (fun _ => q ^ T) u := by
        intro u
        by_cases hu : u ∈ R
        · rw [Set.indicator_of_notMem (by simpa using hu)]
          have : {ω | consTwo (u, ω) ∈ B (T + 1)} = ∅ := by
            ext ω
            simp only [hB, Set.mem_ofPred_eq, Set.mem_empty_iff_false, iff_false]
            exact fun h => h 0 (by omega) hu
          rw [this, measure_empty]
        · rw [Set.indicator_of_mem (by simpa using hu), ← ih]
          congr 1
          ext ω
          simp only [hB, Set.mem_ofPred_eq]
          refine ⟨fun h t ht => h (t + 1) (by omega), fun h t ht => ?_⟩
          cases t with
          | zero => exact hu
          | succ t => exact h t (by omega)
      simp_rw [e]
      rw [lintegral_indicator_const hRm.compl, pow_succ]
  have hlist : ∀ (b : Bool) {u : ℕ → Bool}, u ∈ A b → (List.ofFn fun i : Fin n => coinSampler 0 u i) = List.replicate n (if b then 1 else 0) := by
    intro b u hu
    refine List.ext_getElem (by simp) fun i h1 h2 => ?_
    have : u i = b := hu i (by
      have := h1
      rw [List.length_ofFn] at this
      simpa using this)
    simp [coinSampler, this]
  have hest : ∀ l1 l2 : List ℤ, l1.length = n → l2.length = n → (∀ s ∈ l1, s = 0 ∨ s = 1) → (∀ s ∈ l2, s = 0 ∨ s = 1) →
      ∃ e, (discreteTester 2 0 0 useOriginal).estimateLowerBound l1 l2 fp = .ok e := by
    intro l1 l2 h1 h2 k1 k2
    have one : ∀ l : List ℤ, l.length = n → (∀ s ∈ l, s = 0 ∨ s = 1) → ∃ q, estimateDiscrete 2 l = .ok q := by
      intro l h k
      refine ⟨(List.range (2 : ℤ).toNat).map fun i : ℕ => (l.count (i : ℤ) : ℝ) / l.length, ?_⟩
      unfold estimateDiscrete
      rw [if_neg (by omega), if_neg]
      rintro (⟨s, hs, h'⟩ | ⟨s, hs, h'⟩) <;> rcases k s hs with rfl | rfl <;> norm_num at h'
    obtain ⟨q1, e1⟩ := one l1 h1 k1
    obtain ⟨q2, e2⟩ := one l2 h2 k2
    unfold HistogramTester.estimateLowerBound
    simp only [discreteTester, e1, e2, if_neg hf0.ne']
    exact ⟨_, rfl⟩
  have hbit : ∀ (d : ℝ) (u : ℕ → Bool), ∀ s ∈ List.ofFn (fun i : Fin n => coinSampler d u i), s = 0 ∨ s = 1 := by
    intro d u s hs
    obtain ⟨i, rfl⟩ := (List.mem_ofFn' _ _).1 hs
    unfold coinSampler
    cases u i <;> simp
  have hcover : ∀ (T : ℕ) (T' : ℤ) (last : Option ℝ) (ω : ℕ → ℕ → Bool), ω ∈ acc p ⟨T', fp, n⟩ T last () ∨ ω ∈ B T := by
    intro T T'
    induction T with
    | zero => intro last ω; right; simp [hB]
    | succ T ih =>
      intro last ω
      obtain ⟨e12, h12⟩ := hest (List.ofFn fun i : Fin n => coinSampler 0 (ω 0) i) (List.ofFn fun i : Fin n => coinSampler 1 (ω 1) i)
        (by simp) (by simp) (hbit _ _) (hbit _ _)
      obtain ⟨e21, h21⟩ := hest (List.ofFn fun i : Fin n => coinSampler 1 (ω 1) i) (List.ofFn fun i : Fin n => coinSampler 0 (ω 0) i)
        (by simp) (by simp) (hbit _ _) (hbit _ _)
      have ho : outcome p ⟨T', fp, n⟩ (0, 1) (ω 0, ω 1) = .ok (max e12 e21) :=
        (outcome_ok _ _).2 ⟨_, _, _, _, e12, e21, rfl, rfl, rfl, rfl, by simpa [hp, countingRunner] using h12,
          by simpa [hp, countingRunner] using h21, rfl⟩
      by_cases hr : p.rejectProperty (max e12 e21) = true
      · exact .inl ⟨(0, 1), _, rfl, ho, .inl hr⟩
      · rcases ih (some (max e12 e21)) (fun i => ω (i + 2)) with h | h
        · exact .inl ⟨(0, 1), _, rfl, ho, .inr h⟩
        · right
          intro t ht
          cases t with
          | zero =>
            rintro ⟨k1, k2⟩
            refine hr ?_
            have j1 := hlist false k1
            have j2 := hlist true k2
            have j2' : (List.ofFn fun i : Fin n => coinSampler 1 (ω 1) i) = List.replicate n 1 := j2
            rw [show (List.ofFn fun i : Fin n => coinSampler 0 (ω 0) i) = List.replicate n 0 from j1, j2', hb0] at h12
            injection h12 with h12
            simp only [hp, countingRunner, decide_eq_true_eq]
            refine le_trans (hrej0 : (0 : ℝ) ≤ b0) (h12 ▸ le_max_left _ _)
          | succ t => exact h t (by omega)
  have hqr : q.toReal < 1 := by
    have := (ENNReal.toReal_lt_toReal (ne_top_of_lt hq1) ENNReal.one_ne_top).2 hq1
    simpa using this
  obtain ⟨T, hT⟩ := exists_pow_lt_of_lt_one (show 0 < 1 - c by linarith) hqr
  refine ⟨n, T, ?_⟩
  rw [accused_eq]
  have hU : (1 : ℝ) ≤ (Measure.infinitePi fun _ : ℕ => μ).real (acc p ⟨T, fp, n⟩ T none ()) + (Measure.infinitePi fun _ : ℕ => μ).real (B T) := by
    have : (Set.univ : Set (ℕ → ℕ → Bool)) ⊆ acc p ⟨T, fp, n⟩ T none () ∪ B T := fun ω _ => hcover T T none ω
    calc (1 : ℝ) = (Measure.infinitePi fun _ : ℕ => μ).real Set.univ := by simp
      _ ≤ _ := measureReal_mono this
      _ ≤ _ := measureReal_union_le _ _
  have hBr : (Measure.infinitePi fun _ : ℕ => μ).real (B T) = q.toReal ^ T := by
    rw [measureReal_def, hBμ, ENNReal.toReal_pow]
  rw [hBr] at hU
  simp only [Int.toNat_natCast]
  linarith

/-- A mechanism that releases its data or `0`, each with probability one half, is `(0, 1/2)`-differentially private. -/
lemma half_indist {X : Type} [MeasurableSpace X] (z : X) (x y : X) :
    Indist (fairCoin.map fun b : Bool => if b then x else z) (fairCoin.map fun b : Bool => if b then y else z) 0 (1 / 2) := by
  intro A hA
  have key : ∀ w : X, (fairCoin.map fun b : Bool => if b then w else z).real A =
      1 / 2 * (Measure.dirac z).real A + 1 / 2 * (Measure.dirac w).real A := by
    intro w
    have hm : Measurable fun b : Bool => if b then w else z := measurable_of_finite _
    rw [measureReal_def, Measure.map_apply hm hA]
    unfold fairCoin
    rw [Measure.add_apply, Measure.smul_apply, Measure.smul_apply, Measure.dirac_apply, Measure.dirac_apply, measureReal_def, measureReal_def,
      Measure.dirac_apply' _ hA, Measure.dirac_apply' _ hA]
    by_cases hz : z ∈ A <;> by_cases hw : w ∈ A <;> simp [hz, hw, ENNReal.toReal_add]
  rw [key, key, Real.exp_zero]
  have := measureReal_le_one (μ := Measure.dirac x) (s := A)
  have := measureReal_nonneg (μ := Measure.dirac y) (s := A)
  linarith

example : (Measure.infinitePi fun _ : ℕ => Measure.infinitePi fun _ : ℕ => fairCoin).real
    ((countingRunner constantGenerator (fun (d : ℝ) (u : ℕ → Bool) i => if u i then ⌊d⌋ else 0) id
      (discreteTester 2 0 (1 / 2) false).estimateLowerBound (discreteTester 2 0 (1 / 2) false).rejectProperty).Accused ⟨10, 0.001, 500⟩ ()) ≤ 0.02 := by
  have := C76_histogram_discrete_partial 2 0 (1 / 2) false (μ := Measure.infinitePi fun _ : ℕ => fairCoin) (generator := constantGenerator)
    (sampler := fun (d : ℝ) (u : ℕ → Bool) i => if u i then ⌊d⌋ else 0) (fun d => Measure.isProbabilityMeasure_map (measurable_of_finite _).aemeasurable)
    (draws_of_bits (D := ℝ) fairCoin (f := fun d b => if b then ⌊d⌋ else 0) (fun _ => measurable_of_finite _))
    (fun _ _ d1 d2 _ => ⟨half_indist 0 ⌊d1⌋ ⌊d2⌋, half_indist 0 ⌊d2⌋ ⌊d1⌋⟩) ⟨10, 0.001, 500⟩ (by norm_num) (by norm_num) ()
  refine this.trans (le_of_eq ?_)
  rw [show (10 : ℤ).toNat = 10 from rfl]
  norm_num

example : (Measure.infinitePi fun _ : ℕ => Measure.infinitePi fun _ : ℕ => fairCoin).real
    ((countingRunner constantGenerator (fun (d : ℝ) (u : ℕ → Bool) i => if u i then d else 0) (fun x => x / 2)
      (continuousTester 2 0 1 0 (1 / 2) false).estimateLowerBound (continuousTester 2 0 1 0 (1 / 2) false).rejectProperty).Accused
        ⟨10, 0.001, 500⟩ ()) ≤ 0.02 := by
  have := C76_histogram_continuous_partial 2 0 1 0 (1 / 2) false (μ := Measure.infinitePi fun _ : ℕ => fairCoin) (generator := constantGenerator)
    (sampler := fun (d : ℝ) (u : ℕ → Bool) i => if u i then d else 0) (fun d => Measure.isProbabilityMeasure_map (measurable_of_finite _).aemeasurable)
    (draws_of_bits (D := ℝ) fairCoin (f := fun d b => if b then d else 0) (fun _ => measurable_of_finite _)) (measurable_id.div_const 2)
    (fun _ _ d1 d2 _ => ⟨half_indist 0 d1 d2, half_indist 0 d2 d1⟩) ⟨10, 0.001, 500⟩ (by norm_num) (by norm_num) ()
  refine this.trans (le_of_eq ?_)
  rw [show (10 : ℤ).toNat = 10 from rfl]
  norm_num

example : (Measure.infinitePi fun _ : ℕ => Measure.infinitePi fun _ : ℕ => fairCoin).real
    ((countingRunner constantGenerator (fun (d : ℝ) (u : ℕ → Bool) i => if u i then d else 0) id
      (HockeyStickTester.mk 0 (1 / 2) fun _ _ s => decide (s < (3 : ℝ))).estimateLowerBound
      (HockeyStickTester.mk 0 (1 / 2) fun _ _ s => decide (s < (3 : ℝ))).rejectProperty).Accused ⟨10, 0.001, 400⟩ ()) ≤ 0.02 := by
  have := C76_hockey_stick_partial (HockeyStickTester.mk 0 (1 / 2) fun _ _ s => decide (s < (3 : ℝ))) (fun a b => measurable_to_bool (by
      have : (fun z : ((Fin a → ℝ) × (Fin b → ℝ)) × ℝ => decide (z.2 < (3 : ℝ))) ⁻¹' {true} = {z | z.2 < 3} := by ext z; simp
      rw [this]
      exact measurableSet_lt measurable_snd measurable_const)) (μ := Measure.infinitePi fun _ : ℕ => fairCoin) (generator := constantGenerator)
    (sampler := fun (d : ℝ) (u : ℕ → Bool) i => if u i then d else 0) (fun d => Measure.isProbabilityMeasure_map (measurable_of_finite _).aemeasurable)
    (draws_of_bits (D := ℝ) fairCoin (f := fun d b => if b then d else 0) (fun _ => measurable_of_finite _)) measurable_id
    (fun _ _ d1 d2 _ => ⟨half_indist 0 d1 d2, half_indist 0 d2 d1⟩) ⟨10, 0.001, 400⟩ (by norm_num) (by norm_num) 100 (by
      rw [show (400 : ℤ).toNat = 400 from rfl]
      norm_num) ()
  refine this.trans (le_of_eq ?_)
  rw [show (10 : ℤ).toNat = 10 from rfl]
  norm_num

end Verif.Props
