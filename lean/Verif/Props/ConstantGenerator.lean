import Verif.Props.FalseAlarm

/-!
# C51, C76: tests of one pair of data sets
-/

namespace Verif.Props
open Verif.Spec Verif.TestRunner Testers MeasureTheory

variable {σ D S S' : Type}

/-- With a constant generator the test depends on nothing but the mechanism's behaviour on the given pair: two mechanisms that do the same on
these two data sets get the same result and leave the same state. -/
theorem C51_constant_generator {p p' : RunnerParts σ D S S'} {pair : D × D} (hg : p.generator = constantDatasetGenerator pair)
    (hg' : p'.generator = constantDatasetGenerator pair) (h1 : p.mechanism pair.1 = p'.mechanism pair.1)
    (h2 : p.mechanism pair.2 = p'.mechanism pair.2) (hpost : p.postprocess = p'.postprocess)
    (hest : p.estimateLowerBound = p'.estimateLowerBound) (hrej : p.rejectProperty = p'.rejectProperty) (cfg : RunnerConfig) (s : σ) :
    testPrivacy p cfg s = testPrivacy p' cfg s := by
  have ht : ∀ last, trial p cfg last = trial p' cfg last := by
    intro last
    funext s
    simp only [trial, Step.andThen, hg, hg', constantDatasetGenerator, h1, h2, hpost, hest]
  have hl : ∀ fuel t last es, loop p cfg fuel t last es = loop p' cfg fuel t last es := by
    intro fuel
    induction fuel with
    | zero => intro t last es; rfl
    | succ fuel ih => intro t last es; simp only [loop, ht, hrej, ih]
  exact congrFun (hl _ _ _ _) s

/-- `RunnerParts` with a constant generator, mechanisms that differ on other data sets only. -/
example : ∃ p p' : RunnerParts Unit ℝ ℝ ℝ, p.mechanism ≠ p'.mechanism ∧ p.generator = constantDatasetGenerator (0, 1) ∧
    p'.generator = constantDatasetGenerator (0, 1) ∧ p.mechanism 0 = p'.mechanism 0 ∧ p.mechanism 1 = p'.mechanism 1 ∧
    p.postprocess = p'.postprocess ∧ p.estimateLowerBound = p'.estimateLowerBound ∧ p.rejectProperty = p'.rejectProperty := by
  refine ⟨⟨constantDatasetGenerator (0, 1), fun d _ s => (s, .ok d), .ok, fun x y _ s => (s, .ok (x - y)), fun _ => false⟩,
    ⟨constantDatasetGenerator (0, 1), fun d _ s => (s, .ok (d * d)), .ok, fun x y _ s => (s, .ok (x - y)), fun _ => false⟩,
    fun h => ?_, rfl, rfl, by simp, by simp, rfl, rfl, rfl⟩
  have := congrFun (congrFun (congrFun h 2) 0) ()
  norm_num at this

variable {U G : Type} [MeasurableSpace U] {μ : Measure U} [IsProbabilityMeasure μ]

/-- **C76 for a constant generator**: if the mechanism is `(ε, δ)`-differentially private on the given pair alone, a test with the histogram
tester accuses it with probability at most `2 * max_num_trials * failure_probability`. -/
theorem C76_constant_generator_partial (histogramSize : ℤ) (epsilon delta : ℝ) (useOriginal : Bool) {d1 d2 : D}
    {sampler : D → U → ℕ → ℤ} {M : D → Measure ℤ} (hM : ∀ d, IsProbabilityMeasure (M d)) (hs : IndependentDraws μ sampler M)
    (h1 : Indist (M d1) (M d2) epsilon delta) (h2 : Indist (M d2) (M d1) epsilon delta)
    (cfg : RunnerConfig) (hf0 : 0 < cfg.failureProbability) (hf1 : cfg.failureProbability ≤ 1) (g : G) :
    (Measure.infinitePi fun _ : ℕ => μ).real ((countingRunner (constantDatasetGenerator (d1, d2)) sampler id
      (discreteTester histogramSize epsilon delta useOriginal).estimateLowerBound
      (discreteTester histogramSize epsilon delta useOriginal).rejectProperty).Accused cfg g) ≤
      2 * cfg.maxNumTrials.toNat * cfg.failureProbability := by
  refine C76_histogram_discrete_partial histogramSize epsilon delta useOriginal hM hs (fun last g a b hd => ?_) cfg hf0 hf1 g
  cases hd
  exact ⟨h1, h2⟩

/-- A mechanism that releases its data with probability 1/2 is `(0, 1/2)`-differentially private: ten trials accuse it with probability at
most 0.02. -/
example : (Measure.infinitePi fun _ : ℕ => Measure.infinitePi fun _ : ℕ => fairCoin).real
    ((countingRunner (constantDatasetGenerator (0, 1)) (fun (d : ℝ) (u : ℕ → Bool) i => if u i then ⌊d⌋ else 0) id
      (discreteTester 2 0 (1 / 2) false).estimateLowerBound (discreteTester 2 0 (1 / 2) false).rejectProperty).Accused ⟨10, 0.001, 500⟩ ()) ≤ 0.02 := by
  have := C76_constant_generator_partial 2 0 (1 / 2) false (μ := Measure.infinitePi fun _ : ℕ => fairCoin) (d1 := (0 : ℝ)) (d2 := 1)
    (sampler := fun (d : ℝ) (u : ℕ → Bool) i => if u i then ⌊d⌋ else 0) (fun d => Measure.isProbabilityMeasure_map (measurable_of_finite _).aemeasurable)
    (draws_of_bits (D := ℝ) fairCoin (f := fun d b => if b then ⌊d⌋ else 0) (fun _ => measurable_of_finite _))
    (half_indist 0 ⌊0⌋ ⌊1⌋) (half_indist 0 ⌊1⌋ ⌊0⌋) ⟨10, 0.001, 500⟩ (by norm_num) (by norm_num) ()
  refine this.trans (le_of_eq ?_)
  rw [show (10 : ℤ).toNat = 10 from rfl]
  norm_num

end Verif.Props
