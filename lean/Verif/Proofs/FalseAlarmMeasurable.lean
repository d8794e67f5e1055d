import Verif.Proofs.FalseAlarmSampling
import Verif.Spec.MeasurableGenerator

/-! # False alarms of the testers whose estimate is a measurable function of the samples -/

namespace Verif.TestRunner
open Verif.Spec Testers MeasureTheory
open scoped ENNReal

section acc
variable {U G D S S' : Type} [MeasurableSpace U] (p : SampledRunner U G D S S') (cfg : RunnerConfig)

/-- One step of `acc`, given what the generator does. -/
def accStep (T : ℕ) (y : G × Except Err (D × D)) : Set (ℕ → U) :=
  {ω | ∃ d e, y.2 = .ok d ∧ outcome p cfg d (ω 0, ω 1) = .ok e ∧ (p.rejectProperty e = true ∨ (fun i => ω (i + 2)) ∈ acc p cfg T (some e) y.1)}

lemma measurable_acc' (hG : MeasurableGenerator p.generator) (hr : MeasurableSet {e : ℝ | p.rejectProperty e = true})
    (h : ∀ d, (∀ u e, outcome p cfg d u ≠ .ok e) ∨ ∃ f : U × U → ℝ, Measurable f ∧ ∀ u, outcome p cfg d u = .ok (f u)) (T : ℕ) :
    (∀ g, MeasurableSet {z : ℝ × (ℕ → U) | z.2 ∈ acc p cfg T (some z.1) g}) ∧ ∀ last g, MeasurableSet (acc p cfg T last g) := by
  have step : ∀ T, (∀ g, MeasurableSet {z : ℝ × (ℕ → U) | z.2 ∈ acc p cfg T (some z.1) g}) → ∀ y, MeasurableSet (accStep p cfg T y) := by
    rintro T ih ⟨g, _ | d⟩
    · convert MeasurableSet.empty
      ext ω
      simp [accStep]
    · rcases h d with h | ⟨f, hf, h⟩
      · convert MeasurableSet.empty
        ext ω
        simp only [accStep, Set.mem_ofPred_eq, Set.mem_empty_iff_false, iff_false]
        rintro ⟨d', e, h1, h2, -⟩
        injection h1 with h1
        exact h _ _ (h1 ▸ h2)
      · have hf' : Measurable fun ω : ℕ → U => f (ω 0, ω 1) := hf.comp ((measurable_pi_apply 0).prodMk (measurable_pi_apply 1))
        have ht : Measurable fun (ω : ℕ → U) (i : ℕ) => ω (i + 2) := measurable_pi_iff.2 fun i => measurable_pi_apply (i + 2)
        have e : accStep p cfg T (g, .ok d) = (fun ω : ℕ → U => f (ω 0, ω 1)) ⁻¹' {e : ℝ | p.rejectProperty e = true} ∪
            (fun ω : ℕ → U => (f (ω 0, ω 1), fun i => ω (i + 2))) ⁻¹' {z : ℝ × (ℕ → U) | z.2 ∈ acc p cfg T (some z.1) g} := by
          ext ω
          simp only [accStep, Set.mem_ofPred_eq, Set.mem_union, Set.mem_preimage]
          constructor
          · rintro ⟨d', e, h1, h2, h3⟩
            injection h1 with h1
            subst h1
            rw [h] at h2
            injection h2 with h2
            exact h2 ▸ h3
          · exact fun h3 => ⟨d, _, rfl, h _, h3⟩
        rw [e]
        exact (hf' hr).union ((hf'.prodMk ht) (ih g))
  have key : ∀ T, ∀ g, MeasurableSet {z : ℝ × (ℕ → U) | z.2 ∈ acc p cfg T (some z.1) g} := by
    intro T
    induction T with
    | zero => intro g; exact MeasurableSet.empty
    | succ T ih =>
      intro g
      obtain ⟨hc, hm⟩ := hG g
      have e : {z : ℝ × (ℕ → U) | z.2 ∈ acc p cfg (T + 1) (some z.1) g} =
          ⋃ y ∈ Set.range fun e : ℝ => p.generator (some e) g, {e : ℝ | p.generator (some e) g = y} ×ˢ accStep p cfg T y := by
        ext ⟨e, ω⟩
        simp only [Set.mem_iUnion, Set.mem_prod, Set.mem_ofPred_eq, Set.mem_range]
        constructor
        · exact fun h => ⟨_, ⟨e, rfl⟩, rfl, h⟩
        · rintro ⟨y, -, rfl, h⟩
          exact h
      rw [e]
      exact MeasurableSet.biUnion hc fun y _ => (hm y).prod (step T ih y)
  refine ⟨key T, fun last g => ?_⟩
  cases T with
  | zero => exact MeasurableSet.empty
  | succ T => exact step T (key T) (p.generator last g)

variable (μ : Measure U) [IsProbabilityMeasure μ]

lemma accused_le {b : ℝ} (hb : 0 ≤ b) (g : G) (hE : MeasurableSet (p.Accused cfg g))
    (h : ∀ last g d1 d2, (p.generator last g).2 = .ok (d1, d2) →
      (μ.prod μ).real (p.Rejects cfg d1 d2) ≤ b ∧ (μ.prod μ).real (p.Rejects cfg d2 d1) ≤ b) :
    (Measure.infinitePi fun _ : ℕ => μ).real (p.Accused cfg g) ≤ 2 * cfg.maxNumTrials.toNat * b := by
  rw [accused_eq] at hE ⊢
  have := acc_le p cfg μ (b := ENNReal.ofReal b) (fun last g d hd => by
    obtain ⟨h1, h2⟩ := h last g d.1 d.2 hd
    exact ⟨(ENNReal.le_ofReal_iff_toReal_le (measure_ne_top _ _) hb).2 h1, (ENNReal.le_ofReal_iff_toReal_le (measure_ne_top _ _) hb).2 h2⟩)
    cfg.maxNumTrials.toNat none g hE
  refine (ENNReal.toReal_mono (by finiteness) this).trans (le_of_eq ?_)
  simp [ENNReal.toReal_mul, ENNReal.toReal_ofReal hb]

end acc

variable {U G D X X' : Type} [MeasurableSpace U] [MeasurableSpace X] [MeasurableSpace X'] {μ : Measure U} [IsProbabilityMeasure μ]
  {generator : Option ℝ → Step G (D × D)} {sampler : D → U → ℕ → X} {post : X → X'} {est : List X' → List X' → ℝ → Except Err ℝ}
  {rej : ℝ → Prop} {M : D → Measure X} {cfg : RunnerConfig}

/-- The bound for testers whose estimate is a measurable function of the samples. -/
lemma measurable_false_alarm (hG : MeasurableGenerator generator) (h : IndependentDraws μ sampler M) (hM : ∀ d, IsProbabilityMeasure (M d))
    (hp : Measurable post) (hr : MeasurableSet {e : ℝ | rej e})
    (hest : (∀ (z : (Fin cfg.numSamples.toNat → X') × (Fin cfg.numSamples.toNat → X')) (e : ℝ),
        est (List.ofFn z.1) (List.ofFn z.2) cfg.failureProbability ≠ .ok e) ∨
      ∃ f : (Fin cfg.numSamples.toNat → X') × (Fin cfg.numSamples.toNat → X') → ℝ, Measurable f ∧
        ∀ z, est (List.ofFn z.1) (List.ofFn z.2) cfg.failureProbability = .ok (f z)) {b : ℝ} (hb : 0 ≤ b)
    (hrej : ∀ last g d1 d2, (generator last g).2 = .ok (d1, d2) →
      (independentSamples ((M d1).map post) ((M d2).map post) cfg.numSamples.toNat cfg.numSamples.toNat).real
        {z | ∃ e, est (List.ofFn z.1) (List.ofFn z.2) cfg.failureProbability = .ok e ∧ rej e} ≤ b ∧
      (independentSamples ((M d2).map post) ((M d1).map post) cfg.numSamples.toNat cfg.numSamples.toNat).real
        {z | ∃ e, est (List.ofFn z.1) (List.ofFn z.2) cfg.failureProbability = .ok e ∧ rej e} ≤ b) (g : G) :
    (Measure.infinitePi fun _ : ℕ => μ).real ((countingRunner generator sampler post est rej).Accused cfg g) ≤
      2 * cfg.maxNumTrials.toNat * b := by
  classical
  refine accused_le _ cfg μ hb g ?_ ?_
  · rw [accused_eq]
    refine (measurable_acc' _ cfg hG (by simpa [countingRunner] using hr) (fun d => ?_) _).2 _ _
    have ho : ∀ u, outcome (countingRunner generator sampler post est rej) cfg d u = (do
        let e12 ← est (List.ofFn (processed sampler post cfg.numSamples.toNat d u).1) (List.ofFn (processed sampler post cfg.numSamples.toNat d u).2) cfg.failureProbability
        let e21 ← est (List.ofFn (processed sampler post cfg.numSamples.toNat d u).2) (List.ofFn (processed sampler post cfg.numSamples.toNat d u).1) cfg.failureProbability
        .ok (max e12 e21)) := fun u => by
      simp only [outcome, countingRunner, processed]
      change (do
        let e12 ← est (List.map post (List.ofFn _)) (List.map post (List.ofFn _)) _
        let e21 ← est (List.map post (List.ofFn _)) (List.map post (List.ofFn _)) _
        Except.ok (max e12 e21)) = _
      simp only [List.map_ofFn]
      rfl
    rcases hest with hest | ⟨f, hf, hest⟩
    · left
      intro u e
      rw [ho]
      intro h
      obtain ⟨a, h1, -⟩ := bind_ok.1 h
      exact hest _ _ h1
    · right
      have hm := measurable_processed h hp cfg.numSamples.toNat d
      refine ⟨fun u => max (f (processed sampler post cfg.numSamples.toNat d u)) (f (processed sampler post cfg.numSamples.toNat d u).swap),
        (hf.comp hm).max ((hf.comp measurable_swap).comp hm), fun u => ?_⟩
      have h2 := hest (processed sampler post cfg.numSamples.toNat d u).swap
      simp only [Prod.fst_swap, Prod.snd_swap] at h2
      rw [ho, hest (processed sampler post cfg.numSamples.toNat d u), h2]
      rfl
  · have key : ∀ d1 d2, (independentSamples ((M d1).map post) ((M d2).map post) cfg.numSamples.toNat cfg.numSamples.toNat).real
        {z | ∃ e, est (List.ofFn z.1) (List.ofFn z.2) cfg.failureProbability = .ok e ∧ rej e} ≤ b →
        (μ.prod μ).real ((countingRunner generator sampler post est rej).Rejects cfg d1 d2) ≤ b := by
      intro d1 d2 hle
      refine le_trans ?_ hle
      rw [rejects_eq, ← map_processed h hM hp _ (d1, d2)]
      have : IsProbabilityMeasure ((μ.prod μ).map (processed sampler post cfg.numSamples.toNat (d1, d2))) :=
        Measure.isProbabilityMeasure_map (measurable_processed h hp _ _).aemeasurable
      exact ENNReal.toReal_mono (measure_ne_top _ _) (Measure.le_map_apply (measurable_processed h hp _ _).aemeasurable _)
    exact fun last g d1 d2 hd => ⟨key _ _ (hrej last g d1 d2 hd).1, key _ _ (hrej last g d1 d2 hd).2⟩

end Verif.TestRunner
