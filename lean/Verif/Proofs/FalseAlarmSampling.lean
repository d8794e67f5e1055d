import Verif.Proofs.FalseAlarm
import Verif.Proofs.HockeyStickTester
import Verif.Proofs.PldEventLaws
import Verif.Spec.Sampling

/-! # False alarms of the testers that count -/

namespace Verif.TestRunner
open Verif.Spec Testers MeasureTheory
open scoped ENNReal

section factor
variable {Z B : Type} [MeasurableSpace Z] [MeasurableSpace B] [Countable B] [DiscreteMeasurableSpace B]

/-- A function of a measurable quantity with countably many values has countably many values and measurable level sets. -/
lemma factor {b : Z → B} (hb : Measurable b) {f : Z → Except Err ℝ} (hf : ∀ z z', b z = b z' → f z = f z') :
    {e : ℝ | ∃ z, f z = .ok e}.Countable ∧ ∀ e : ℝ, MeasurableSet {z | f z = .ok e} := by
  classical
  constructor
  · rcases isEmpty_or_nonempty Z with hZ | ⟨⟨z0⟩⟩
    · convert Set.countable_empty (α := ℝ)
      ext e
      simp
    · set F : B → Except Err ℝ := fun β => if h : ∃ z, b z = β then f h.choose else f z0 with hF
      have hFb : ∀ z, F (b z) = f z := fun z => by
        have h : ∃ z', b z' = b z := ⟨z, rfl⟩
        rw [hF]
        dsimp only
        rw [dif_pos h]
        exact hf _ _ h.choose_spec
      have := (Set.countable_range F).preimage_of_injOn (f := fun e : ℝ => (.ok e : Except Err ℝ)) (fun a _ c _ h => by injection h)
      refine this.mono ?_
      rintro e ⟨z, hz⟩
      exact ⟨b z, (hFb z).trans hz⟩
  · intro e
    have : {z | f z = .ok e} = b ⁻¹' (b '' {z | f z = .ok e}) := by
      refine Set.Subset.antisymm (Set.subset_preimage_image _ _) ?_
      rintro z ⟨z', h1, h2⟩
      exact (hf _ _ h2).symm.trans h1
    rw [this]
    exact hb (MeasurableSet.of_discrete)

end factor

variable {U G D X X' : Type} [MeasurableSpace U] [MeasurableSpace X] [MeasurableSpace X'] {μ : Measure U} [IsProbabilityMeasure μ]
  {generator : Option ℝ → Step G (D × D)} {sampler : D → U → ℕ → X} {post : X → X'} {est : List X' → List X' → ℝ → Except Err ℝ}
  {rej : ℝ → Prop} {M : D → Measure X} {cfg : RunnerConfig}

/-- The post-processed samples. -/
def processed (sampler : D → U → ℕ → X) (post : X → X') (n : ℕ) (d : D × D) (u : U × U) : (Fin n → X') × (Fin n → X') :=
  (fun i => post (sampler d.1 u.1 i), fun i => post (sampler d.2 u.2 i))

lemma measurable_processed (h : IndependentDraws μ sampler M) (hp : Measurable post) (n : ℕ) (d : D × D) :
    Measurable (processed sampler post n d) := by
  have : ∀ d : D, Measurable fun u (i : Fin n) => post (sampler d u i) := fun d =>
    measurable_pi_iff.2 fun i => hp.comp ((measurable_pi_apply i).comp (h d n).1)
  exact ((this d.1).comp measurable_fst).prodMk ((this d.2).comp measurable_snd)

lemma map_processed (h : IndependentDraws μ sampler M) (hM : ∀ d, IsProbabilityMeasure (M d)) (hp : Measurable post) (n : ℕ) (d : D × D) :
    (μ.prod μ).map (processed sampler post n d) = independentSamples ((M d.1).map post) ((M d.2).map post) n n := by
  have h1 : ∀ d : D, Measurable fun u (i : Fin n) => post (sampler d u i) := fun d =>
    measurable_pi_iff.2 fun i => hp.comp ((measurable_pi_apply i).comp (h d n).1)
  have h2 : ∀ d : D, μ.map (fun u (i : Fin n) => post (sampler d u i)) = Measure.pi fun _ => (M d).map post := fun d => by
    have := Measure.isProbabilityMeasure_map (μ := M d) hp.aemeasurable
    rw [← Measure.pi_map_pi (μ := fun _ : Fin n => M d) (f := fun _ => post) (fun _ => hp.aemeasurable), ← (h d n).2,
      Measure.map_map (g := fun (x : Fin n → X) i => post (x i)) (measurable_pi_iff.2 fun i => hp.comp (measurable_pi_apply i)) (h d n).1]
    rfl
  have e : processed sampler post n d = Prod.map (fun u (i : Fin n) => post (sampler d.1 u i)) (fun u (i : Fin n) => post (sampler d.2 u i)) := rfl
  have i1 : IsProbabilityMeasure (μ.map fun u (i : Fin n) => post (sampler d.1 u i)) := Measure.isProbabilityMeasure_map (h1 d.1).aemeasurable
  have i2 : IsProbabilityMeasure (μ.map fun u (i : Fin n) => post (sampler d.2 u i)) := Measure.isProbabilityMeasure_map (h1 d.2).aemeasurable
  rw [e, ← Measure.map_prod_map _ _ (h1 d.1) (h1 d.2), h2, h2]
  rfl

omit [MeasurableSpace U] [MeasurableSpace X] [MeasurableSpace X'] in
lemma rejects_eq (d1 d2 : D) : (countingRunner generator sampler post est rej).Rejects cfg d1 d2 =
    processed sampler post cfg.numSamples.toNat (d1, d2) ⁻¹'
      {z | ∃ e, est (List.ofFn z.1) (List.ofFn z.2) cfg.failureProbability = .ok e ∧ rej e} := by
  classical
  ext u
  simp only [SampledRunner.Rejects, countingRunner, processed, Set.mem_preimage, Set.mem_ofPred_eq, Except.ok.injEq, decide_eq_true_eq]
  constructor
  · rintro ⟨x1, x2, y1, y2, e, rfl, rfl, rfl, rfl, h1, h2⟩
    rw [List.map_ofFn, List.map_ofFn] at h1
    exact ⟨e, h1, h2⟩
  · rintro ⟨e, h1, h2⟩
    refine ⟨_, _, _, _, e, rfl, rfl, rfl, rfl, ?_, h2⟩
    rw [List.map_ofFn, List.map_ofFn]
    exact h1

/-- The bound for testers whose estimate is a function of a countable quantity. -/
lemma counting_false_alarm (h : IndependentDraws μ sampler M) (hM : ∀ d, IsProbabilityMeasure (M d)) (hp : Measurable post)
    {B : Type} [MeasurableSpace B] [Countable B] [DiscreteMeasurableSpace B]
    {b : (Fin cfg.numSamples.toNat → X') × (Fin cfg.numSamples.toNat → X') → B} (hb : Measurable b)
    (hest : ∀ z z', b z = b z' → est (List.ofFn z.1) (List.ofFn z.2) cfg.failureProbability = est (List.ofFn z'.1) (List.ofFn z'.2) cfg.failureProbability)
    (hrej : ∀ last g d1 d2, (generator last g).2 = .ok (d1, d2) →
      (independentSamples ((M d1).map post) ((M d2).map post) cfg.numSamples.toNat cfg.numSamples.toNat).real
        {z | ∃ e, est (List.ofFn z.1) (List.ofFn z.2) cfg.failureProbability = .ok e ∧ rej e} ≤ cfg.failureProbability ∧
      (independentSamples ((M d2).map post) ((M d1).map post) cfg.numSamples.toNat cfg.numSamples.toNat).real
        {z | ∃ e, est (List.ofFn z.1) (List.ofFn z.2) cfg.failureProbability = .ok e ∧ rej e} ≤ cfg.failureProbability) (g : G) :
    MeasurableSet ((countingRunner generator sampler post est rej).Accused cfg g) ∧
    ∀ last g d1 d2, (generator last g).2 = .ok (d1, d2) →
      (μ.prod μ).real ((countingRunner generator sampler post est rej).Rejects cfg d1 d2) ≤ cfg.failureProbability ∧
      (μ.prod μ).real ((countingRunner generator sampler post est rej).Rejects cfg d2 d1) ≤ cfg.failureProbability := by
  constructor
  · rw [accused_eq]
    refine measurable_acc _ _ (fun d => ?_) _ _ _
    set F : (Fin cfg.numSamples.toNat → X') × (Fin cfg.numSamples.toNat → X') → Except Err ℝ := fun z => do
      let e12 ← est (List.ofFn z.1) (List.ofFn z.2) cfg.failureProbability
      let e21 ← est (List.ofFn z.2) (List.ofFn z.1) cfg.failureProbability
      .ok (max e12 e21) with hF
    obtain ⟨c1, c2⟩ := factor (b := fun z => (b z, b z.swap)) (hb.prodMk (hb.comp measurable_swap)) (f := F) (fun z z' hz => by
      obtain ⟨h1, h2⟩ := Prod.mk.inj hz
      have k1 := hest _ _ h1
      have k2 := hest _ _ h2
      simp only [Prod.fst_swap, Prod.snd_swap] at k2
      simp only [hF, k1, k2])
    have ho : ∀ u, outcome (countingRunner generator sampler post est rej) cfg d u = F (processed sampler post cfg.numSamples.toNat d u) := fun u => by
      simp only [outcome, countingRunner, hF, processed]
      change (do
        let e12 ← est (List.map post (List.ofFn _)) (List.map post (List.ofFn _)) _
        let e21 ← est (List.map post (List.ofFn _)) (List.map post (List.ofFn _)) _
        Except.ok (max e12 e21)) = _
      simp only [List.map_ofFn]
      rfl
    refine ⟨_, c1, fun u e he => ⟨_, (ho u).symm.trans he⟩, fun e _ => ?_⟩
    simp only [ho]
    exact measurable_processed h hp _ d (c2 e)
  · have key : ∀ d1 d2, (independentSamples ((M d1).map post) ((M d2).map post) cfg.numSamples.toNat cfg.numSamples.toNat).real
        {z | ∃ e, est (List.ofFn z.1) (List.ofFn z.2) cfg.failureProbability = .ok e ∧ rej e} ≤ cfg.failureProbability →
        (μ.prod μ).real ((countingRunner generator sampler post est rej).Rejects cfg d1 d2) ≤ cfg.failureProbability := by
      intro d1 d2 hle
      refine le_trans ?_ hle
      rw [rejects_eq, ← map_processed h hM hp _ (d1, d2)]
      have : IsProbabilityMeasure ((μ.prod μ).map (processed sampler post cfg.numSamples.toNat (d1, d2))) :=
        Measure.isProbabilityMeasure_map (measurable_processed h hp _ _).aemeasurable
      exact ENNReal.toReal_mono (measure_ne_top _ _) (Measure.le_map_apply (measurable_processed h hp _ _).aemeasurable _)
    exact fun last g d1 d2 hd => ⟨key _ _ (hrej last g d1 d2 hd).1, key _ _ (hrej last g d1 d2 hd).2⟩

end Verif.TestRunner
