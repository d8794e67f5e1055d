import Verif.Proofs.SmallestNoiseTotal

/-! # Sampling only helps, and REMOVE is the worse direction -/

namespace Verif.Spec
open MeasureTheory ProbabilityTheory Verif.Mech

section
variable {X : Type} [AddCommGroup X] [MeasurableSpace X] [MeasurableAdd X] {μ : Measure X} [IsProbabilityMeasure μ] {q : ℝ}

lemma mixShift_real (q0 : 0 ≤ q) (q1 : q ≤ 1) (d : X) (S : Set X) :
    (mixShift μ q d).real S = (1 - q) * μ.real S + q * (μ.map fun x => x + d).real S := by
  have : IsProbabilityMeasure (μ.map fun x => x + d) := Measure.isProbabilityMeasure_map (measurable_add_const d).aemeasurable
  unfold mixShift
  rw [measureReal_add_apply (h₁ := ENNReal.mul_ne_top ENNReal.ofReal_ne_top (measure_ne_top _ _))
    (h₂ := ENNReal.mul_ne_top ENNReal.ofReal_ne_top (measure_ne_top _ _)), measureReal_ennreal_smul_apply, measureReal_ennreal_smul_apply,
    ENNReal.toReal_ofReal (by linarith), ENNReal.toReal_ofReal q0]

lemma indist_delta {Ω : Type*} [MeasurableSpace Ω] {P Q : Measure Ω} [IsProbabilityMeasure P] [IsProbabilityMeasure Q] {ε δ : ℝ}
    (h : Indist P Q ε δ) : 0 ≤ δ ∧ 1 - Real.exp ε ≤ δ := by
  have h1 := h ∅ MeasurableSet.empty
  have h2 := h Set.univ MeasurableSet.univ
  simp only [measureReal_empty, mul_zero, zero_add, probReal_univ, mul_one] at h1 h2
  exact ⟨h1, by linarith⟩

/-- Sampling does not hurt. -/
lemma sampled_of_unsampled (q0 : 0 ≤ q) (q1 : q ≤ 1) {s : X} {adj : Adj} {ε δ : ℝ} (h : Indist (upper μ s 1 adj) (lower μ s 1 adj) ε δ) :
    Indist (upper μ s q adj) (lower μ s q adj) ε δ := by
  have hp : ∀ d : X, IsProbabilityMeasure (μ.map fun x => x + d) :=
    fun d => Measure.isProbabilityMeasure_map (measurable_add_const d).aemeasurable
  have base : ∀ S : Set X, 0 ≤ δ → 1 - Real.exp ε ≤ δ → μ.real S ≤ Real.exp ε * μ.real S + δ := by
    intro S h0 h1
    have h2 := measureReal_nonneg (μ := μ) (s := S)
    have h3 : μ.real S ≤ 1 := measureReal_le_one
    rcases le_total (Real.exp ε) 1 with h4 | h4
    · nlinarith
    · nlinarith
  intro S hS
  have hh := h S hS
  cases adj with
  | remove =>
    simp only [upper, lower, mixShift_one] at h hh ⊢
    obtain ⟨h0, h1⟩ := indist_delta h
    rw [mixShift_real q0 q1]
    have := base S h0 h1
    nlinarith [mul_le_mul_of_nonneg_left this (sub_nonneg.2 q1), mul_le_mul_of_nonneg_left hh q0]
  | add =>
    simp only [upper, lower, mixShift_one] at h hh ⊢
    obtain ⟨h0, h1⟩ := indist_delta h
    rw [mixShift_real q0 q1]
    have := base S h0 h1
    nlinarith [mul_le_mul_of_nonneg_left this (sub_nonneg.2 q1), mul_le_mul_of_nonneg_left hh q0]

/-- A delta for a non-negative epsilon that is valid for REMOVE is valid for ADD. -/
lemma add_of_remove_sampled (q0 : 0 ≤ q) (q1 : q ≤ 1) {s : X} {ε δ : ℝ} (hε : 0 ≤ ε)
    (h : Indist (upper μ s q .remove) (lower μ s q .remove) ε δ) : Indist (upper μ s q .add) (lower μ s q .add) ε δ := by
  have hu : IsProbabilityMeasure (upper μ s q .remove) := mixShift_prob μ q q0 q1 _
  have hl : IsProbabilityMeasure (lower μ s q .remove) := inferInstanceAs (IsProbabilityMeasure μ)
  have hδ := (indist_delta h).1
  have hm : Measurable fun x : X => x + s := measurable_add_const s
  intro S hS
  have hS' : MeasurableSet ((fun x => x + s) ⁻¹' S) := hm hS
  have hh := h _ hS'
  simp only [upper, lower] at hh ⊢
  rw [mixShift_real q0 q1] at hh ⊢
  have e1 : (μ.map fun x => x + -s).real ((fun x => x + s) ⁻¹' S) = μ.real S := by
    rw [measureReal_def, Measure.map_apply (measurable_add_const _) hS', ← Set.preimage_comp]
    have : (fun x => x + s) ∘ (fun x => x + -s) = id := by funext x; simp
    rw [this]; rfl
  have e2 : (μ.map fun x => x + s).real S = μ.real ((fun x => x + s) ⁻¹' S) := by
    rw [measureReal_def, Measure.map_apply hm hS, measureReal_def]
  rw [e1] at hh
  rw [e2]
  set a := μ.real S
  set b := μ.real ((fun x => x + s) ⁻¹' S)
  have ha : 0 ≤ a := measureReal_nonneg
  have hb : 0 ≤ b := measureReal_nonneg
  have hα : 1 ≤ Real.exp ε := Real.one_le_exp hε
  set α := Real.exp ε
  -- `hh : (1 - q) b + q a ≤ α b + δ`, goal `a ≤ α ((1 - q) a + q b) + δ`
  rcases le_total b a with hab | hab
  · have : 0 ≤ (α - 1) * (1 - q) * (a - b) := mul_nonneg (mul_nonneg (by linarith) (by linarith)) (by linarith)
    nlinarith
  · have h1 : a ≤ (1 - q) * a + q * b := by nlinarith
    have h2 : 0 ≤ (1 - q) * a + q * b := ha.trans h1
    nlinarith

end

/-- The unsampled law dominates the sampled mechanism. -/
lemma gaussLaw_lawFor_sampled {σ s q : ℝ} (hσ : 0 < σ) (hs : 0 < s) (q0 : 0 ≤ q) (q1 : q ≤ 1) :
    LawFor (gaussLaw (σ / s)) (SampledGaussian σ s q) ∧ LawFor (gaussLaw (σ / s)) (swapProp (SampledGaussian σ s q)) := by
  have key : ∀ e, Indist (upper (gaussianReal 0 (Real.toNNReal (σ ^ 2))) s 1 .remove) (lower (gaussianReal 0 (Real.toNNReal (σ ^ 2))) s 1 .remove) e
      ((gaussLaw (σ / s)).hs e) := by
    intro e
    have := (gaussLaw_isHs (z := σ / s) (s := s) (by positivity) hs e).1
    rwa [div_mul_cancel₀ _ hs.ne'] at this
  exact ⟨fun Ω _ P Q _ _ h e => (sampledGaussian_indist hσ hs q0 q1 h e _).1 (sampled_of_unsampled q0 q1 (key e)),
    fun Ω _ P Q _ _ h e => (sampledGaussian_indist hσ hs q0 q1 h e _).2 (sampled_of_unsampled q0 q1 (add_of_remove _ _ (key e)))⟩

lemma sampledGaussian_sufficient {σ s q : ℝ} (hσ : 0 < σ) (hs : 0 < s) (q0 : 0 ≤ q) (q1 : q ≤ 1) {n : ℕ} (hn : 0 < n) {ε δ : ℝ}
    (h : (gaussLaw (σ / (s * Real.sqrt n))).hs ε ≤ δ) : RepeatedPrivate (SampledGaussian σ s q) n ε δ := by
  have hz : 0 < σ / s := by positivity
  obtain ⟨l1, l2⟩ := gaussLaw_lawFor_sampled hσ hs q0 q1
  have key : ∀ C : PairProp, LawFor (gaussLaw (σ / s)) C → ∀ (Ω : Type) [MeasurableSpace Ω] (P Q : Measure Ω),
      Adaptive (List.replicate n C) Ω P Q → Indist P Q ε δ := by
    intro C hC Ω _ P Q ha
    have := (ha.dominates (List.replicate n (gaussLaw (σ / s))) (by
      rw [List.forall₂_iff_get]
      refine ⟨by simp, fun i h1 h2 => ?_⟩
      simp only [List.get_eq_getElem, List.getElem_replicate]
      exact hC)).2.2 ε
    rw [← pow_eq_convAll, gaussLaw_pow hz n hn, div_div] at this
    exact this.mono h
  intro Ω _ P Q ha
  have ha' := ha.swap
  rw [List.map_replicate] at ha'
  exact ⟨key _ l1 Ω P Q ha, key _ l2 Ω Q P ha'⟩

end Verif.Spec
