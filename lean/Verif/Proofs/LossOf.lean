import Verif.Spec.LossOf
import Verif.Proofs.AdaptiveComposition
import Mathlib.MeasureTheory.Measure.Prod
import Mathlib.MeasureTheory.Measure.WithDensity

/-! # Proofs: the delta curve of the privacy loss law is exact -/

namespace Verif.Spec
open MeasureTheory ProbabilityTheory Verif.Pld

variable {Ω : Type*} [MeasurableSpace Ω]

/-- `∫ hinge(e, log f) d(f Q) = ∫ (f - c)_+ dQ` -/
lemma integral_hinge_density {P Q : Measure Ω} [IsFiniteMeasure P] [IsFiniteMeasure Q] {S : Set Ω} (hS : MeasurableSet S) {f : Ω → ℝ}
    (hf : Measurable f) (h0 : ∀ x, 0 ≤ f x) (hd : P.restrict Sᶜ = Q.withDensity (fun x => ENNReal.ofReal (f x))) :
    Integrable f Q ∧ (∀ A, MeasurableSet A → P.real (A ∩ Sᶜ) = ∫ x in A, f x ∂Q) ∧ ∀ e : ℝ,
    ∫ x, hinge (e : EReal) (Real.log (f x)) ∂(P.restrict Sᶜ) = ∫ x, max 0 (f x - Real.exp e) ∂Q := by
  have hfin : ∫⁻ x, ENNReal.ofReal (f x) ∂Q < ⊤ := by
    have h1 : (Q.withDensity (fun x => ENNReal.ofReal (f x))) Set.univ < ⊤ := by rw [← hd]; exact measure_lt_top _ _
    rwa [withDensity_apply _ MeasurableSet.univ, Measure.restrict_univ] at h1
  have hint : Integrable f Q := by
    refine ⟨hf.aestronglyMeasurable, ?_⟩
    rw [hasFiniteIntegral_iff_ofReal (ae_of_all _ h0)]
    exact hfin
  refine ⟨hint, ?_, ?_⟩
  · intro A hA
    have : P.real (A ∩ Sᶜ) = (P.restrict Sᶜ).real A := by rw [measureReal_def, measureReal_def, Measure.restrict_apply hA]
    rw [this, hd, measureReal_def, withDensity_apply _ hA, integral_eq_lintegral_of_nonneg_ae (ae_of_all _ h0) hf.aestronglyMeasurable]
  · intro e
    rw [hd]
    have := integral_withDensity_eq_integral_toReal_smul (μ := Q) (f := fun x => ENNReal.ofReal (f x)) (by fun_prop)
      (ae_of_all _ fun x => ENNReal.ofReal_lt_top) (fun x => hinge (e : EReal) (Real.log (f x)))
    rw [this]
    refine integral_congr_ae (ae_of_all _ fun x => ?_)
    simp only [ENNReal.toReal_ofReal (h0 x), smul_eq_mul, hinge_coe]
    rcases (h0 x).eq_or_lt with h | h
    · rw [← h, zero_mul, max_eq_left]; linarith [Real.exp_pos e]
    · rw [Real.exp_sub, Real.exp_log h, mul_max_of_nonneg _ _ h.le, mul_zero]
      congr 1; field_simp

/-- The curve of the law is the hockey-stick divergence: the least valid delta at every `eps`. -/
theorem LossLaw.Of.isHs {L : LossLaw} {P Q : Measure Ω} [IsFiniteMeasure P] [IsFiniteMeasure Q] (h : L.Of P Q) (e : ℝ) :
    IsHs P Q e (L.hs e) := by
  obtain ⟨S, f, hS, hf, h0, hQ, hP, hd, hμ⟩ := h
  obtain ⟨hint, hA, hh⟩ := integral_hinge_density hS hf h0 hd
  have hs : L.hs e = L.inf + ∫ x, max 0 (f x - Real.exp e) ∂Q := by
    unfold LossLaw.hs lossHs
    rw [hμ, integral_map (by fun_prop) (measurable_hinge _).aestronglyMeasurable, hh]
  have hmax : Integrable (fun x => max 0 (f x - Real.exp e)) Q :=
    (integrable_const (0 : ℝ)).sup (hint.sub (integrable_const _))
  rw [hs]
  constructor
  · intro A hAm
    have h1 : P.real A ≤ P.real (A ∩ Sᶜ) + P.real S := by
      have : A ⊆ (A ∩ Sᶜ) ∪ S := fun x hx => by by_cases hxs : x ∈ S <;> simp [hx, hxs]
      exact (measureReal_mono this).trans (measureReal_union_le _ _)
    have h2 : ∫ x in A, f x ∂Q ≤ Real.exp e * Q.real A + ∫ x in A, max 0 (f x - Real.exp e) ∂Q := by
      have : Real.exp e * Q.real A = ∫ x in A, Real.exp e ∂Q := by simp [mul_comm]
      rw [this, ← integral_add (integrable_const _) hmax.integrableOn]
      exact setIntegral_mono hint.integrableOn ((integrable_const _).add hmax.integrableOn) fun x => by
        have := le_max_right 0 (f x - Real.exp e); linarith
    have h3 : ∫ x in A, max 0 (f x - Real.exp e) ∂Q ≤ ∫ x, max 0 (f x - Real.exp e) ∂Q :=
      setIntegral_le_integral hmax (ae_of_all _ fun x => le_max_left _ _)
    rw [hA A hAm] at h1
    rw [hP] at h1
    linarith
  · intro d hdd
    set A := S ∪ {x | Real.exp e < f x} with hAdef
    have hm : MeasurableSet {x | Real.exp e < f x} := measurableSet_lt measurable_const hf
    have hAm : MeasurableSet A := hS.union hm
    have h1 := hdd A hAm
    have h2 : P.real A = P.real S + P.real (A ∩ Sᶜ) := by
      have : A = S ∪ (A ∩ Sᶜ) := by ext x; by_cases hx : x ∈ S <;> simp [hAdef, hx]
      conv_lhs => rw [this]
      exact measureReal_union (Set.disjoint_left.2 fun x h1 h2 => h2.2 h1) (hAm.inter hS.compl)
    have h3 : ∫ x in A, f x ∂Q - Real.exp e * Q.real A = ∫ x, max 0 (f x - Real.exp e) ∂Q := by
      have e1 : Real.exp e * Q.real A = ∫ x in A, Real.exp e ∂Q := by simp [mul_comm]
      rw [e1, ← integral_sub hint.integrableOn (integrable_const _)]
      have e2 : ∫ x in A, (f x - Real.exp e) ∂Q = ∫ x in {x | Real.exp e < f x}, (f x - Real.exp e) ∂Q := by
        refine setIntegral_congr_set ?_
        have : S =ᵐ[Q] (∅ : Set Ω) := by rw [ae_eq_empty]; exact hQ
        have := this.union (ae_eq_refl {x | Real.exp e < f x})
        simpa [hAdef] using this
      rw [e2, ← integral_indicator hm]
      refine integral_congr_ae (ae_of_all _ fun x => ?_)
      by_cases hx : Real.exp e < f x
      · rw [Set.indicator_of_mem (by exact hx)]; exact (max_eq_right (by linarith)).symm
      · rw [Set.indicator_of_notMem (by exact hx)]; exact (max_eq_left (by linarith)).symm
    rw [h2, hA A hAm, hP] at h1
    linarith

/-- The law of a product of independent mechanisms is the convolution. -/
theorem LossLaw.Of.prod {Ω' : Type*} [MeasurableSpace Ω'] {A B : LossLaw} {P Q : Measure Ω} {P' Q' : Measure Ω'}
    [IsProbabilityMeasure P] [IsFiniteMeasure Q] [IsProbabilityMeasure P'] [IsFiniteMeasure Q'] (hA : A.Of P Q) (hB : B.Of P' Q') :
    (A.conv B).Of (P.prod P') (Q.prod Q') := by
  obtain ⟨S, f, hS, hf, h0, hQ, hP, hd, hμ⟩ := hA
  obtain ⟨S', f', hS', hf', h0', hQ', hP', hd', hμ'⟩ := hB
  have hc : ((S ×ˢ Set.univ) ∪ (Set.univ ×ˢ S') : Set (Ω × Ω'))ᶜ = Sᶜ ×ˢ S'ᶜ := by
    ext x; simp
  have hdp : (P.prod P').restrict (Sᶜ ×ˢ S'ᶜ) =
      (Q.prod Q').withDensity fun x => ENNReal.ofReal (f x.1) * ENNReal.ofReal (f' x.2) := by
    rw [← Measure.prod_restrict, hd, hd', prod_withDensity (by fun_prop) (by fun_prop)]
  refine ⟨(S ×ˢ Set.univ) ∪ (Set.univ ×ˢ S'), fun x => f x.1 * f' x.2, ?_, ?_, ?_, ?_, ?_, ?_, ?_⟩
  · exact (hS.prod MeasurableSet.univ).union (MeasurableSet.univ.prod hS')
  · exact (hf.comp measurable_fst).mul (hf'.comp measurable_snd)
  · exact fun x => mul_nonneg (h0 _) (h0' _)
  · refine measure_union_null ?_ ?_ <;> rw [Measure.prod_prod]
    · rw [hQ, zero_mul]
    · rw [hQ', mul_zero]
  · have h1 : (P.prod P').real (Sᶜ ×ˢ S'ᶜ) = (1 - A.inf) * (1 - B.inf) := by
      rw [measureReal_def, Measure.prod_prod, ENNReal.toReal_mul, ← measureReal_def, ← measureReal_def,
        probReal_compl_eq_one_sub hS, probReal_compl_eq_one_sub hS', hP, hP']
    rw [← hc, probReal_compl_eq_one_sub ((hS.prod MeasurableSet.univ).union (MeasurableSet.univ.prod hS'))] at h1
    show _ = 1 - (1 - A.inf) * (1 - B.inf)
    linarith
  · rw [hc, hdp]
    congr 1
    ext x
    rw [ENNReal.ofReal_mul (h0 _)]
  · rw [hc]
    show A.μ.conv B.μ = _
    rw [hμ, hμ', Measure.conv, Measure.map_prod_map _ _ (by fun_prop) (by fun_prop), Measure.prod_restrict,
      Measure.map_map (by fun_prop) (by fun_prop)]
    refine Measure.map_congr ?_
    have hz : ∀ᵐ x ∂((P.prod P').restrict (Sᶜ ×ˢ S'ᶜ)), f x.1 ≠ 0 ∧ f' x.2 ≠ 0 := by
      rw [hdp, ae_withDensity_iff (by fun_prop)]
      refine ae_of_all _ fun x hx => ⟨fun h => hx ?_, fun h => hx ?_⟩ <;> simp [h]
    filter_upwards [hz] with x hx
    simp only [Function.comp, Prod.map]
    rw [Real.log_mul hx.1 hx.2]

end Verif.Spec
