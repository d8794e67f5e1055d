import Verif.Proofs.RenyiKl

/-! # Rényi divergence grows with the order -/

namespace Verif.Spec
open MeasureTheory ProbabilityTheory InformationTheory
open scoped ENNReal

variable {Ω : Type*} [MeasurableSpace Ω]

/-- Jensen's inequality for powers above one. -/
lemma lintegral_le_rpow (P : Measure Ω) [IsProbabilityMeasure P] {s : ℝ} (hs : 1 ≤ s) {h : Ω → ℝ≥0∞} (hh : Measurable h) :
    ∫⁻ x, h x ∂P ≤ (∫⁻ x, h x ^ s ∂P) ^ (1 / s) := by
  rcases hs.eq_or_lt with rfl | hs
  · simp
  · have hc : s.HolderConjugate (s / (s - 1)) := by
      rw [Real.holderConjugate_iff]
      refine ⟨hs, ?_⟩
      have : s ≠ 0 := by linarith
      have : s - 1 ≠ 0 := by linarith
      field_simp
      ring
    have := ENNReal.lintegral_mul_le_Lp_mul_Lq P hc hh.aemeasurable (g := fun _ => 1) aemeasurable_const
    simpa using this

/-- Jensen's inequality for powers below one. -/
lemma lintegral_rpow_le (P : Measure Ω) [IsProbabilityMeasure P] {θ : ℝ} (h0 : 0 < θ) (h1 : θ ≤ 1) {h : Ω → ℝ≥0∞} (hh : Measurable h) :
    ∫⁻ x, h x ^ θ ∂P ≤ (∫⁻ x, h x ∂P) ^ θ := by
  have := lintegral_le_rpow P (s := 1 / θ) (by rw [le_div_iff₀ h0]; linarith) (hh.pow_const θ)
  rw [one_div_one_div] at this
  refine this.trans (le_of_eq ?_)
  congr 1
  refine lintegral_congr fun x => ?_
  rw [← ENNReal.rpow_mul, mul_one_div_cancel h0.ne', ENNReal.rpow_one]

lemma renyi_mono_real {α β : ℝ} (hα : 1 ≤ α) (hβ : α ≤ β) {P Q : Measure Ω} [IsProbabilityMeasure P] [IsProbabilityMeasure Q] {r : ℝ}
    (h : renyiDiv β P Q ≤ (r : EReal)) : renyiDiv α P Q ≤ (r : EReal) := by
  rcases hβ.eq_or_lt with rfl | hlt
  · exact h
  have hb1 : 1 < β := lt_of_le_of_lt hα hlt
  rw [renyi_le_iff_holder hb1] at h
  have hb0 : 0 < β - 1 := by linarith
  have hb : 0 < β := by linarith
  rcases hα.eq_or_lt with rfl | hα
  · simp only [renyiDiv, if_true]
    refine KlBound.klDiv ?_
    intro g hg ⟨B, hB⟩
    set θ := (β - 1) / β with hθ
    have hθ0 : 0 < θ := by positivity
    have hm : Measurable fun x => θ * g x := hg.const_mul θ
    have hbd : ∀ x, |θ * g x| ≤ θ * B := fun x => by
      rw [abs_mul, abs_of_pos hθ0]
      exact mul_le_mul_of_nonneg_left (hB x) hθ0.le
    have hi := integrable_of_bdd (P := P) hm hbd
    have hie := integrable_exp_of_bdd (P := P) hm hbd
    have hiQ := integrable_exp_of_bdd (P := Q) hg hB
    have hj : Real.exp (∫ x, θ * g x ∂P) ≤ ∫ x, Real.exp (θ * g x) ∂P :=
      convexOn_exp.map_integral_le Real.continuous_exp.continuousOn isClosed_univ (by simp) hi hie
    have hh := h (fun x => ENNReal.ofReal (Real.exp (θ * g x))) (Real.measurable_exp.comp hm).ennreal_ofReal
    rw [← ofReal_integral_eq_lintegral_ofReal hie (Filter.Eventually.of_forall fun x => (Real.exp_pos _).le)] at hh
    have e : ∀ x, ENNReal.ofReal (Real.exp (θ * g x)) ^ (β / (β - 1)) = ENNReal.ofReal (Real.exp (g x)) := by
      intro x
      rw [ENNReal.ofReal_rpow_of_pos (Real.exp_pos _), ← Real.exp_mul]
      congr 2
      rw [hθ]
      field_simp
    simp only [e] at hh
    rw [← ofReal_integral_eq_lintegral_ofReal hiQ (Filter.Eventually.of_forall fun x => (Real.exp_pos _).le)] at hh
    have hpos : 0 < ∫ x, Real.exp (g x) ∂Q := by
      have hpt : ∀ x, Real.exp (-B) ≤ Real.exp (g x) := fun x => Real.exp_le_exp.2 (neg_le_of_abs_le (hB x))
      have := integral_mono (μ := Q) (integrable_const _) hiQ hpt
      simp only [integral_const, probReal_univ, one_smul] at this
      exact lt_of_lt_of_le (Real.exp_pos _) this
    rw [ENNReal.ofReal_rpow_of_pos hpos, ← ENNReal.ofReal_mul (Real.exp_pos _).le,
      ENNReal.ofReal_le_ofReal_iff (by positivity)] at hh
    have hl := Real.log_le_log (Real.exp_pos _) (hj.trans hh)
    rw [Real.log_exp, Real.log_mul (Real.exp_pos _).ne' (by positivity), Real.log_exp, Real.log_rpow hpos, integral_const_mul] at hl
    have : θ * ∫ x, g x ∂P ≤ θ * (r + Real.log (∫ x, Real.exp (g x) ∂Q)) := by rw [mul_add]; exact hl
    exact le_of_mul_le_mul_left this hθ0
  · rw [renyi_le_iff_holder hα]
    have ha0 : 0 < α - 1 := by linarith
    have ha : 0 < α := by linarith
    intro g hg
    set s := ((β - 1) / β) / ((α - 1) / α) with hs
    have hs1 : 1 ≤ s := by
      rw [hs, le_div_iff₀ (by positivity), one_mul, div_le_div_iff₀ ha hb]
      nlinarith
    have hs0 : 0 < s := by linarith
    refine (lintegral_le_rpow P hs1 hg).trans ?_
    have hh := h (fun x => g x ^ s) (hg.pow_const s)
    refine (ENNReal.rpow_le_rpow hh (by positivity : (0 : ℝ) ≤ 1 / s)).trans (le_of_eq ?_)
    rw [ENNReal.mul_rpow_of_nonneg _ _ (by positivity), ← ENNReal.rpow_mul, ENNReal.ofReal_rpow_of_pos (Real.exp_pos _), ← Real.exp_mul]
    have e1 : (β - 1) / β * (1 / s) = (α - 1) / α := by rw [hs]; field_simp
    have e2 : (β - 1) / β * r * (1 / s) = (α - 1) / α * r := by rw [hs]; field_simp
    rw [e1, e2]
    congr 2
    refine lintegral_congr fun x => ?_
    rw [← ENNReal.rpow_mul]
    congr 1
    rw [hs]
    field_simp

/-- The Rényi divergence does not decrease with the order. -/
theorem renyi_mono {α β : ℝ} (hα : 1 ≤ α) (hβ : α ≤ β) (P Q : Measure Ω) [IsProbabilityMeasure P] [IsProbabilityMeasure Q] :
    renyiDiv α P Q ≤ renyiDiv β P Q := by
  refine EReal.le_of_forall_lt_iff_le.1 fun z hz => ?_
  exact renyi_mono_real hα hβ hz.le

end Verif.Spec
