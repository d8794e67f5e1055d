import Verif.Spec.Renyi
import Mathlib.MeasureTheory.Integral.MeanInequalities
import Mathlib.Analysis.SpecialFunctions.Log.ENNRealLogExp
import Mathlib.Probability.Kernel.Composition.MeasureCompProd

/-! # Rényi divergence: dual form, composition, post-processing -/

namespace Verif.Spec
open MeasureTheory ProbabilityTheory
open scoped ENNReal

variable {Ω : Type*} [MeasurableSpace Ω]

lemma renyi_le_iff {α : ℝ} (hα : 1 < α) (P Q : Measure Ω) (r : ℝ) :
    renyiDiv α P Q ≤ (r : EReal) ↔ P ≪ Q ∧ renyiMoment α P Q ≤ ENNReal.ofReal (Real.exp ((α - 1) * r)) := by
  unfold renyiDiv
  rw [if_neg hα.ne']
  have h0 : (0 : ℝ) < α - 1 := by linarith
  split_ifs with h
  · simp only [h, true_and]
    have e : (r : EReal) = ((1 / (α - 1) : ℝ) : EReal) * ENNReal.log (ENNReal.ofReal (Real.exp ((α - 1) * r))) := by
      rw [ENNReal.log_ofReal_of_pos (Real.exp_pos _), Real.log_exp, ← EReal.coe_mul]
      congr 1
      field_simp
    rw [e]
    constructor
    · intro h1
      have h2 := mul_le_mul_of_nonneg_left h1 (a := ((α - 1 : ℝ) : EReal)) (by exact_mod_cast h0.le)
      rw [← mul_assoc, ← mul_assoc, ← EReal.coe_mul, mul_one_div_cancel h0.ne', EReal.coe_one, one_mul, one_mul] at h2
      exact ENNReal.log_le_log_iff.1 h2
    · intro h1
      exact mul_le_mul_of_nonneg_left (ENNReal.log_le_log h1) (by exact_mod_cast (by positivity : (0 : ℝ) ≤ 1 / (α - 1)))
  · simp [h]

/-- Dual form of a bound on the Rényi moment. -/
def HolderBound (α : ℝ) (C : ℝ≥0∞) (P Q : Measure Ω) : Prop :=
  ∀ h : Ω → ℝ≥0∞, Measurable h → ∫⁻ x, h x ∂P ≤ C * (∫⁻ x, h x ^ (α / (α - 1)) ∂Q) ^ ((α - 1) / α)

lemma holder_of_moment {α : ℝ} (hα : 1 < α) {P Q : Measure Ω} [IsFiniteMeasure P] [IsFiniteMeasure Q] (hac : P ≪ Q) :
    HolderBound α (renyiMoment α P Q ^ (1 / α)) P Q := by
  intro h hh
  have hc : α.HolderConjugate (α / (α - 1)) := by
    rw [Real.holderConjugate_iff]
    refine ⟨hα, ?_⟩
    have : α ≠ 0 := by linarith
    have : α - 1 ≠ 0 := by linarith
    field_simp
    ring
  rw [← lintegral_rnDeriv_mul hac hh.aemeasurable]
  refine (ENNReal.lintegral_mul_le_Lp_mul_Lq Q hc (Measure.measurable_rnDeriv P Q).aemeasurable hh.aemeasurable).trans ?_
  rw [one_div_div]
  rfl

lemma HolderBound.mono {α : ℝ} {C D : ℝ≥0∞} {P Q : Measure Ω} (h : HolderBound α C P Q) (hCD : C ≤ D) : HolderBound α D P Q :=
  fun g hg => (h g hg).trans (by gcongr)

lemma HolderBound.ac {α : ℝ} (hα : 1 < α) {C : ℝ≥0∞} {P Q : Measure Ω} (hC : C ≠ ⊤) (h : HolderBound α C P Q) : P ≪ Q := by
  refine Measure.AbsolutelyContinuous.mk fun S hS hQ => ?_
  have h0 : (0 : ℝ) < α - 1 := by linarith
  have h1 : (0 : ℝ) < α := by linarith
  have := h (S.indicator 1) (measurable_one.indicator hS)
  rw [lintegral_indicator_one hS] at this
  have e : (fun x => S.indicator (1 : Ω → ℝ≥0∞) x ^ (α / (α - 1))) = S.indicator 1 := by
    funext x
    by_cases hx : x ∈ S
    · simp [hx]
    · simp only [hx, not_false_eq_true, Set.indicator_of_notMem]
      exact ENNReal.zero_rpow_of_pos (by positivity)
  rw [e, lintegral_indicator_one hS, hQ, ENNReal.zero_rpow_of_pos (by positivity), mul_zero] at this
  simpa using this

lemma HolderBound.moment {α : ℝ} (hα : 1 < α) {C : ℝ≥0∞} {P Q : Measure Ω} [IsFiniteMeasure P] [IsFiniteMeasure Q] (hC : C ≠ ⊤)
    (h : HolderBound α C P Q) : renyiMoment α P Q ≤ C ^ α := by
  have hac := h.ac hα hC
  have h0 : (0 : ℝ) < α - 1 := by linarith
  have h1 : (0 : ℝ) < α := by linarith
  set g := P.rnDeriv Q with hg
  have hgm : Measurable g := Measure.measurable_rnDeriv P Q
  have key : ∀ N : ℕ, ∫⁻ x, (min (g x) N) ^ α ∂Q ≤ C ^ α := by
    intro N
    set I := ∫⁻ x, (min (g x) N) ^ α ∂Q with hI
    have hfin : I ≠ ⊤ := by
      have : I ≤ ∫⁻ _, (N : ℝ≥0∞) ^ α ∂Q := lintegral_mono fun x => ENNReal.rpow_le_rpow (min_le_right _ _) h1.le
      rw [lintegral_const] at this
      refine ne_top_of_le_ne_top ?_ this
      exact ENNReal.mul_ne_top (ENNReal.rpow_ne_top_of_nonneg h1.le (ENNReal.natCast_ne_top N)) (measure_ne_top _ _)
    have hle : I ≤ C * I ^ ((α - 1) / α) := by
      have hm : Measurable fun x => (min (g x) N) ^ (α - 1) := (hgm.min measurable_const).pow_const _
      have a := h _ hm
      rw [← lintegral_rnDeriv_mul hac hm.aemeasurable] at a
      have e : ∀ x, ((min (g x) N) ^ (α - 1)) ^ (α / (α - 1)) = (min (g x) N) ^ α := by
        intro x
        rw [← ENNReal.rpow_mul]
        congr 1
        field_simp
      simp only [e] at a
      refine le_trans (lintegral_mono fun x => ?_) a
      calc (min (g x) N) ^ α = (min (g x) N) ^ (1 + (α - 1)) := by ring_nf
        _ = (min (g x) N) * (min (g x) N) ^ (α - 1) := by
            rw [ENNReal.rpow_add_of_nonneg _ _ zero_le_one h0.le, ENNReal.rpow_one]
        _ ≤ g x * (min (g x) N) ^ (α - 1) := by gcongr; exact min_le_left _ _
    by_cases hz : I = 0
    · rw [hz]; exact bot_le
    · have e : I = I ^ (1 / α) * I ^ ((α - 1) / α) := by
        rw [← ENNReal.rpow_add _ _ hz hfin, ← add_div, add_sub_cancel, div_self h1.ne', ENNReal.rpow_one]
      have hz' : I ^ ((α - 1) / α) ≠ 0 := by
        intro hc
        rcases ENNReal.rpow_eq_zero_iff.1 hc with ⟨h', _⟩ | ⟨h', _⟩
        · exact hz h'
        · exact hfin h'
      have hz'' : I ^ ((α - 1) / α) ≠ ⊤ := ENNReal.rpow_ne_top_of_nonneg (by positivity) hfin
      have b : I ^ (1 / α) ≤ C := by
        rw [e] at hle
        rw [← ENNReal.mul_le_mul_iff_left hz' hz'']
        convert hle using 2
        rw [← e]
      calc I = (I ^ (1 / α)) ^ α := by rw [← ENNReal.rpow_mul, one_div_mul_cancel h1.ne', ENNReal.rpow_one]
        _ ≤ C ^ α := ENNReal.rpow_le_rpow b h1.le
  have ht : Filter.Tendsto (fun N : ℕ => ∫⁻ x, (min (g x) N) ^ α ∂Q) Filter.atTop (nhds (∫⁻ x, g x ^ α ∂Q)) := by
    refine lintegral_tendsto_of_tendsto_of_monotone (fun N => ((hgm.min measurable_const).pow_const _).aemeasurable) ?_ ?_
    · refine Filter.Eventually.of_forall fun x N M hNM => ?_
      exact ENNReal.rpow_le_rpow (min_le_min le_rfl (by exact_mod_cast hNM)) h1.le
    · filter_upwards [Measure.rnDeriv_lt_top P Q] with x hx
      obtain ⟨N, hN⟩ := ENNReal.exists_nat_gt hx.ne
      refine tendsto_atTop_of_eventually_const (i₀ := N) fun M hM => ?_
      rw [min_eq_left]
      exact hN.le.trans (by exact_mod_cast hM)
  exact le_of_tendsto' ht key

/-- A Rényi bound in dual form. -/
lemma renyi_le_iff_holder {α : ℝ} (hα : 1 < α) (P Q : Measure Ω) [IsFiniteMeasure P] [IsFiniteMeasure Q] (r : ℝ) :
    renyiDiv α P Q ≤ (r : EReal) ↔ HolderBound α (ENNReal.ofReal (Real.exp ((α - 1) / α * r))) P Q := by
  have h1 : (0 : ℝ) < α := by linarith
  have e : ENNReal.ofReal (Real.exp ((α - 1) / α * r)) ^ α = ENNReal.ofReal (Real.exp ((α - 1) * r)) := by
    rw [ENNReal.ofReal_rpow_of_pos (Real.exp_pos _), ← Real.exp_mul]
    congr 2
    field_simp
  rw [renyi_le_iff hα]
  constructor
  · rintro ⟨h2, h3⟩
    refine (holder_of_moment hα h2).mono ?_
    rw [← e] at h3
    refine (ENNReal.rpow_le_rpow h3 (by positivity : (0 : ℝ) ≤ 1 / α)).trans ?_
    rw [← ENNReal.rpow_mul, mul_one_div_cancel h1.ne', ENNReal.rpow_one]
  · intro h2
    exact ⟨h2.ac hα ENNReal.ofReal_ne_top, (h2.moment hα ENNReal.ofReal_ne_top).trans e.le⟩

lemma HolderBound.adaptive {Ω' : Type*} [MeasurableSpace Ω'] {α : ℝ} (hα : 1 < α) {C D : ℝ≥0∞} {P Q : Measure Ω}
    [IsFiniteMeasure P] [IsFiniteMeasure Q] {κ η : Kernel Ω Ω'} [IsFiniteKernel κ] [IsFiniteKernel η]
    (h : HolderBound α C P Q) (h' : ∀ x, HolderBound α D (κ x) (η x)) : HolderBound α (C * D) (P ⊗ₘ κ) (Q ⊗ₘ η) := by
  intro g hg
  have h0 : (0 : ℝ) < α - 1 := by linarith
  have h1 : (0 : ℝ) < α := by linarith
  have hgp : Measurable fun p => g p ^ (α / (α - 1)) := hg.pow_const _
  rw [Measure.lintegral_compProd hg, Measure.lintegral_compProd hgp]
  have hm : Measurable fun x => (∫⁻ y, g (x, y) ^ (α / (α - 1)) ∂η x) ^ ((α - 1) / α) :=
    (hgp.lintegral_kernel_prod_right' (κ := η)).pow_const _
  calc ∫⁻ x, ∫⁻ y, g (x, y) ∂κ x ∂P ≤ ∫⁻ x, D * (∫⁻ y, g (x, y) ^ (α / (α - 1)) ∂η x) ^ ((α - 1) / α) ∂P :=
        lintegral_mono fun x => h' x _ (hg.comp measurable_prodMk_left)
    _ ≤ C * (∫⁻ x, (D * (∫⁻ y, g (x, y) ^ (α / (α - 1)) ∂η x) ^ ((α - 1) / α)) ^ (α / (α - 1)) ∂Q) ^ ((α - 1) / α) :=
        h _ (hm.const_mul D)
    _ = C * D * (∫⁻ x, ∫⁻ y, g (x, y) ^ (α / (α - 1)) ∂η x ∂Q) ^ ((α - 1) / α) := by
        have e : ∀ x, (D * (∫⁻ y, g (x, y) ^ (α / (α - 1)) ∂η x) ^ ((α - 1) / α)) ^ (α / (α - 1)) =
            D ^ (α / (α - 1)) * ∫⁻ y, g (x, y) ^ (α / (α - 1)) ∂η x := by
          intro x
          rw [ENNReal.mul_rpow_of_nonneg _ _ (by positivity), ← ENNReal.rpow_mul,
            show (α - 1) / α * (α / (α - 1)) = 1 by field_simp, ENNReal.rpow_one]
        simp only [e]
        rw [lintegral_const_mul _ (hgp.lintegral_kernel_prod_right' (κ := η)), ENNReal.mul_rpow_of_nonneg _ _ (by positivity),
          ← ENNReal.rpow_mul, show α / (α - 1) * ((α - 1) / α) = 1 by field_simp, ENNReal.rpow_one, mul_assoc]

lemma HolderBound.map {Ω' : Type*} [MeasurableSpace Ω'] {α : ℝ} {C : ℝ≥0∞} {P Q : Measure Ω} (h : HolderBound α C P Q) {f : Ω → Ω'}
    (hf : Measurable f) : HolderBound α C (P.map f) (Q.map f) := by
  intro g hg
  rw [lintegral_map hg hf, lintegral_map (hg.pow_const _) hf]
  exact h _ (hg.comp hf)

end Verif.Spec
