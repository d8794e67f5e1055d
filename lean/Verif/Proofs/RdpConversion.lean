import Verif.Proofs.RenyiKl
import Verif.Model.RdpConversion
import Mathlib.MeasureTheory.Measure.Decomposition.IntegralRNDeriv
import Mathlib.Analysis.Convex.SpecificFunctions.Basic

/-! # From Rényi divergence to `(eps, delta)` -/

namespace Verif.Spec
open MeasureTheory InformationTheory
open scoped ENNReal

variable {Ω : Type*} [MeasurableSpace Ω]

/-- The pointwise inequality behind the conversion. -/
lemma sub_le_rpow {a c f : ℝ} (ha : 1 < a) (hc : 0 < c) (hf : 0 ≤ f) :
    f - c ≤ c ^ (1 - a) * (1 - 1 / a) ^ (a - 1) / a * f ^ a := by
  have ha0 : 0 < a := by linarith
  have ha1 : 0 < a - 1 := by linarith
  set x := c * a / (a - 1) with hx
  have hx0 : 0 < x := by positivity
  have hb := one_add_mul_self_le_rpow_one_add (s := f / x - 1) (by have : 0 ≤ f / x := by positivity
                                                                   linarith) ha.le
  rw [add_sub_cancel, Real.div_rpow hf hx0.le] at hb
  have hxa : 0 < x ^ a := Real.rpow_pos_of_pos hx0 a
  have hK : c ^ (1 - a) * (1 - 1 / a) ^ (a - 1) / a = c / (a - 1) / x ^ a := by
    have e1 : x ^ a = x * x ^ (a - 1) := by
      conv_lhs => rw [show a = 1 + (a - 1) by ring, Real.rpow_add hx0, Real.rpow_one]
    have e2 : 1 - 1 / a = c / x := by rw [hx]; field_simp
    rw [e1, e2, Real.div_rpow hc.le hx0.le]
    have h3 : c ^ (1 - a) * c ^ (a - 1) = 1 := by rw [← Real.rpow_add hc]; simp
    have h4 : x ^ (a - 1) ≠ 0 := (Real.rpow_pos_of_pos hx0 _).ne'
    have h5 : c ^ (1 - a) * (c ^ (a - 1) / x ^ (a - 1)) / a = 1 / (a * x ^ (a - 1)) := by
      rw [← mul_div_assoc, h3]; field_simp
    rw [h5, hx]
    field_simp
  rw [hK]
  have h6 : c / (a - 1) / x ^ a * f ^ a = c / (a - 1) * (f ^ a / x ^ a) := by ring
  rw [h6]
  have h7 : c / (a - 1) * (1 + a * (f / x - 1)) = f - c := by rw [hx]; field_simp; ring
  rw [← h7]
  exact mul_le_mul_of_nonneg_left hb (by positivity)

lemma integral_rpow_rnDeriv {P Q : Measure Ω} [IsFiniteMeasure P] {a : ℝ} (ha : 1 < a) {M : ℝ} (hM : 0 ≤ M)
    (h : renyiMoment a P Q ≤ ENNReal.ofReal M) :
    Integrable (fun x => (P.rnDeriv Q x).toReal ^ a) Q ∧ ∫ x, (P.rnDeriv Q x).toReal ^ a ∂Q ≤ M := by
  have ha0 : 0 < a := by linarith
  have e : ∀ x, (P.rnDeriv Q x).toReal ^ a = (P.rnDeriv Q x ^ a).toReal := fun x => ENNReal.toReal_rpow _ _
  simp only [e]
  have hm : Measurable fun x => P.rnDeriv Q x ^ a := (Measure.measurable_rnDeriv P Q).pow_const _
  refine ⟨integrable_toReal_of_lintegral_ne_top hm.aemeasurable (ne_top_of_le_ne_top ENNReal.ofReal_ne_top h), ?_⟩
  by_cases hfin : ∀ᵐ x ∂Q, P.rnDeriv Q x ^ a < ⊤
  · rw [integral_toReal hm.aemeasurable hfin]
    exact ENNReal.toReal_le_of_le_ofReal hM h
  · exact absurd (ae_lt_top hm (ne_top_of_le_ne_top ENNReal.ofReal_ne_top h)) hfin

/-- Conversion of a Rényi bound of order `a > 1`. -/
theorem indist_of_renyi {P Q : Measure Ω} [IsProbabilityMeasure P] [IsProbabilityMeasure Q] {a r : ℝ} (ha : 1 < a)
    (h : renyiDiv a P Q ≤ (r : EReal)) (ε : ℝ) :
    Indist P Q ε (Real.exp ((a - 1) * (r - ε + Real.log (1 - 1 / a)) - Real.log a)) := by
  obtain ⟨hac, hm⟩ := (renyi_le_iff ha P Q r).1 h
  obtain ⟨hi, hle⟩ := integral_rpow_rnDeriv ha (Real.exp_pos _).le hm
  have ha0 : 0 < a := by linarith
  have hfrac : 0 < 1 - 1 / a := by rw [sub_pos, div_lt_one ha0]; exact ha
  intro S hS
  set f : Ω → ℝ := fun x => (P.rnDeriv Q x).toReal with hf
  have hf0 : ∀ x, 0 ≤ f x := fun x => ENNReal.toReal_nonneg
  have hfi : Integrable f Q := Measure.integrable_toReal_rnDeriv
  set K := Real.exp ε ^ (1 - a) * (1 - 1 / a) ^ (a - 1) / a with hK
  have hK0 : 0 ≤ K := by positivity
  have e1 : P.real S = ∫ x in S, f x ∂Q := (Measure.setIntegral_toReal_rnDeriv hac S).symm
  have e2 : ∫ x in S, (f x - Real.exp ε) ∂Q = P.real S - Real.exp ε * Q.real S := by
    rw [integral_sub hfi.integrableOn (integrable_const _), ← e1]
    simp [mul_comm]
  have h1 : ∫ x in S, (f x - Real.exp ε) ∂Q ≤ ∫ x in S, K * f x ^ a ∂Q :=
    integral_mono (hfi.integrableOn.sub (integrable_const _)) (hi.const_mul K).integrableOn
      fun x => sub_le_rpow ha (Real.exp_pos ε) (hf0 x)
  have h2 : ∫ x in S, K * f x ^ a ∂Q ≤ ∫ x, K * f x ^ a ∂Q :=
    setIntegral_le_integral (hi.const_mul K) (Filter.Eventually.of_forall fun x => mul_nonneg hK0 (Real.rpow_nonneg (hf0 x) _))
  have e6 : ∫ x, K * f x ^ a ∂Q = K * ∫ x, f x ^ a ∂Q := integral_const_mul _ _
  rw [e6] at h2
  have h3 : K * ∫ x, f x ^ a ∂Q ≤ K * Real.exp ((a - 1) * r) := mul_le_mul_of_nonneg_left hle hK0
  have e3 : K * Real.exp ((a - 1) * r) = Real.exp ((a - 1) * (r - ε + Real.log (1 - 1 / a)) - Real.log a) := by
    have e4 : Real.exp ε ^ (1 - a) = Real.exp (ε * (1 - a)) := (Real.exp_mul _ _).symm
    have e5 : (1 - 1 / a) ^ (a - 1) = Real.exp (Real.log (1 - 1 / a) * (a - 1)) := Real.rpow_def_of_pos hfrac _
    rw [hK, e4, e5, Real.exp_sub, Real.exp_log ha0, div_mul_eq_mul_div, ← Real.exp_add, ← Real.exp_add]
    congr 2
    ring
  rw [e3] at h3
  have h4 := (h1.trans h2).trans h3
  rw [e2] at h4
  linarith

/-- Lower bound for the Bhattacharyya coefficient. -/
lemma affinity_lower {P Q : Measure Ω} [IsProbabilityMeasure P] [IsProbabilityMeasure Q] {a r : ℝ} (ha : 1 ≤ a)
    (h : renyiDiv a P Q ≤ (r : EReal)) :
    P ≪ Q ∧ Real.exp (-r / 2) ≤ ∫ x, Real.sqrt (P.rnDeriv Q x).toReal ∂Q := by
  set f : Ω → ℝ := fun x => (P.rnDeriv Q x).toReal with hf
  have hf0 : ∀ x, 0 ≤ f x := fun x => ENNReal.toReal_nonneg
  have hfm : Measurable f := (Measure.measurable_rnDeriv P Q).ennreal_toReal
  have hfi : Integrable f Q := Measure.integrable_toReal_rnDeriv
  have hsi : Integrable (fun x => Real.sqrt (f x)) Q := by
    refine ((integrable_const (1 : ℝ)).add hfi).mono (Real.continuous_sqrt.measurable.comp hfm).aestronglyMeasurable
      (Filter.Eventually.of_forall fun x => ?_)
    simp only [Pi.add_apply, Real.norm_eq_abs]
    rw [abs_of_nonneg (Real.sqrt_nonneg _), abs_of_nonneg (by linarith [hf0 x])]
    have := Real.sqrt_nonneg (f x)
    nlinarith [Real.sq_sqrt (hf0 x), sq_nonneg (Real.sqrt (f x) - 1)]
  have hone : P ≪ Q → ∫ x, f x ∂Q = 1 := fun hac => by
    have := Measure.setIntegral_toReal_rnDeriv hac Set.univ
    rw [setIntegral_univ] at this
    rw [this]; simp
  rcases ha.eq_or_lt with rfl | ha
  · simp only [renyiDiv, if_true] at h
    have hfin : klDiv P Q ≠ ⊤ := by
      intro hc
      rw [hc] at h
      simp at h
    obtain ⟨hac, hint⟩ := klDiv_ne_top_iff.1 hfin
    refine ⟨hac, ?_⟩
    have e1 := toReal_klDiv_of_measure_eq hac (by simp)
    have h1 : ∫ x, llr P Q x ∂P ≤ r := by
      rw [← e1, ← EReal.coe_le_coe_iff]
      refine le_trans (le_of_eq ?_) h
      rw [← EReal.coe_ennreal_toReal hfin]
    have hli : Integrable (fun x => f x * Real.log (f x)) Q := (integrable_rnDeriv_mul_log_iff hac).2 hint
    have e2 : ∫ x, f x * Real.log (f x) ∂Q = ∫ x, llr P Q x ∂P := integral_rnDeriv_mul_log hac
    have hpt : ∀ x, Real.exp (-r / 2) * ((1 + r / 2) * f x - (1 / 2) * (f x * Real.log (f x))) ≤ Real.sqrt (f x) := by
      intro x
      rcases (hf0 x).eq_or_lt with h0 | h0
      · rw [← h0]; simp
      · have e : Real.sqrt (f x) = f x * (Real.exp (-r / 2) * Real.exp (r / 2 - Real.log (f x) / 2)) := by
          rw [← Real.exp_add, show -r / 2 + (r / 2 - Real.log (f x) / 2) = -(Real.log (f x) / 2) by ring, Real.exp_neg,
            Real.exp_half, Real.exp_log h0]
          have := Real.sqrt_pos.2 h0
          field_simp
          rw [Real.sq_sqrt h0.le]
        rw [e]
        have := Real.add_one_le_exp (r / 2 - Real.log (f x) / 2)
        have hp := Real.exp_pos (-r / 2)
        calc _ = f x * (Real.exp (-r / 2) * (r / 2 - Real.log (f x) / 2 + 1)) := by ring
          _ ≤ _ := by gcongr
    have := integral_mono (((hfi.const_mul (1 + r / 2)).sub (hli.const_mul (1 / 2))).const_mul (Real.exp (-r / 2))) hsi hpt
    simp only [Pi.sub_apply] at this
    rw [integral_const_mul, integral_sub (hfi.const_mul _) (hli.const_mul _), integral_const_mul, integral_const_mul,
      hone hac, e2] at this
    refine le_trans ?_ this
    have hp := Real.exp_pos (-r / 2)
    nlinarith
  · obtain ⟨hac, hm⟩ := (renyi_le_iff ha P Q r).1 h
    obtain ⟨hi, hle⟩ := integral_rpow_rnDeriv ha (Real.exp_pos _).le hm
    refine ⟨hac, ?_⟩
    have ha1 : 0 < a - 1 := by linarith
    set s := 1 / (2 * (a - 1)) with hs
    have hs0 : 0 < s := by positivity
    have hpt : ∀ x, Real.exp (-r / 2) * ((1 + s) * f x - s * Real.exp (-((a - 1) * r)) * f x ^ a) ≤ Real.sqrt (f x) := by
      intro x
      rcases (hf0 x).eq_or_lt with h0 | h0
      · rw [← h0, Real.zero_rpow (by linarith)]; simp
      · have hL : f x ^ a = f x * Real.exp ((a - 1) * Real.log (f x)) := by
          conv_lhs => rw [show a = 1 + (a - 1) by ring, Real.rpow_add h0, Real.rpow_one, Real.rpow_def_of_pos h0, mul_comm (Real.log _)]
        have e : Real.sqrt (f x) = f x * (Real.exp (-r / 2) * Real.exp (r / 2 - Real.log (f x) / 2)) := by
          rw [← Real.exp_add, show -r / 2 + (r / 2 - Real.log (f x) / 2) = -(Real.log (f x) / 2) by ring, Real.exp_neg,
            Real.exp_half, Real.exp_log h0]
          have := Real.sqrt_pos.2 h0
          field_simp
          rw [Real.sq_sqrt h0.le]
        have h1 := Real.add_one_le_exp (r / 2 - Real.log (f x) / 2)
        have h2 := Real.add_one_le_exp ((a - 1) * (Real.log (f x) - r))
        have e4 : r / 2 - Real.log (f x) / 2 = - (s * ((a - 1) * (Real.log (f x) - r))) := by rw [hs]; field_simp; ring
        have e5 : Real.exp (-((a - 1) * r)) * Real.exp ((a - 1) * Real.log (f x)) = Real.exp ((a - 1) * (Real.log (f x) - r)) := by
          rw [← Real.exp_add]; congr 1; ring
        have h3 : (1 + s) - s * Real.exp ((a - 1) * (Real.log (f x) - r)) ≤ Real.exp (r / 2 - Real.log (f x) / 2) := by
          have : s * ((a - 1) * (Real.log (f x) - r) + 1) ≤ s * Real.exp ((a - 1) * (Real.log (f x) - r)) := by gcongr
          rw [e4] at h1 ⊢
          linarith
        rw [e, hL]
        calc _ = f x * (Real.exp (-r / 2) * ((1 + s) - s * (Real.exp (-((a - 1) * r)) * Real.exp ((a - 1) * Real.log (f x))))) := by ring
          _ ≤ _ := by rw [e5]; gcongr
    have := integral_mono (((hfi.const_mul (1 + s)).sub (hi.const_mul (s * Real.exp (-((a - 1) * r))))).const_mul (Real.exp (-r / 2))) hsi hpt
    simp only [Pi.sub_apply] at this
    rw [integral_const_mul, integral_sub (hfi.const_mul _) (hi.const_mul _), integral_const_mul, integral_const_mul,
      hone hac] at this
    refine le_trans ?_ this
    have hp := Real.exp_pos (-r / 2)
    have hq : Real.exp (-((a - 1) * r)) * ∫ x, f x ^ a ∂Q ≤ 1 := by
      calc _ ≤ Real.exp (-((a - 1) * r)) * Real.exp ((a - 1) * r) := by gcongr
        _ = 1 := by rw [← Real.exp_add]; simp
    have : s * (Real.exp (-((a - 1) * r)) * ∫ x, f x ^ a ∂Q) ≤ s := by nlinarith
    nlinarith

lemma affinity_upper {P Q : Measure Ω} [IsProbabilityMeasure P] [IsProbabilityMeasure Q] (hac : P ≪ Q) {S : Set Ω} (hS : MeasurableSet S) :
    ∫ x, Real.sqrt (P.rnDeriv Q x).toReal ∂Q ≤
      Real.sqrt (P.real S * Q.real S) + Real.sqrt (P.real Sᶜ * Q.real Sᶜ) := by
  set f : Ω → ℝ := fun x => (P.rnDeriv Q x).toReal with hf
  have hf0 : ∀ x, 0 ≤ f x := fun x => ENNReal.toReal_nonneg
  have hfm : Measurable f := (Measure.measurable_rnDeriv P Q).ennreal_toReal
  have hfi : Integrable f Q := Measure.integrable_toReal_rnDeriv
  have hsi : Integrable (fun x => Real.sqrt (f x)) Q := by
    refine ((integrable_const (1 : ℝ)).add hfi).mono (Real.continuous_sqrt.measurable.comp hfm).aestronglyMeasurable
      (Filter.Eventually.of_forall fun x => ?_)
    simp only [Pi.add_apply, Real.norm_eq_abs]
    rw [abs_of_nonneg (Real.sqrt_nonneg _), abs_of_nonneg (by linarith [hf0 x])]
    have := Real.sqrt_nonneg (f x)
    nlinarith [Real.sq_sqrt (hf0 x), sq_nonneg (Real.sqrt (f x) - 1)]
  have key : ∀ T : Set Ω, MeasurableSet T → ∫ x in T, Real.sqrt (f x) ∂Q ≤ Real.sqrt (P.real T * Q.real T) := by
    intro T _
    set I := ∫ x in T, Real.sqrt (f x) ∂Q with hI
    have h1 : ∀ t : ℝ, 0 ≤ P.real T * (t * t) + -(2 * I) * t + Q.real T := by
      intro t
      have : 0 ≤ ∫ x in T, (t * Real.sqrt (f x) - 1) ^ 2 ∂Q := integral_nonneg fun x => sq_nonneg _
      have e : ∫ x in T, (t * Real.sqrt (f x) - 1) ^ 2 ∂Q = P.real T * (t * t) + -(2 * I) * t + Q.real T := by
        have e1 : ∀ x, (t * Real.sqrt (f x) - 1) ^ 2 = (t * t) * f x - (2 * t) * Real.sqrt (f x) + 1 := by
          intro x
          have := Real.sq_sqrt (hf0 x)
          linear_combination (t * t) * this
        simp only [e1]
        have i1 : Integrable (fun x => (t * t) * f x) (Q.restrict T) := hfi.integrableOn.const_mul _
        have i2 : Integrable (fun x => (2 * t) * Real.sqrt (f x)) (Q.restrict T) := hsi.integrableOn.const_mul _
        have e2 : ∫ x in T, ((t * t) * f x - (2 * t) * Real.sqrt (f x) + 1) ∂Q =
            ∫ x in T, ((t * t) * f x - (2 * t) * Real.sqrt (f x)) ∂Q + ∫ x in T, (1 : ℝ) ∂Q :=
          integral_add (i1.sub i2) (integrable_const _)
        rw [e2, integral_sub i1 i2, integral_const_mul, integral_const_mul, Measure.setIntegral_toReal_rnDeriv hac T]
        simp only [integral_const, smul_eq_mul, mul_one, measureReal_restrict_apply_univ]
        ring
      linarith
    have h2 := discrim_le_zero h1
    unfold discrim at h2
    apply Real.le_sqrt_of_sq_le
    nlinarith
  have := integral_add_compl hS hsi
  rw [← this]
  exact add_le_add (key S hS) (key Sᶜ hS.compl)

/-- Bretagnolle-Huber type bound for a Rényi divergence of any order `≥ 1`. -/
theorem tv_of_renyi {P Q : Measure Ω} [IsProbabilityMeasure P] [IsProbabilityMeasure Q] {a r : ℝ} (ha : 1 ≤ a)
    (h : renyiDiv a P Q ≤ (r : EReal)) {S : Set Ω} (hS : MeasurableSet S) :
    0 ≤ r ∧ P.real S - Q.real S ≤ Real.sqrt (1 - Real.exp (-r)) := by
  obtain ⟨hac, h1⟩ := affinity_lower ha h
  have h2 := affinity_upper hac hS
  have hP := measureReal_add_measureReal_compl (μ := P) hS
  have hQ := measureReal_add_measureReal_compl (μ := Q) hS
  rw [probReal_univ] at hP hQ
  set A := P.real S
  set B := Q.real S
  have hA0 : 0 ≤ A := measureReal_nonneg
  have hB0 : 0 ≤ B := measureReal_nonneg
  have hA1 : 0 ≤ P.real Sᶜ := measureReal_nonneg
  have hB1 : 0 ≤ Q.real Sᶜ := measureReal_nonneg
  have eA : P.real Sᶜ = 1 - A := by linarith
  have eB : Q.real Sᶜ = 1 - B := by linarith
  rw [eA, eB] at h2
  rw [eA] at hA1
  rw [eB] at hB1
  have h3 : Real.exp (-r / 2) ≤ Real.sqrt (A * B) + Real.sqrt ((1 - A) * (1 - B)) := h1.trans h2
  have x0 := Real.sqrt_nonneg (A * B)
  have y0 := Real.sqrt_nonneg ((1 - A) * (1 - B))
  have x2 := Real.sq_sqrt (mul_nonneg hA0 hB0)
  have y2 := Real.sq_sqrt (mul_nonneg hA1 hB1)
  set x := Real.sqrt (A * B)
  set y := Real.sqrt ((1 - A) * (1 - B))
  have h4 : (x + y) ^ 2 ≤ 1 - (A - B) ^ 2 := by
    have : 2 * (x * y) ≤ A * (1 - A) + B * (1 - B) := by
      have hxy : (x * y) ^ 2 = (A * (1 - A)) * (B * (1 - B)) := by rw [mul_pow, x2, y2]; ring
      have p1 : 0 ≤ A * (1 - A) := mul_nonneg hA0 hA1
      have p2 : 0 ≤ B * (1 - B) := mul_nonneg hB0 hB1
      have : (2 * (x * y)) ^ 2 ≤ (A * (1 - A) + B * (1 - B)) ^ 2 := by nlinarith [sq_nonneg (A * (1 - A) - B * (1 - B))]
      exact le_of_sq_le_sq this (by positivity) |>.trans le_rfl
    nlinarith
  have h5 : Real.exp (-r) = Real.exp (-r / 2) ^ 2 := by rw [← Real.exp_nat_mul]; congr 1; push_cast; ring
  have hp := Real.exp_pos (-r / 2)
  have h6 : Real.exp (-r) ≤ 1 - (A - B) ^ 2 := by rw [h5]; nlinarith
  constructor
  · have : Real.exp (-r) ≤ 1 := by nlinarith [sq_nonneg (A - B)]
    rw [Real.exp_le_one_iff] at this
    linarith
  · apply Real.le_sqrt_of_sq_le
    linarith

end Verif.Spec
