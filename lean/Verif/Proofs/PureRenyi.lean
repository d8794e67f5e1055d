import Verif.Proofs.Renyi
import Verif.Proofs.MmdMean
import Verif.Proofs.Bernstein

/-!
# The Rényi divergence of a purely private mechanism
-/

namespace Verif.PureRenyi

open MeasureTheory Real Spec
open scoped ENNReal

variable {S : Type*} [MeasurableSpace S]

theorem ac_of_indist {P Q : Measure S} [IsProbabilityMeasure P] [IsProbabilityMeasure Q] {eps : ℝ} (h : Indist P Q eps 0) : P ≪ Q := by
  refine Measure.AbsolutelyContinuous.mk fun A hA hQ => ?_
  have h1 := h A hA
  rw [Measure.real, Measure.real, hQ, ENNReal.toReal_zero, mul_zero, add_zero] at h1
  have h2 : (P A).toReal = 0 := le_antisymm h1 ENNReal.toReal_nonneg
  exact (ENNReal.toReal_eq_zero_iff _).1 h2 |>.resolve_right (measure_ne_top P A)

/-- The density is between `e^(-eps)` and `e^eps`. -/
theorem density_bounds {P Q : Measure S} [IsProbabilityMeasure P] [IsProbabilityMeasure Q] {eps : ℝ} (h : Indist P Q eps 0)
    (h' : Indist Q P eps 0) :
    ∀ᵐ x ∂Q, exp (-eps) ≤ (P.rnDeriv Q x).toReal ∧ (P.rnDeriv Q x).toReal ≤ exp eps := by
  have hac := ac_of_indist h
  have hi : Integrable (fun x => (P.rnDeriv Q x).toReal) Q := Measure.integrable_toReal_rnDeriv
  have h1 : (fun x => (P.rnDeriv Q x).toReal) ≤ᵐ[Q] fun _ => exp eps := by
    refine ae_le_of_forall_setIntegral_le hi (integrable_const _) fun A hA _ => ?_
    rw [Measure.setIntegral_toReal_rnDeriv hac, setIntegral_const, smul_eq_mul]
    have := h A hA
    linarith
  have h2 : (fun _ => exp (-eps)) ≤ᵐ[Q] fun x => (P.rnDeriv Q x).toReal := by
    refine ae_le_of_forall_setIntegral_le (integrable_const _) hi fun A hA _ => ?_
    rw [Measure.setIntegral_toReal_rnDeriv hac, setIntegral_const, smul_eq_mul, exp_neg, ← div_eq_mul_inv, div_le_iff₀ (exp_pos _)]
    have := h' A hA
    linarith
  filter_upwards [h1, h2] with x a b
  exact ⟨b, a⟩

theorem tau_le_half {eps : ℝ} (heps : 0 ≤ eps) : Mmd.tau eps 0 ≤ eps / 2 := by
  have h := Bernstein.k_mono heps
  simp only [exp_zero] at h
  unfold Mmd.tau
  rw [div_le_iff₀ (by positivity)]
  nlinarith

/-- A purely private mechanism has Rényi divergence at most `eps` and at most `2 α eps²`. -/
theorem renyi_le {P Q : Measure S} [IsProbabilityMeasure P] [IsProbabilityMeasure Q] {eps : ℝ} (heps : 0 < eps) (h : Indist P Q eps 0)
    (h' : Indist Q P eps 0) {α : ℝ} (hα : 1 < α) : renyiDiv α P Q ≤ ((min eps (2 * α * eps ^ 2) : ℝ) : EReal) := by
  have hac := ac_of_indist h
  have hb := density_bounds h h'
  rw [renyi_le_iff hα]
  refine ⟨hac, ?_⟩
  -- the clamped logarithm of the density
  set L : S → ℝ := fun x => max (-eps) (min eps (log (P.rnDeriv Q x).toReal)) with hL
  have hLm : Measurable L := by
    have := (Measure.measurable_rnDeriv P Q).ennreal_toReal
    exact measurable_const.max (measurable_const.min (measurable_log.comp this))
  have hL1 : ∀ x, -eps ≤ L x := fun x => le_max_left _ _
  have hL2 : ∀ x, L x ≤ eps := fun x => max_le (by linarith) (min_le_left _ _)
  have hLb : ∀ x, |L x| ≤ eps := fun x => abs_le.2 ⟨hL1 x, hL2 x⟩
  have hd : ∀ᵐ x ∂Q, P.rnDeriv Q x = ENNReal.ofReal (exp (L x)) := by
    filter_upwards [hb, P.rnDeriv_lt_top Q] with x hx hfin
    have hpos : 0 < (P.rnDeriv Q x).toReal := (exp_pos _).trans_le hx.1
    have e1 : -eps ≤ log (P.rnDeriv Q x).toReal := by
      rw [Real.le_log_iff_exp_le hpos]; exact hx.1
    have e2 : log (P.rnDeriv Q x).toReal ≤ eps := by
      rw [Real.log_le_iff_le_exp hpos]; exact hx.2
    have : L x = log (P.rnDeriv Q x).toReal := by
      simp only [hL]
      rw [min_eq_right e2, max_eq_right e1]
    rw [this, exp_log hpos, ENNReal.ofReal_toReal hfin.ne]
  -- integrals with respect to `P` as integrals with respect to `Q`
  have hPQ : ∀ g : S → ℝ, ∫ x, g x ∂P = ∫ x, exp (L x) * g x ∂Q := fun g => by
    rw [← integral_rnDeriv_smul hac]
    refine integral_congr_ae ?_
    filter_upwards [hd] with x hx
    rw [hx, ENNReal.toReal_ofReal (exp_pos _).le, smul_eq_mul]
  have hmom : renyiMoment α P Q = ENNReal.ofReal (∫ x, exp ((α - 1) * L x) ∂P) := by
    have hi : ∀ (c : ℝ), Integrable (fun x => exp (c * L x)) Q := fun c => by
      have := integrable_exp_bdd (μ := Q) hLm hLb c 0
      simpa using this
    rw [hPQ, ofReal_integral_eq_lintegral_ofReal]
    · unfold renyiMoment
      refine lintegral_congr_ae ?_
      filter_upwards [hd] with x hx
      rw [hx, ENNReal.ofReal_rpow_of_pos (exp_pos _), ← exp_mul, ← exp_add]
      congr 2
      ring
    · have e : (fun x => exp (L x) * exp ((α - 1) * L x)) = fun x => exp (α * L x) := by
        funext x
        rw [← exp_add]
        congr 1
        ring
      rw [e]
      exact hi α
    · exact Filter.Eventually.of_forall fun x => by positivity
  rw [hmom]
  refine ENNReal.ofReal_le_ofReal ?_
  have hα0 : 0 < α - 1 := by linarith
  rcases min_choice eps (2 * α * eps ^ 2) with hmin | hmin
  · -- the trivial bound
    rw [hmin]
    have hi : Integrable (fun x => exp ((α - 1) * L x)) P := by
      have := integrable_exp_bdd (μ := P) hLm hLb (α - 1) 0
      simpa using this
    calc ∫ x, exp ((α - 1) * L x) ∂P ≤ ∫ _, exp ((α - 1) * eps) ∂P :=
          integral_mono hi (integrable_const _) fun x => exp_le_exp.2 (mul_le_mul_of_nonneg_left (hL2 x) hα0.le)
      _ = exp ((α - 1) * eps) := by simp
  · rw [hmin]
    have hsub := SubG.of_diff (μ := P) hLm (c := 2 * eps) fun x y => by linarith [hL1 y, hL2 x]
    have hm := hsub.mgf (α - 1)
    set m := ∫ x, L x ∂P with hmdef
    -- the expectation of the loss
    have hQ0 : ∫ x, L x ∂Q ≤ 0 := by
      have hone : ∫ x, exp (L x) ∂Q = 1 := by
        have := hPQ fun _ => 1
        simp only [mul_one] at this
        rw [← this]
        simp
      have hi : Integrable (fun x => exp (L x)) Q := by
        have := integrable_exp_bdd (μ := Q) hLm hLb 1 0
        simpa using this
      calc ∫ x, L x ∂Q ≤ ∫ x, (exp (L x) - 1) ∂Q :=
            integral_mono (integrable_bdd hLm hLb) (hi.sub (integrable_const _)) fun x => by
              have := add_one_le_exp (L x)
              simp only
              linarith
        _ = 0 := by
            rw [integral_sub hi (integrable_const _), hone]
            simp
    have hdiff := Mmd.integral_sub_le h h' (g := fun x => (L x + eps) / (2 * eps)) ((hLm.add_const _).div_const _)
      (fun x => div_nonneg (by linarith [hL1 x]) (by linarith)) fun x => by
        rw [div_le_one (by linarith)]
        linarith [hL2 x]
    have hGe : ∀ (R : Measure S) [IsProbabilityMeasure R], ∫ x, (L x + eps) / (2 * eps) ∂R = (∫ x, L x ∂R + eps) / (2 * eps) := fun R _ => by
      rw [integral_div, integral_add (integrable_bdd hLm hLb) (integrable_const _)]
      simp
    rw [hGe, hGe, ← sub_div, div_le_iff₀ (by linarith)] at hdiff
    have htau := mul_le_mul_of_nonneg_right (tau_le_half heps.le) (by linarith : 0 ≤ 2 * eps)
    have hmle : m ≤ eps ^ 2 := by nlinarith
    have e : ∫ x, exp ((α - 1) * L x) ∂P = exp ((α - 1) * m) * ∫ x, exp ((α - 1) * (L x - m)) ∂P := by
      rw [← integral_const_mul]
      refine integral_congr_ae (Filter.Eventually.of_forall fun x => ?_)
      simp only
      rw [← exp_add]
      congr 1
      ring
    rw [e]
    refine (mul_le_mul_of_nonneg_left hm (exp_pos _).le).trans ?_
    rw [← exp_add]
    refine exp_le_exp.2 ?_
    have h1 : (α - 1) * m ≤ (α - 1) * eps ^ 2 := mul_le_mul_of_nonneg_left hmle hα0.le
    have h2 : 0 ≤ (α - 1) * eps ^ 2 * (2 * α - 1 - (α - 1) / 2) := by
      refine mul_nonneg (by positivity) (by linarith)
    nlinarith

end Verif.PureRenyi
