import Verif.Spec.Mmd
import Verif.Spec.Privacy
import Verif.Proofs.Mcdiarmid
import Mathlib.MeasureTheory.Integral.Layercake
import Mathlib.MeasureTheory.Integral.Prod

/-!
# The maximum mean discrepancy of a private mechanism
-/

namespace Verif.Mmd

open MeasureTheory Real Spec

variable {S : Type*} [MeasurableSpace S]

/-- Indistinguishability extends from events to functions with values in the unit interval. -/
theorem integral_le_of_indist {P Q : Measure S} [IsProbabilityMeasure P] [IsProbabilityMeasure Q] {eps delta : ℝ} (h : Indist P Q eps delta)
    {g : S → ℝ} (hg : Measurable g) (h0 : ∀ x, 0 ≤ g x) (h1 : ∀ x, g x ≤ 1) :
    ∫ x, g x ∂P ≤ exp eps * ∫ x, g x ∂Q + delta := by
  have hb : ∀ x, |g x| ≤ 1 := fun x => abs_le.2 ⟨by linarith [h0 x], h1 x⟩
  rw [(integrable_bdd (μ := P) hg hb).integral_eq_integral_Ioc_meas_le (M := 1) (Filter.Eventually.of_forall h0)
      (Filter.Eventually.of_forall h1),
    (integrable_bdd (μ := Q) hg hb).integral_eq_integral_Ioc_meas_le (M := 1) (Filter.Eventually.of_forall h0)
      (Filter.Eventually.of_forall h1)]
  have hint : ∀ (R : Measure S) [IsProbabilityMeasure R], IntegrableOn (fun t : ℝ => R.real {a | t ≤ g a}) (Set.Ioc 0 1) := by
    intro R _
    have hanti : Antitone fun t : ℝ => R.real {a | t ≤ g a} := fun s t hst => measureReal_mono fun a ha => le_trans hst ha
    exact integrable_bdd (B := 1) hanti.measurable fun t => by
      rw [abs_of_nonneg measureReal_nonneg]
      exact measureReal_le_one
  have : ∫ t in Set.Ioc (0 : ℝ) 1, P.real {a | t ≤ g a} ≤ ∫ t in Set.Ioc (0 : ℝ) 1, (exp eps * Q.real {a | t ≤ g a} + delta) :=
    integral_mono (hint P) (((hint Q).const_mul _).add (integrable_const _)) fun t => h _ (measurableSet_le measurable_const hg)
  refine this.trans (le_of_eq ?_)
  rw [integral_add ((hint Q).const_mul _) (integrable_const _), integral_const_mul]
  simp

/-- The largest difference of expectations of a function with values in the unit interval. -/
noncomputable def tau (eps delta : ℝ) : ℝ := (exp eps - 1 + 2 * delta) / (exp eps + 1)

theorem integral_sub_le {P Q : Measure S} [IsProbabilityMeasure P] [IsProbabilityMeasure Q] {eps delta : ℝ} (h : Indist P Q eps delta)
    (h' : Indist Q P eps delta) {g : S → ℝ} (hg : Measurable g) (h0 : ∀ x, 0 ≤ g x) (h1 : ∀ x, g x ≤ 1) :
    ∫ x, g x ∂P - ∫ x, g x ∂Q ≤ tau eps delta := by
  have hb : ∀ x, |g x| ≤ 1 := fun x => abs_le.2 ⟨by linarith [h0 x], h1 x⟩
  have e : ∀ (R : Measure S) [IsProbabilityMeasure R], ∫ x, (1 - g x) ∂R = 1 - ∫ x, g x ∂R := fun R _ => by
    rw [integral_sub (integrable_const _) (integrable_bdd hg hb)]
    simp
  have a1 := integral_le_of_indist h hg h0 h1
  have a2 := integral_le_of_indist h' (g := fun x => 1 - g x) (measurable_const.sub hg) (fun x => by linarith [h1 x]) fun x => by linarith [h0 x]
  rw [e, e] at a2
  unfold tau
  rw [le_div_iff₀ (by positivity)]
  nlinarith

theorem measurable_section {k : S → S → ℝ} (hk : Measurable fun p : S × S => k p.1 p.2) (R : Measure S) [IsProbabilityMeasure R] :
    Measurable fun x => ∫ y, k x y ∂R :=
  (StronglyMeasurable.integral_prod_right (f := k) hk.stronglyMeasurable).measurable

theorem mmdSq_le {P Q : Measure S} [IsProbabilityMeasure P] [IsProbabilityMeasure Q] {eps delta : ℝ} (heps : 0 < eps) (hdelta : 0 ≤ delta)
    (h : Indist P Q eps delta) (h' : Indist Q P eps delta) {k : S → S → ℝ} (hk : Measurable fun p : S × S => k p.1 p.2)
    (k0 : ∀ x y, 0 ≤ k x y) (k1 : ∀ x y, k x y ≤ 1) (ksymm : ∀ x y, k x y = k y x) : mmdSq k P Q ≤ 2 * tau eps delta ^ 2 := by
  have hu : 1 < exp eps := Real.one_lt_exp_iff.2 heps
  have ht : 0 < tau eps delta := by unfold tau; apply div_pos <;> linarith
  set τ := tau eps delta with hτ
  have hkx : ∀ x, Measurable (k x) := fun x => hk.comp (measurable_const.prodMk measurable_id)
  have kb : ∀ x y, |k x y| ≤ 1 := fun x y => abs_le.2 ⟨by linarith [k0 x y], k1 x y⟩
  have hsb : ∀ (R : Measure S) [IsProbabilityMeasure R] (x : S), |∫ y, k x y ∂R| ≤ 1 := fun R _ x => abs_integral_le (kb x)
  have hI : ∀ (R R' : Measure S) [IsProbabilityMeasure R] [IsProbabilityMeasure R'], Integrable (fun x => ∫ y, k x y ∂R) R' :=
    fun R R' _ _ => integrable_bdd (measurable_section hk R) (hsb R)
  -- the difference of the two embeddings
  set F : S → ℝ := fun x => ∫ y, k x y ∂P - ∫ y, k x y ∂Q with hF
  have hFm : Measurable F := (measurable_section hk P).sub (measurable_section hk Q)
  have hF1 : ∀ x, F x ≤ τ := fun x => integral_sub_le h h' (hkx x) (k0 x) (k1 x)
  have hF2 : ∀ x, -τ ≤ F x := fun x => by
    have := integral_sub_le h' h (hkx x) (k0 x) (k1 x)
    simp only [hF]
    linarith
  have hFb : ∀ x, |F x| ≤ τ := fun x => abs_le.2 ⟨hF2 x, hF1 x⟩
  have hG := integral_sub_le h h' (g := fun x => (F x + τ) / (2 * τ)) ((hFm.add_const τ).div_const _)
    (fun x => div_nonneg (by linarith [hF2 x]) (by linarith)) fun x => by
      rw [div_le_one (by linarith)]
      linarith [hF1 x]
  have hGe : ∀ (R : Measure S) [IsProbabilityMeasure R], ∫ x, (F x + τ) / (2 * τ) ∂R = (∫ x, F x ∂R + τ) / (2 * τ) := fun R _ => by
    rw [integral_div, integral_add (integrable_bdd hFm hFb) (integrable_const _)]
    simp
  rw [hGe, hGe, ← hτ, ← sub_div, div_le_iff₀ (by linarith)] at hG
  have hFe : ∀ (R : Measure S) [IsProbabilityMeasure R], ∫ x, F x ∂R = ∫ x, ∫ y, k x y ∂P ∂R - ∫ x, ∫ y, k x y ∂Q ∂R := fun R _ =>
    integral_sub (hI P R) (hI Q R)
  have hswap : ∫ x, ∫ y, k x y ∂P ∂Q = ∫ x, ∫ y, k x y ∂Q ∂P := by
    rw [integral_integral_swap (f := k) (integrable_bdd (f := Function.uncurry k) hk fun p => kb p.1 p.2)]
    simp_rw [ksymm]
  unfold mmdSq
  rw [hFe, hFe, hswap] at hG
  nlinarith

theorem tau_le {eps delta : ℝ} (heps : 0 < eps) (hdelta : 0 ≤ delta) : 2 * tau eps delta ^ 2 ≤ mmdBound eps delta := by
  have hu : 1 < exp eps := Real.one_lt_exp_iff.2 heps
  unfold tau mmdBound
  rw [exp_neg]
  set u := exp eps with hu'
  have h0 : 0 < u := by linarith
  rw [div_pow, ← mul_div_assoc, div_le_iff₀ (by positivity)]
  have e : ((u - 1) ^ 2 + 2 * (u - u⁻¹) * delta + (1 + u⁻¹) * delta ^ 2) * (u + 1) ^ 2 =
      (u - 1) ^ 2 * (u + 1) ^ 2 + 2 * ((u - 1) * (u + 1) ^ 3 / u) * delta + (u + 1) ^ 3 / u * delta ^ 2 := by
    field_simp
    ring
  rw [e]
  have h1 : 8 ≤ (u + 1) ^ 3 / u := by
    rw [le_div_iff₀ h0]
    nlinarith [sq_nonneg (u - 1)]
  have h2 : (u - 1) * 8 ≤ (u - 1) * (u + 1) ^ 3 / u := by
    rw [mul_div_assoc]
    exact mul_le_mul_of_nonneg_left h1 (by linarith)
  have h3 : (u - 1) * 8 * delta ≤ (u - 1) * (u + 1) ^ 3 / u * delta := mul_le_mul_of_nonneg_right h2 hdelta
  have h4 : 8 * delta ^ 2 ≤ (u + 1) ^ 3 / u * delta ^ 2 := mul_le_mul_of_nonneg_right h1 (sq_nonneg _)
  have h5 : 2 * (u - 1) ^ 2 ≤ (u - 1) ^ 2 * (u + 1) ^ 2 := by
    have : 2 ≤ (u + 1) ^ 2 := by nlinarith
    nlinarith [sq_nonneg (u - 1)]
  have h6 : 0 ≤ (u - 1) * delta := mul_nonneg (by linarith) hdelta
  nlinarith

end Verif.Mmd
