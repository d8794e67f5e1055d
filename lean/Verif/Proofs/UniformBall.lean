import Verif.Spec.Mechanisms
import Mathlib.Analysis.SpecialFunctions.Gaussian.FourierTransform
import Mathlib.MeasureTheory.Constructions.HaarToSphere

/-!
# Helper lemmas: polar coordinates of the normal distribution and of a ball
-/

namespace Verif.Spec
open MeasureTheory ProbabilityTheory Set Metric
open scoped RealInnerProductSpace ENNReal

variable {d : ℕ}

/-- The density of the standard normal distribution, as a function of the norm. -/
noncomputable def radialDensity (d : ℕ) (ρ : ℝ) : ℝ := (2 * Real.pi) ^ (-(d / 2 : ℝ)) * Real.exp (-(1 / 2) * ρ ^ 2)

lemma radialDensity_nonneg (d : ℕ) (ρ : ℝ) : 0 ≤ radialDensity d ρ := by unfold radialDensity; positivity

lemma measurable_radialDensity (d : ℕ) : Measurable (radialDensity d) := by unfold radialDensity; fun_prop

lemma integral_radial (d : ℕ) : ∫ v : Vec d, radialDensity d ‖v‖ = 1 := by
  unfold radialDensity
  rw [integral_const_mul, GaussianFourier.integral_rexp_neg_mul_sq_norm (by norm_num)]
  rw [finrank_euclideanSpace_fin, show Real.pi / (1 / 2) = 2 * Real.pi by ring, ← Real.rpow_add (by positivity)]
  simp

lemma integrable_radial (d : ℕ) : Integrable fun v : Vec d => radialDensity d ‖v‖ := by
  by_contra h
  have := integral_radial d
  rw [integral_undef h] at this
  norm_num at this

lemma stdGaussian_density (d : ℕ) :
    stdGaussian (Vec d) = volume.withDensity fun v => ENNReal.ofReal (radialDensity d ‖v‖) := by
  have hm : Measurable fun v : Vec d => ENNReal.ofReal (radialDensity d ‖v‖) :=
    ((measurable_radialDensity d).comp measurable_norm).ennreal_ofReal
  have hp : IsProbabilityMeasure (volume.withDensity fun v : Vec d => ENNReal.ofReal (radialDensity d ‖v‖)) := by
    constructor
    rw [withDensity_apply _ MeasurableSet.univ, Measure.restrict_univ,
      ← ofReal_integral_eq_lintegral_ofReal (integrable_radial d) (Filter.Eventually.of_forall fun v => radialDensity_nonneg d _),
      integral_radial, ENNReal.ofReal_one]
  refine Measure.ext_of_charFun ?_
  funext t
  rw [charFun_stdGaussian, charFun_apply, integral_withDensity_eq_integral_toReal_smul hm (by simp)]
  have h := GaussianFourier.integral_cexp_neg_mul_sq_norm_add (V := Vec d) (b := 1 / 2) (by norm_num) Complex.I t
  have h2 : ∀ v : Vec d, (ENNReal.ofReal (radialDensity d ‖v‖)).toReal • Complex.exp (⟪v, t⟫ * Complex.I) =
      (((2 * Real.pi) ^ (-(d / 2 : ℝ)) : ℝ) : ℂ) * Complex.exp (-(1 / 2) * ‖v‖ ^ 2 + Complex.I * ⟪t, v⟫) := by
    intro v
    rw [ENNReal.toReal_ofReal (radialDensity_nonneg d _), Complex.real_smul, Complex.exp_add, radialDensity, Complex.ofReal_mul,
      Complex.ofReal_exp, real_inner_comm]
    push_cast
    ring_nf
  simp only [h2]
  rw [integral_const_mul, h, finrank_euclideanSpace_fin, ← mul_assoc]
  have h3 : (((2 * Real.pi) ^ (-(d / 2 : ℝ)) : ℝ) : ℂ) * ((Real.pi : ℂ) / (1 / 2)) ^ ((d : ℂ) / 2) = 1 := by
    rw [show ((Real.pi : ℂ) / (1 / 2)) = ((2 * Real.pi : ℝ) : ℂ) by push_cast; ring,
      show ((d : ℂ) / 2) = ((d / 2 : ℝ) : ℂ) by push_cast; ring, ← Complex.ofReal_cpow (by positivity), ← Complex.ofReal_mul,
      ← Real.rpow_add (by positivity)]
    simp
  rw [h3, one_mul, Complex.I_sq]
  congr 1
  ring

/-- Integration in polar coordinates. -/
lemma lintegral_polar [Nontrivial (Vec d)] {h : Vec d → ℝ≥0∞} (hh : Measurable h) :
    ∫⁻ x, h x = ∫⁻ s, ∫⁻ ρ, h (ρ.1 • s.1) ∂(Measure.volumeIoiPow (d - 1)) ∂((volume : Measure (Vec d)).toSphere) := by
  have hmp := (volume : Measure (Vec d)).measurePreserving_homeomorphUnitSphereProd
  rw [finrank_euclideanSpace_fin] at hmp
  have hF : Measurable fun p : sphere (0 : Vec d) 1 × Ioi (0 : ℝ) => h (p.2.1 • p.1.1) := by fun_prop
  rw [← lintegral_prod (fun p : sphere (0 : Vec d) 1 × Ioi (0 : ℝ) => h (p.2.1 • p.1.1)) hF.aemeasurable, ← hmp.lintegral_comp hF]
  have h1 : ∀ x : ({0}ᶜ : Set (Vec d)), h (((homeomorphUnitSphereProd (Vec d)) x).2.1 • ((homeomorphUnitSphereProd (Vec d)) x).1.1) = h x.1 := by
    intro x
    congr 1
    have := (homeomorphUnitSphereProd (Vec d)).symm_apply_apply x
    conv_rhs => rw [← this]
    rfl
  simp only [h1]
  rw [lintegral_subtype_comap (measurableSet_singleton _).compl, restrict_compl_singleton]

lemma lintegral_ioiPow (n : ℕ) {k : ℝ → ℝ≥0∞} (hk : Measurable k) :
    ∫⁻ ρ, k ρ.1 ∂(Measure.volumeIoiPow n) = ∫⁻ ρ in Ioi (0 : ℝ), ENNReal.ofReal (ρ ^ n) * k ρ := by
  rw [Measure.volumeIoiPow, lintegral_withDensity_eq_lintegral_mul _ (by fun_prop) (by fun_prop)]
  exact lintegral_subtype_comap measurableSet_Ioi fun ρ : ℝ => ENNReal.ofReal (ρ ^ n) * k ρ

/-- The radius `r u^(1/d)` of a uniform `u` has the law of the radius in a ball of radius `r`. -/
lemma lintegral_root (hd : d ≠ 0) {r : ℝ} (hr : 0 < r) {k : ℝ → ℝ≥0∞} (hk : Measurable k) :
    ∫⁻ u in Ioo (0 : ℝ) 1, k (r * u ^ (1 / (d : ℝ))) =
      ENNReal.ofReal (d / r ^ d) * ∫⁻ ρ, (Iio r).indicator k ρ.1 ∂(Measure.volumeIoiPow (d - 1)) := by
  rw [lintegral_ioiPow _ (hk.indicator measurableSet_Iio)]
  have himg : (fun ρ : ℝ => (ρ / r) ^ d) '' Ioo 0 r = Ioo 0 1 := by
    ext u
    constructor
    · rintro ⟨ρ, ⟨h1, h2⟩, rfl⟩
      refine ⟨by positivity, pow_lt_one₀ (by positivity) ((div_lt_one hr).2 h2) hd⟩
    · rintro ⟨h1, h2⟩
      refine ⟨r * u ^ (1 / (d : ℝ)), ⟨by positivity, ?_⟩, ?_⟩
      · exact mul_lt_of_lt_one_right hr (Real.rpow_lt_one h1.le h2 (by positivity))
      · show (r * u ^ (1 / (d : ℝ)) / r) ^ d = u
        rw [mul_div_cancel_left₀ _ hr.ne', one_div, Real.rpow_inv_natCast_pow h1.le hd]
  have hder : ∀ ρ ∈ Ioo (0 : ℝ) r, HasDerivWithinAt (fun ρ : ℝ => (ρ / r) ^ d) (d * ρ ^ (d - 1) / r ^ d) (Ioo 0 r) ρ := by
    intro ρ _
    have h := ((hasDerivAt_id ρ).div_const r).pow d
    refine (h.congr_deriv ?_).hasDerivWithinAt
    simp only [id]
    rw [div_pow]
    obtain ⟨m, rfl⟩ := Nat.exists_eq_succ_of_ne_zero hd
    simp only [Nat.succ_eq_add_one, Nat.add_sub_cancel, pow_succ]
    field_simp
  have hinj : InjOn (fun ρ : ℝ => (ρ / r) ^ d) (Ioo 0 r) := by
    intro x hx y hy h
    have h' := (pow_left_inj₀ (div_pos hx.1 hr).le (div_pos hy.1 hr).le hd).1 h
    field_simp at h'
    exact h'
  have key := lintegral_image_eq_lintegral_abs_deriv_mul measurableSet_Ioo hder hinj fun u => k (r * u ^ (1 / (d : ℝ)))
  rw [himg] at key
  rw [key, ← lintegral_const_mul _ (by fun_prop (disch := exact measurableSet_Iio)), ← lintegral_indicator measurableSet_Ioo, ← lintegral_indicator measurableSet_Ioi]
  refine lintegral_congr fun ρ => ?_
  by_cases h0 : 0 < ρ
  · by_cases h1 : ρ < r
    · rw [indicator_of_mem (show ρ ∈ Ioo 0 r from ⟨h0, h1⟩), indicator_of_mem (show ρ ∈ Ioi 0 from h0),
        indicator_of_mem (show ρ ∈ Iio r from h1), abs_of_nonneg (by positivity), ← mul_assoc, ← ENNReal.ofReal_mul (by positivity)]
      congr 2
      · ring
      · rw [one_div, Real.pow_rpow_inv_natCast (by positivity) hd]
        field_simp
    · rw [indicator_of_notMem (fun h => h1 h.2), indicator_of_mem (show ρ ∈ Ioi 0 from h0), indicator_of_notMem (show ρ ∉ Iio r from h1)]
      simp
  · rw [indicator_of_notMem (fun h => h0 h.1), indicator_of_notMem (show ρ ∉ Ioi 0 from h0)]

/-- A normal vector, scaled to the norm `r u^(1/d)` for an independent uniform `u`, is uniform in the ball of radius `r`. -/
theorem uniform_ball (hd : d ≠ 0) {r : ℝ} (hr : 0 < r) :
    ((stdGaussian (Vec d)).prod (volume.restrict (Ioo (0 : ℝ) 1))).map (fun p => (r * p.2 ^ (1 / (d : ℝ)) / ‖p.1‖) • p.1) =
      (volume (ball (0 : Vec d) r))⁻¹ • volume.restrict (ball (0 : Vec d) r) := by
  haveI : Nonempty (Fin d) := ⟨⟨0, Nat.pos_of_ne_zero hd⟩⟩
  haveI : Nontrivial (Vec d) := inferInstance
  have hf : Measurable fun p : Vec d × ℝ => (r * p.2 ^ (1 / (d : ℝ)) / ‖p.1‖) • p.1 := by fun_prop
  set σ := (volume : Measure (Vec d)).toSphere
  set G := ∫⁻ ρ, ENNReal.ofReal (radialDensity d ρ.1) ∂(Measure.volumeIoiPow (d - 1)) with hG
  set K := ENNReal.ofReal (d / r ^ d)
  have hK0 : K ≠ 0 := by
    have : (0 : ℝ) < d := by exact_mod_cast Nat.pos_of_ne_zero hd
    simp only [K, ne_eq, ENNReal.ofReal_eq_zero, not_le]
    positivity
  have hK1 : K ≠ ⊤ := ENNReal.ofReal_ne_top
  set A := ((stdGaussian (Vec d)).prod (volume.restrict (Ioo (0 : ℝ) 1))).map (fun p => (r * p.2 ^ (1 / (d : ℝ)) / ‖p.1‖) • p.1) with hA
  have key : A = (G * K) • volume.restrict (ball (0 : Vec d) r) := by
    refine Measure.ext_of_lintegral _ fun h hh => ?_
    have hg : Measurable fun v : Vec d => ENNReal.ofReal (radialDensity d ‖v‖) :=
      ((measurable_radialDensity d).comp measurable_norm).ennreal_ofReal
    have hH : Measurable fun z : Vec d => ∫⁻ u in Ioo (0 : ℝ) 1, h ((r * u ^ (1 / (d : ℝ)) / ‖z‖) • z) :=
      Measurable.lintegral_prod_right' (f := fun p : Vec d × ℝ => h ((r * p.2 ^ (1 / (d : ℝ)) / ‖p.1‖) • p.1)) (by fun_prop)
    have hI : Measurable fun s : sphere (0 : Vec d) 1 =>
        ∫⁻ ρ, (ball (0 : Vec d) r).indicator h (ρ.1 • s.1) ∂(Measure.volumeIoiPow (d - 1)) :=
      Measurable.lintegral_prod_right' (f := fun p : sphere (0 : Vec d) 1 × Ioi (0 : ℝ) => (ball (0 : Vec d) r).indicator h (p.2.1 • p.1.1))
        ((hh.indicator measurableSet_ball).comp (by fun_prop))
    rw [hA, lintegral_map hh hf, lintegral_prod _ (by fun_prop), stdGaussian_density,
      lintegral_withDensity_eq_lintegral_mul _ hg hH, lintegral_polar (hg.mul hH), lintegral_smul_measure, ← lintegral_indicator measurableSet_ball, lintegral_polar (hh.indicator measurableSet_ball)]
    rw [smul_eq_mul, mul_assoc, ← lintegral_const_mul' _ _ hK1, ← lintegral_const_mul _ (hI.const_mul K)]
    refine lintegral_congr fun s => ?_
    have hs : ‖s.1‖ = 1 := by simpa using s.2
    have e1 : ∀ ρ : Ioi (0 : ℝ), (∫⁻ u in Ioo (0 : ℝ) 1, h ((r * u ^ (1 / (d : ℝ)) / ‖ρ.1 • s.1‖) • ρ.1 • s.1)) =
        ∫⁻ u in Ioo (0 : ℝ) 1, h ((r * u ^ (1 / (d : ℝ))) • s.1) := by
      intro ρ
      have hρ : 0 < ρ.1 := ρ.2
      refine lintegral_congr fun u => ?_
      rw [norm_smul, hs, Real.norm_of_nonneg hρ.le, mul_one, smul_smul, div_mul_cancel₀ _ hρ.ne']
    have e2 : ∀ ρ : Ioi (0 : ℝ), ENNReal.ofReal (radialDensity d ‖ρ.1 • s.1‖) = ENNReal.ofReal (radialDensity d ρ.1) := by
      intro ρ
      have hρ : 0 < ρ.1 := ρ.2
      rw [norm_smul, hs, Real.norm_of_nonneg hρ.le, mul_one]
    have e3 : ∀ ρ : Ioi (0 : ℝ), (ball (0 : Vec d) r).indicator h (ρ.1 • s.1) = (Iio r).indicator (fun t => h (t • s.1)) ρ.1 := by
      intro ρ
      have hρ : 0 < ρ.1 := ρ.2
      by_cases hlt : ρ.1 < r
      · rw [indicator_of_mem, indicator_of_mem (show ρ.1 ∈ Iio r from hlt)]
        simpa [norm_smul, hs, abs_of_pos hρ] using hlt
      · rw [indicator_of_notMem, indicator_of_notMem (show ρ.1 ∉ Iio r from hlt)]
        simpa [norm_smul, hs, abs_of_pos hρ] using hlt
    simp only [Pi.mul_apply, e1, e2, e3]
    rw [lintegral_mul_const _ (by have := measurable_radialDensity d; fun_prop), ← hG,
      lintegral_root hd hr (k := fun t => h (t • s.1)) (by fun_prop)]
  have h1 : A univ = 1 := by
    haveI : IsProbabilityMeasure (volume.restrict (Ioo (0 : ℝ) 1)) := ⟨by simp⟩
    haveI : IsProbabilityMeasure A := Measure.isProbabilityMeasure_map hf.aemeasurable
    exact measure_univ
  rw [key]
  congr 1
  rw [key, Measure.smul_apply, Measure.restrict_apply_univ, smul_eq_mul] at h1
  exact ENNReal.eq_inv_of_mul_eq_one_left h1

end Verif.Spec
