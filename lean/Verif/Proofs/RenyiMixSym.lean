import Verif.Proofs.RenyiGauss
import Mathlib.Analysis.Convex.Deriv

/-! # The Poisson-sampled Gaussian mixture: the other direction -/

namespace Verif.Spec
open MeasureTheory ProbabilityTheory
open scoped ENNReal NNReal

/-- `y^α - y^(1-α)` is convex on `[1, ∞)`. -/
lemma convex_k {α : ℝ} (hα : 1 ≤ α) : ConvexOn ℝ (Set.Ici (1 : ℝ)) fun y => y ^ α - y ^ (1 - α) := by
  have hd : ∀ y ∈ Set.Ioi (1 : ℝ), HasDerivAt (fun y : ℝ => y ^ α - y ^ (1 - α)) (α * y ^ (α - 1) - (1 - α) * y ^ (1 - α - 1)) y := by
    intro y hy
    have hy0 : y ≠ 0 := by have : (1 : ℝ) < y := hy; linarith
    exact (Real.hasDerivAt_rpow_const (Or.inl hy0)).sub (Real.hasDerivAt_rpow_const (Or.inl hy0))
  have hd2 : ∀ y ∈ Set.Ioi (1 : ℝ), HasDerivAt (fun y : ℝ => α * y ^ (α - 1) - (1 - α) * y ^ (1 - α - 1))
      (α * ((α - 1) * y ^ (α - 1 - 1)) - (1 - α) * ((1 - α - 1) * y ^ (1 - α - 1 - 1))) y := by
    intro y hy
    have hy0 : y ≠ 0 := by have : (1 : ℝ) < y := hy; linarith
    exact ((Real.hasDerivAt_rpow_const (Or.inl hy0)).const_mul _).sub ((Real.hasDerivAt_rpow_const (Or.inl hy0)).const_mul _)
  refine convexOn_of_hasDerivWithinAt2_nonneg (convex_Ici 1) ?_ (f' := fun y => α * y ^ (α - 1) - (1 - α) * y ^ (1 - α - 1))
    (f'' := fun y => α * ((α - 1) * y ^ (α - 1 - 1)) - (1 - α) * ((1 - α - 1) * y ^ (1 - α - 1 - 1))) ?_ ?_ ?_
  · intro y hy
    have hy0 : y ≠ 0 := by have : (1 : ℝ) ≤ y := hy; linarith
    exact ((Real.continuousAt_rpow_const y α (Or.inl hy0)).sub (Real.continuousAt_rpow_const y (1 - α) (Or.inl hy0))).continuousWithinAt
  · rw [interior_Ici]; exact fun y hy => (hd y hy).hasDerivWithinAt
  · rw [interior_Ici]; exact fun y hy => (hd2 y hy).hasDerivWithinAt
  · rw [interior_Ici]
    intro y hy
    have hy1 : (1 : ℝ) < y := hy
    have h1 : y ^ (1 - α - 1 - 1) ≤ y ^ (α - 1 - 1) := Real.rpow_le_rpow_of_exponent_le hy1.le (by linarith)
    have h2 : 0 ≤ α * (α - 1) := mul_nonneg (by linarith) (by linarith)
    nlinarith

/-- Slopes from 1 increase. -/
lemma k_slope {α : ℝ} (hα : 1 ≤ α) {t u : ℝ} (ht : 1 ≤ t) (htu : t ≤ u) :
    (u - 1) * (t ^ α - t ^ (1 - α)) ≤ (t - 1) * (u ^ α - u ^ (1 - α)) := by
  rcases ht.eq_or_lt with rfl | ht
  · simp
  rcases htu.eq_or_lt with rfl | htu
  · exact le_rfl
  have hc := convex_k hα
  have h1 : (0 : ℝ) < u - 1 := by linarith
  have := hc.2 (show (1 : ℝ) ∈ Set.Ici 1 by simp) (show u ∈ Set.Ici 1 by simp; linarith)
    (show 0 ≤ (u - t) / (u - 1) by apply div_nonneg <;> linarith) (show 0 ≤ (t - 1) / (u - 1) by apply div_nonneg <;> linarith)
    (by field_simp; ring)
  simp only [smul_eq_mul, Real.one_rpow, sub_self, mul_zero, zero_add] at this
  have e : (u - t) / (u - 1) * 1 + (t - 1) / (u - 1) * u = t := by field_simp; ring
  rw [e] at this
  calc (u - 1) * (t ^ α - t ^ (1 - α)) ≤ (u - 1) * ((t - 1) / (u - 1) * (u ^ α - u ^ (1 - α))) :=
        mul_le_mul_of_nonneg_left this h1.le
    _ = _ := by field_simp

/-- The pointwise inequality behind the symmetry argument. -/
lemma mix_pointwise {α q x : ℝ} (hα : 1 ≤ α) (h0 : 0 ≤ q) (h1 : q ≤ 1) (hx : 0 < x) :
    (1 - q + q * x) ^ (1 - α) + x * (1 - q + q * x⁻¹) ^ (1 - α) ≤ (1 - q + q * x) ^ α + x * (1 - q + q * x⁻¹) ^ α := by
  -- the case `x ≥ 1`; the other one follows by exchanging `x` and `x⁻¹`
  have main : ∀ x : ℝ, 1 ≤ x →
      (1 - q + q * x) ^ (1 - α) + x * (1 - q + q * x⁻¹) ^ (1 - α) ≤ (1 - q + q * x) ^ α + x * (1 - q + q * x⁻¹) ^ α := by
    intro x hx1
    have hx : 0 < x := by linarith
    set u := 1 - q + q * x with hu
    set w := 1 - q + q * x⁻¹ with hw
    have hxi : 0 < x⁻¹ := inv_pos.2 hx
    have hu1 : 1 ≤ u := by rw [hu]; nlinarith
    have hxi1 : x⁻¹ ≤ 1 := inv_le_one_of_one_le₀ hx1
    have hwpos : 0 < w := by
      rcases h1.eq_or_lt with rfl | h1'
      · rw [hw]; linarith
      · rw [hw]; nlinarith
    have hw1 : w ≤ 1 := by rw [hw]; nlinarith
    set t := w⁻¹ with ht
    have ht1 : 1 ≤ t := one_le_inv₀ hwpos |>.2 hw1
    have huw : 1 ≤ u * w := by
      have e : u * w = 1 + q * (1 - q) * (x + x⁻¹ - 2) := by
        rw [hu, hw]; field_simp; ring
      have : 0 ≤ x + x⁻¹ - 2 := by
        have : x + x⁻¹ - 2 = (x - 1) ^ 2 / x := by field_simp; ring
        rw [this]; positivity
      rw [e]
      have := mul_nonneg (mul_nonneg h0 (sub_nonneg.2 h1)) this
      linarith
    have htu : t ≤ u := by rw [ht, inv_le_iff_one_le_mul₀ hwpos]; exact huw
    have hs := k_slope hα ht1 htu
    -- rewrite powers of `t` as powers of `w`
    have e1 : t ^ α = (w ^ α)⁻¹ := by rw [ht, Real.inv_rpow hwpos.le]
    have e2 : w ^ (1 - α) = w * (w ^ α)⁻¹ := by rw [Real.rpow_sub hwpos, Real.rpow_one]; rfl
    have e3 : t ^ (1 - α) = w⁻¹ * w ^ α := by
      rw [ht, Real.inv_rpow hwpos.le, e2, mul_inv, inv_inv]
    rw [e1, e3] at hs
    have hwa : 0 < w ^ α := Real.rpow_pos_of_pos hwpos _
    -- `x (w - 1) = -(u - 1)`
    have e4 : x * (1 - w) = u - 1 := by rw [hu, hw]; field_simp; ring
    rw [e2]
    by_cases hwe : w = 1
    · have : u = 1 := by rw [hwe] at e4; linarith
      rw [hwe, this]; simp
    have hwl : 0 < 1 - w := by
      rcases hw1.lt_or_eq with h | h
      · linarith
      · exact absurd h hwe
    have e5 : t - 1 = (1 - w) / w := by rw [ht]; field_simp
    rw [e5] at hs
    have hs' : x * (w * (w ^ α)⁻¹ - w ^ α) ≤ u ^ α - u ^ (1 - α) := by
      have h2 : (1 - w) / w * (x * (w * (w ^ α)⁻¹ - w ^ α)) ≤ (1 - w) / w * (u ^ α - u ^ (1 - α)) := by
        refine le_trans (le_of_eq ?_) hs
        rw [← e4]; field_simp
      exact le_of_mul_le_mul_left h2 (by positivity)
    nlinarith
  rcases le_total 1 x with h | h
  · exact main x h
  · have h2 := main x⁻¹ ((one_le_inv₀ hx).2 h)
    rw [inv_inv] at h2
    have h3 := mul_le_mul_of_nonneg_left h2 hx.le
    have e : ∀ a b : ℝ, x * (a + x⁻¹ * b) = b + x * a := fun a b => by field_simp; ring
    rw [e, e] at h3
    exact h3

lemma gaussLR_reflect (v : ℝ≥0) (x : ℝ) : gaussLR 1 v (1 - x) = (gaussLR 1 v x)⁻¹ := by
  unfold gaussLR
  rw [← Real.exp_neg]; congr 1; ring

/-- Change of measure followed by reflection. -/
lemma lintegral_reflect {v : ℝ≥0} (hv : v ≠ 0) {g : ℝ → ℝ≥0∞} (hg : Measurable g) :
    ∫⁻ x, ENNReal.ofReal (gaussLR 1 v x) * g (gaussLR 1 v x)⁻¹ ∂gaussianReal 0 v = ∫⁻ x, g (gaussLR 1 v x) ∂gaussianReal 0 v := by
  have hm : Measurable fun x => g (gaussLR 1 v x)⁻¹ := hg.comp (measurable_gaussLR 1 v).inv
  have h1 : ∫⁻ x, g (gaussLR 1 v x)⁻¹ ∂gaussianReal 1 v =
      ∫⁻ x, ENNReal.ofReal (gaussLR 1 v x) * g (gaussLR 1 v x)⁻¹ ∂gaussianReal 0 v := by
    rw [gaussian_withDensity 1 hv, lintegral_withDensity_eq_lintegral_mul _ (measurable_gaussLR 1 v).ennreal_ofReal hm]
    rfl
  rw [← h1]
  have h2 : gaussianReal 1 v = (gaussianReal 0 v).map fun x => 1 - x := by rw [gaussianReal_map_const_sub]; simp
  rw [h2, lintegral_map hm (by fun_prop)]
  simp_rw [gaussLR_reflect, inv_inv]

lemma mixLR_pos {q : ℝ} (h0 : 0 ≤ q) (h1 : q ≤ 1) (v : ℝ≥0) (x : ℝ) : 0 < mixLR q v x := by
  have := gaussLR_pos 1 v x
  unfold mixLR
  rcases h1.eq_or_lt with rfl | h
  · simpa using this
  · have := mul_nonneg h0 this.le
    linarith

lemma measurable_mixLR_inv (q : ℝ) (v : ℝ≥0) : Measurable fun x => (mixLR q v x)⁻¹ := (measurable_mixLR q v).inv

lemma gaussian_withDensity_mix {q : ℝ} (h0 : 0 ≤ q) (h1 : q ≤ 1) {v : ℝ≥0} (hv : v ≠ 0) :
    gaussianReal 0 v = (gaussMix q v).withDensity fun x => ENNReal.ofReal (mixLR q v x)⁻¹ := by
  rw [gaussMix_withDensity h0 h1 hv, ← withDensity_mul _ (measurable_mixLR q v).ennreal_ofReal
    (measurable_mixLR_inv q v).ennreal_ofReal]
  have : ((fun x => ENNReal.ofReal (mixLR q v x)) * fun x => ENNReal.ofReal (mixLR q v x)⁻¹) = 1 := by
    ext x
    have := mixLR_pos h0 h1 v x
    simp only [Pi.mul_apply, Pi.one_apply]
    rw [← ENNReal.ofReal_mul this.le, mul_inv_cancel₀ this.ne', ENNReal.ofReal_one]
  rw [this, withDensity_one]

/-- The moment of the reverse direction is not larger. -/
lemma reverse_moment_le {q : ℝ} (h0 : 0 ≤ q) (h1 : q ≤ 1) {v : ℝ≥0} (hv : v ≠ 0) {α : ℝ} (hα : 1 ≤ α) :
    renyiMoment α (gaussianReal 0 v) (gaussMix q v) ≤ renyiMoment α (gaussMix q v) (gaussianReal 0 v) := by
  have := gaussMix_prob h0 h1 v
  have hα0 : 0 ≤ α := by linarith
  have eB : renyiMoment α (gaussianReal 0 v) (gaussMix q v) = ∫⁻ x, ENNReal.ofReal (mixLR q v x ^ (1 - α)) ∂gaussianReal 0 v := by
    conv_lhs => rw [gaussian_withDensity_mix h0 h1 hv]
    rw [renyiMoment_withDensity _ _ (measurable_mixLR_inv q v).ennreal_ofReal]
    conv_lhs => rw [gaussMix_withDensity h0 h1 hv]
    rw [lintegral_withDensity_eq_lintegral_mul _ (measurable_mixLR q v).ennreal_ofReal
      ((measurable_mixLR_inv q v).ennreal_ofReal.pow_const _)]
    refine lintegral_congr fun x => ?_
    have := mixLR_pos h0 h1 v x
    simp only [Pi.mul_apply]
    rw [ENNReal.ofReal_rpow_of_nonneg (inv_nonneg.2 this.le) hα0, ← ENNReal.ofReal_mul this.le, Real.inv_rpow this.le,
      Real.rpow_sub this, Real.rpow_one]
    rfl
  have eA : renyiMoment α (gaussMix q v) (gaussianReal 0 v) = ∫⁻ x, ENNReal.ofReal (mixLR q v x ^ α) ∂gaussianReal 0 v := by
    rw [gaussMix_withDensity h0 h1 hv, renyiMoment_withDensity _ _ (measurable_mixLR q v).ennreal_ofReal]
    refine lintegral_congr fun x => ?_
    rw [ENNReal.ofReal_rpow_of_nonneg (mixLR_nonneg h0 h1 v x) hα0]
  rw [eA, eB]
  -- both integrals are averages of a term and its reflection
  have key : ∀ a : ℝ, ∫⁻ x, ENNReal.ofReal (mixLR q v x ^ a) ∂gaussianReal 0 v + ∫⁻ x, ENNReal.ofReal (mixLR q v x ^ a) ∂gaussianReal 0 v
      = ∫⁻ x, ENNReal.ofReal ((1 - q + q * gaussLR 1 v x) ^ a + gaussLR 1 v x * (1 - q + q * (gaussLR 1 v x)⁻¹) ^ a) ∂gaussianReal 0 v := by
    intro a
    have hg : Measurable fun y : ℝ => ENNReal.ofReal ((1 - q + q * y) ^ a) := by fun_prop
    conv_lhs => rw [← show _ = ∫⁻ x, ENNReal.ofReal (mixLR q v x ^ a) ∂gaussianReal 0 v from lintegral_reflect hv hg]
    rw [show (∫⁻ x, ENNReal.ofReal (gaussLR 1 v x) * ENNReal.ofReal ((1 - q + q * (gaussLR 1 v x)⁻¹) ^ a) ∂gaussianReal 0 v)
        = ∫⁻ x, ENNReal.ofReal (mixLR q v x ^ a) ∂gaussianReal 0 v from lintegral_reflect hv hg]
    conv_lhs => enter [2]; rw [← show _ = ∫⁻ x, ENNReal.ofReal (mixLR q v x ^ a) ∂gaussianReal 0 v from lintegral_reflect hv hg]
    rw [← lintegral_add_left ((measurable_mixLR q v).pow_const a).ennreal_ofReal]
    refine lintegral_congr fun x => ?_
    have hL := gaussLR_pos 1 v x
    have h3 : 0 ≤ 1 - q + q * (gaussLR 1 v x)⁻¹ := add_nonneg (by linarith) (mul_nonneg h0 (inv_nonneg.2 hL.le))
    rw [← ENNReal.ofReal_mul hL.le, ← ENNReal.ofReal_add (Real.rpow_nonneg (mixLR_nonneg h0 h1 v x) _)
      (mul_nonneg hL.le (Real.rpow_nonneg h3 _))]
    rfl
  have h2 : ∀ a : ℝ, ∫⁻ x, ENNReal.ofReal (mixLR q v x ^ a) ∂gaussianReal 0 v =
      2⁻¹ * ∫⁻ x, ENNReal.ofReal ((1 - q + q * gaussLR 1 v x) ^ a + gaussLR 1 v x * (1 - q + q * (gaussLR 1 v x)⁻¹) ^ a) ∂gaussianReal 0 v := by
    intro a
    rw [← key a, ← two_mul, ← mul_assoc, ENNReal.inv_mul_cancel two_ne_zero ENNReal.ofNat_ne_top, one_mul]
  rw [h2, h2]
  refine mul_le_mul_right (lintegral_mono fun x => ENNReal.ofReal_le_ofReal ?_) _
  exact mix_pointwise hα h0 h1 (gaussLR_pos 1 v x)

lemma renyi_gaussMix_reverse {q : ℝ} (h0 : 0 ≤ q) (h1 : q ≤ 1) {v : ℝ≥0} (hv : v ≠ 0) (m : ℕ) (hm : 2 ≤ m) :
    renyiDiv m (gaussianReal 0 v) (gaussMix q v) ≤ ((Real.log (mixMoment q v m) / (m - 1) : ℝ) : EReal) := by
  have hm' : (1 : ℝ) < m := by exact_mod_cast hm
  rw [renyi_le_iff hm']
  refine ⟨?_, (reverse_moment_le h0 h1 hv hm'.le).trans ?_⟩
  · conv_lhs => rw [gaussian_withDensity_mix h0 h1 hv]
    exact withDensity_absolutelyContinuous _ _
  · rw [gaussMix_moment h0 h1 hv, mul_div_cancel₀ _ (by linarith), Real.exp_log (mixMoment_pos h0 h1 v m)]

end Verif.Spec
