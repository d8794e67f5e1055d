import Verif.Proofs.RenyiMixSym
import Verif.Spec.Mechanisms

/-! # Vector-valued Gaussian mechanisms reduce to the one-dimensional one -/

namespace Verif.Spec
open MeasureTheory ProbabilityTheory Complex
open scoped ENNReal NNReal RealInnerProductSpace

variable {d : ℕ}

/-- `z ↦ z - c ⟪v, z⟫ v` with `c = 1 / (1 + √(1 - ‖v‖²))`: the symmetric square root of `I - v vᵀ`. -/
noncomputable def compl (v z : Vec d) : Vec d := z - ((1 / (1 + Real.sqrt (1 - ‖v‖ ^ 2))) * ⟪v, z⟫) • v

lemma measurable_compl (v : Vec d) : Measurable (compl v) := by
  unfold compl
  have : Continuous fun z : Vec d => z - ((1 / (1 + Real.sqrt (1 - ‖v‖ ^ 2))) * ⟪v, z⟫) • v := by fun_prop
  exact this.measurable

lemma compl_symm (v z t : Vec d) : ⟪compl v z, t⟫ = ⟪z, compl v t⟫ := by
  unfold compl
  rw [inner_sub_left, inner_sub_right, real_inner_smul_left, real_inner_smul_right, real_inner_comm z v]
  ring

lemma norm_compl (v t : Vec d) (hv : ‖v‖ ≤ 1) : ‖compl v t‖ ^ 2 = ‖t‖ ^ 2 - ⟪v, t⟫ ^ 2 := by
  unfold compl
  set c := 1 / (1 + Real.sqrt (1 - ‖v‖ ^ 2)) with hc
  rw [norm_sub_sq_real, real_inner_smul_right, norm_smul, mul_pow, Real.norm_eq_abs, sq_abs, real_inner_comm v t]
  have hs : Real.sqrt (1 - ‖v‖ ^ 2) ^ 2 = 1 - ‖v‖ ^ 2 := Real.sq_sqrt (by nlinarith [norm_nonneg v])
  have h0 := Real.sqrt_nonneg (1 - ‖v‖ ^ 2)
  have key : 2 * c - c ^ 2 * ‖v‖ ^ 2 = 1 := by
    have h2 : ‖v‖ ^ 2 = 1 - Real.sqrt (1 - ‖v‖ ^ 2) ^ 2 := by rw [hs]; ring
    generalize Real.sqrt (1 - ‖v‖ ^ 2) = s at *
    have : 1 + s ≠ 0 := by linarith
    rw [h2, hc]
    field_simp
    ring
  linear_combination (-(⟪v, t⟫ ^ 2)) * key

lemma stdGaussian_reduce (v : Vec d) (hv : ‖v‖ ≤ 1) :
    ((gaussianReal 0 1).prod (stdGaussian (Vec d))).map (fun p => p.1 • v + compl v p.2) = stdGaussian (Vec d) := by
  have hm : Measurable fun p : ℝ × Vec d => p.1 • v + compl v p.2 := by
    have := measurable_compl v
    fun_prop
  have : IsProbabilityMeasure (((gaussianReal 0 1).prod (stdGaussian (Vec d))).map (fun p => p.1 • v + compl v p.2)) :=
    Measure.isProbabilityMeasure_map hm.aemeasurable
  apply Measure.ext_of_charFun
  ext t
  rw [charFun_apply, integral_map hm.aemeasurable (by fun_prop), charFun_stdGaussian]
  have e : ∀ p : ℝ × Vec d, cexp (⟪p.1 • v + compl v p.2, t⟫ * I) = cexp (⟪v, t⟫ * p.1 * I) * cexp (⟪p.2, compl v t⟫ * I) := by
    intro p
    rw [← Complex.exp_add, inner_add_left, real_inner_smul_left, compl_symm]
    congr 1
    push_cast
    ring
  simp_rw [e]
  rw [integral_prod_mul (fun x : ℝ => cexp (⟪v, t⟫ * x * I)) (fun z => cexp (⟪z, compl v t⟫ * I)), ← charFun_apply_real,
    ← charFun_apply, charFun_gaussianReal, charFun_stdGaussian, ← Complex.exp_add]
  congr 1
  have := norm_compl v t hv
  have h2 : ((‖compl v t‖ : ℝ) : ℂ) ^ 2 = (‖t‖ : ℂ) ^ 2 - (⟪v, t⟫ : ℂ) ^ 2 := by exact_mod_cast this
  rw [h2]
  push_cast
  ring

/-- The function that turns a one-dimensional Gaussian into a vector-valued one. -/
noncomputable def spread (b w : Vec d) (z Δ : ℝ) (p : ℝ × Vec d) : Vec d := b + p.1 • w + (z * Δ) • compl (Δ⁻¹ • w) p.2

lemma measurable_spread (b w : Vec d) (z Δ : ℝ) : Measurable (spread b w z Δ) := by
  have := measurable_compl (Δ⁻¹ • w)
  unfold spread
  fun_prop

/-- Reduction to dimension one: a Gaussian vector with mean `b + t w` is a fixed randomised function of a Gaussian number
with mean `t`. -/
lemma gaussianVec_reduce (b w : Vec d) (z Δ : ℝ) (hΔ : 0 < Δ) (hw : ‖w‖ ≤ Δ) (t : ℝ) :
    gaussianVec (b + t • w) (z * Δ) =
      ((gaussianReal t (Real.toNNReal (z ^ 2))).prod (stdGaussian (Vec d))).map (spread b w z Δ) := by
  have hv : ‖Δ⁻¹ • w‖ ≤ 1 := by
    rw [norm_smul, norm_inv, Real.norm_eq_abs, abs_of_pos hΔ, inv_mul_le_iff₀ hΔ]; linarith
  have hmc := measurable_compl (Δ⁻¹ • w)
  have h1 : gaussianReal t (Real.toNNReal (z ^ 2)) = (gaussianReal 0 1).map fun y => t + z * y := by
    have : (fun y : ℝ => t + z * y) = (fun y => t + y) ∘ fun y => z * y := rfl
    rw [this, ← Measure.map_map (by fun_prop) (by fun_prop), gaussianReal_map_const_mul, gaussianReal_map_const_add]
    congr 1
    · simp
    · ext; simp [sq_nonneg]
  have h2 : (gaussianReal t (Real.toNNReal (z ^ 2))).prod (stdGaussian (Vec d)) =
      ((gaussianReal 0 1).prod (stdGaussian (Vec d))).map fun p => (t + z * p.1, p.2) := by
    rw [h1]
    conv_lhs => rw [← Measure.map_id (μ := stdGaussian (Vec d))]
    rw [Measure.map_prod_map _ _ (by fun_prop) measurable_id]
    rfl
  rw [h2, Measure.map_map (measurable_spread b w z Δ) (by fun_prop), gaussianVec]
  conv_lhs => rw [← stdGaussian_reduce (Δ⁻¹ • w) hv]
  rw [Measure.map_map (by fun_prop) (by fun_prop)]
  congr 1
  ext1 p
  simp only [Function.comp_apply, spread, smul_add, add_smul, smul_smul]
  have : z * Δ * (p.1 * Δ⁻¹) = z * p.1 := by field_simp
  rw [this]
  abel

end Verif.Spec
