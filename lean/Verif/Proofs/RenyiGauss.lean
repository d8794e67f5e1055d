import Verif.Proofs.RdpConvList
import Mathlib.Probability.Distributions.Gaussian.Real

/-! # Rényi divergences from densities; Gaussian distributions -/

namespace Verif.Spec
open MeasureTheory ProbabilityTheory
open scoped ENNReal NNReal

variable {Ω : Type*} [MeasurableSpace Ω]

lemma renyiMoment_withDensity (α : ℝ) (Q : Measure Ω) [SigmaFinite Q] {f : Ω → ℝ≥0∞} (hf : Measurable f) :
    renyiMoment α (Q.withDensity f) Q = ∫⁻ x, f x ^ α ∂Q := by
  unfold renyiMoment
  refine lintegral_congr_ae ?_
  filter_upwards [Measure.rnDeriv_withDensity Q hf] with x hx
  rw [hx]

lemma renyiDiv_eq {α : ℝ} (hα : 1 < α) {P Q : Measure Ω} (hac : P ≪ Q) {r : ℝ}
    (h : renyiMoment α P Q = ENNReal.ofReal (Real.exp ((α - 1) * r))) : renyiDiv α P Q = (r : EReal) := by
  unfold renyiDiv
  rw [if_neg hα.ne', if_pos hac, h, ENNReal.log_ofReal_of_pos (Real.exp_pos _), Real.log_exp]
  rw [← EReal.coe_mul]
  congr 1
  have : α - 1 ≠ 0 := by linarith
  field_simp

/-- The likelihood ratio of `N(m, v)` and `N(0, v)`. -/
noncomputable def gaussLR (m : ℝ) (v : ℝ≥0) (x : ℝ) : ℝ := Real.exp ((m * x - m ^ 2 / 2) / v)

lemma gaussLR_pos (m : ℝ) (v : ℝ≥0) (x : ℝ) : 0 < gaussLR m v x := Real.exp_pos _

lemma measurable_gaussLR (m : ℝ) (v : ℝ≥0) : Measurable (gaussLR m v) := by
  unfold gaussLR; fun_prop

lemma gaussian_withDensity (m : ℝ) {v : ℝ≥0} (hv : v ≠ 0) :
    gaussianReal m v = (gaussianReal 0 v).withDensity fun x => ENNReal.ofReal (gaussLR m v x) := by
  rw [gaussianReal_of_var_ne_zero m hv, gaussianReal_of_var_ne_zero 0 hv,
    ← withDensity_mul _ (measurable_gaussianPDF 0 v) (measurable_gaussLR m v).ennreal_ofReal]
  congr 1
  ext x
  simp only [Pi.mul_apply, gaussianPDF, gaussianPDFReal, gaussLR]
  rw [← ENNReal.ofReal_mul (by positivity), mul_assoc _ (Real.exp _), ← Real.exp_add]
  congr 3
  have : (v : ℝ) ≠ 0 := by exact_mod_cast hv
  field_simp
  ring

lemma integrable_gaussLR_rpow (m : ℝ) (v : ℝ≥0) (a : ℝ) : Integrable (fun x => gaussLR m v x ^ a) (gaussianReal 0 v) := by
  have : (fun x => gaussLR m v x ^ a) = fun x => Real.exp (-(a * m ^ 2 / 2 / v)) * Real.exp (a * m / v * x) := by
    ext x
    rw [gaussLR, ← Real.exp_mul, ← Real.exp_add]
    congr 1; ring
  rw [this]
  exact (integrable_exp_mul_gaussianReal _).const_mul _

lemma integral_gaussLR_rpow (m : ℝ) {v : ℝ≥0} (hv : v ≠ 0) (a : ℝ) :
    ∫ x, gaussLR m v x ^ a ∂gaussianReal 0 v = Real.exp ((a ^ 2 - a) * m ^ 2 / (2 * v)) := by
  have : (fun x => gaussLR m v x ^ a) = fun x => Real.exp (-(a * m ^ 2 / 2 / v)) * Real.exp (a * m / v * x) := by
    ext x
    rw [gaussLR, ← Real.exp_mul, ← Real.exp_add]
    congr 1; ring
  rw [this, integral_const_mul]
  have h := congrFun (mgf_fun_id_gaussianReal (μ := 0) (v := v)) (a * m / v)
  simp only [mgf] at h
  rw [h, ← Real.exp_add]
  congr 1
  have : (v : ℝ) ≠ 0 := by exact_mod_cast hv
  field_simp
  ring

lemma gaussian_ac (a b : ℝ) {v : ℝ≥0} (hv : v ≠ 0) : gaussianReal a v ≪ gaussianReal b v :=
  (gaussianReal_absolutelyContinuous a hv).trans (gaussianReal_absolutelyContinuous' b hv)

/-- Rényi divergence of two Gaussians, order `α > 1`. -/
lemma renyi_gaussian {α : ℝ} (hα : 1 < α) (m : ℝ) {v : ℝ≥0} (hv : v ≠ 0) :
    renyiDiv α (gaussianReal m v) (gaussianReal 0 v) = ((α * m ^ 2 / (2 * v) : ℝ) : EReal) := by
  refine renyiDiv_eq hα (gaussian_ac m 0 hv) ?_
  rw [gaussian_withDensity m hv, renyiMoment_withDensity _ _ (measurable_gaussLR m v).ennreal_ofReal]
  have h0 : 0 ≤ α := by linarith
  simp_rw [ENNReal.ofReal_rpow_of_nonneg (gaussLR_pos m v _).le h0]
  rw [← ofReal_integral_eq_lintegral_ofReal (integrable_gaussLR_rpow m v α)
    (Filter.Eventually.of_forall fun x => Real.rpow_nonneg (Real.exp_pos _).le _), integral_gaussLR_rpow m hv]
  congr 2
  ring

/-- Kullback-Leibler divergence of two Gaussians. -/
lemma kl_gaussian (m : ℝ) {v : ℝ≥0} (hv : v ≠ 0) :
    renyiDiv 1 (gaussianReal m v) (gaussianReal 0 v) = ((1 * m ^ 2 / (2 * v) : ℝ) : EReal) := by
  have hac := gaussian_ac m 0 hv
  have hll : llr (gaussianReal m v) (gaussianReal 0 v) =ᵐ[gaussianReal m v] fun x => (m * x - m ^ 2 / 2) / v := by
    have h1 := Measure.rnDeriv_withDensity (gaussianReal 0 v) (measurable_gaussLR m v).ennreal_ofReal
    rw [← gaussian_withDensity m hv] at h1
    filter_upwards [hac.ae_eq h1] with x hx
    rw [llr, hx, ENNReal.toReal_ofReal (gaussLR_pos m v x).le, gaussLR, Real.log_exp]
  have hi : Integrable (fun x : ℝ => (m * x - m ^ 2 / 2) / v) (gaussianReal m v) := by
    have : Integrable (fun x : ℝ => x) (gaussianReal m v) := (memLp_id_gaussianReal 1).integrable (by norm_num)
    exact ((this.const_mul m).sub (integrable_const _)).div_const _
  have hint : Integrable (llr (gaussianReal m v) (gaussianReal 0 v)) (gaussianReal m v) := hi.congr hll.symm
  have hx : Integrable (fun x : ℝ => x) (gaussianReal m v) := (memLp_id_gaussianReal 1).integrable (by norm_num)
  have hval : ∫ x, llr (gaussianReal m v) (gaussianReal 0 v) x ∂gaussianReal m v = m ^ 2 / (2 * v) := by
    rw [integral_congr_ae hll, integral_div, integral_sub (hx.const_mul m) (integrable_const _), integral_const_mul,
      integral_id_gaussianReal]
    simp only [integral_const, measureReal_def, measure_univ, ENNReal.toReal_one, one_smul]
    have : (v : ℝ) ≠ 0 := by exact_mod_cast hv
    field_simp
    ring
  unfold renyiDiv
  rw [if_pos rfl, InformationTheory.klDiv_of_ac_of_integrable hac hint, hval]
  simp only [measureReal_def, measure_univ, ENNReal.toReal_one, add_sub_cancel_right, one_mul]
  rw [EReal.coe_ennreal_ofReal, max_eq_left (by positivity)]

lemma renyi_gaussian' {α : ℝ} (hα : 1 ≤ α) (m : ℝ) {v : ℝ≥0} (hv : v ≠ 0) :
    renyiDiv α (gaussianReal m v) (gaussianReal 0 v) = ((α * m ^ 2 / (2 * v) : ℝ) : EReal) := by
  rcases hα.eq_or_lt with rfl | h
  · exact kl_gaussian m hv
  · exact renyi_gaussian h m hv

/-- The Poisson-sampled mixture `(1-q) N(0,v) + q N(1,v)`. -/
noncomputable def gaussMix (q : ℝ) (v : ℝ≥0) : Measure ℝ :=
  ENNReal.ofReal (1 - q) • gaussianReal 0 v + ENNReal.ofReal q • gaussianReal 1 v

lemma gaussMix_prob {q : ℝ} (h0 : 0 ≤ q) (h1 : q ≤ 1) (v : ℝ≥0) : IsProbabilityMeasure (gaussMix q v) := by
  constructor
  unfold gaussMix
  simp only [Measure.add_apply, Measure.smul_apply, measure_univ, smul_eq_mul, mul_one]
  rw [← ENNReal.ofReal_add (by linarith) h0]
  simp

/-- Its density with respect to `N(0,v)`. -/
noncomputable def mixLR (q : ℝ) (v : ℝ≥0) (x : ℝ) : ℝ := 1 - q + q * gaussLR 1 v x

lemma measurable_mixLR (q : ℝ) (v : ℝ≥0) : Measurable (mixLR q v) :=
  ((measurable_gaussLR 1 v).const_mul q).const_add _

lemma mixLR_nonneg {q : ℝ} (h0 : 0 ≤ q) (h1 : q ≤ 1) (v : ℝ≥0) (x : ℝ) : 0 ≤ mixLR q v x :=
  add_nonneg (by linarith) (mul_nonneg h0 (Real.exp_pos _).le)

lemma gaussMix_withDensity {q : ℝ} (h0 : 0 ≤ q) (h1 : q ≤ 1) {v : ℝ≥0} (hv : v ≠ 0) :
    gaussMix q v = (gaussianReal 0 v).withDensity fun x => ENNReal.ofReal (mixLR q v x) := by
  have e : (fun x => ENNReal.ofReal (mixLR q v x)) =
      (fun _ => ENNReal.ofReal (1 - q)) + (ENNReal.ofReal q • fun x => ENNReal.ofReal (gaussLR 1 v x)) := by
    ext x
    simp only [Pi.add_apply, Pi.smul_apply, smul_eq_mul, mixLR]
    rw [ENNReal.ofReal_add (by linarith) (mul_nonneg h0 (gaussLR_pos 1 v x).le), ENNReal.ofReal_mul h0]
  rw [e, withDensity_add_left measurable_const, withDensity_const, withDensity_smul _ (measurable_gaussLR 1 v).ennreal_ofReal,
    ← gaussian_withDensity 1 hv]
  rfl

/-- The closed form of the `m`-th moment of the mixture's density: `∑ C(m,k) (1-q)^(m-k) q^k exp((k²-k)/(2v))`. -/
noncomputable def mixMoment (q : ℝ) (v : ℝ≥0) (m : ℕ) : ℝ :=
  ∑ k ∈ Finset.range (m + 1), (m.choose k : ℝ) * (1 - q) ^ (m - k) * q ^ k * Real.exp (((k : ℝ) ^ 2 - k) / (2 * v))

lemma integrable_mixLR_pow (q : ℝ) (v : ℝ≥0) (m : ℕ) : Integrable (fun x => mixLR q v x ^ m) (gaussianReal 0 v) := by
  have : (fun x => mixLR q v x ^ m) = fun x => ∑ k ∈ Finset.range (m + 1),
      ((1 - q) ^ (m - k) * q ^ k * m.choose k) * gaussLR 1 v x ^ (k : ℝ) := by
    ext x
    rw [mixLR, add_comm, add_pow]
    refine Finset.sum_congr rfl fun k _ => ?_
    rw [mul_pow, Real.rpow_natCast]; ring
  rw [this]
  exact integrable_finsetSum _ fun k _ => (integrable_gaussLR_rpow 1 v k).const_mul _

lemma integral_mixLR_pow (q : ℝ) {v : ℝ≥0} (hv : v ≠ 0) (m : ℕ) :
    ∫ x, mixLR q v x ^ m ∂gaussianReal 0 v = mixMoment q v m := by
  have : (fun x => mixLR q v x ^ m) = fun x => ∑ k ∈ Finset.range (m + 1),
      ((1 - q) ^ (m - k) * q ^ k * m.choose k) * gaussLR 1 v x ^ (k : ℝ) := by
    ext x
    rw [mixLR, add_comm, add_pow]
    refine Finset.sum_congr rfl fun k _ => ?_
    rw [mul_pow, Real.rpow_natCast]; ring
  rw [this, integral_finsetSum _ (fun (k : ℕ) _ => (integrable_gaussLR_rpow 1 v (k : ℝ)).const_mul _), mixMoment]
  refine Finset.sum_congr rfl fun k _ => ?_
  rw [integral_const_mul, integral_gaussLR_rpow 1 hv, one_pow, mul_one]
  ring

lemma gaussMix_moment {q : ℝ} (h0 : 0 ≤ q) (h1 : q ≤ 1) {v : ℝ≥0} (hv : v ≠ 0) (m : ℕ) :
    renyiMoment m (gaussMix q v) (gaussianReal 0 v) = ENNReal.ofReal (mixMoment q v m) := by
  rw [gaussMix_withDensity h0 h1 hv, renyiMoment_withDensity _ _ (measurable_mixLR q v).ennreal_ofReal]
  have e : ∀ x, ENNReal.ofReal (mixLR q v x) ^ (m : ℝ) = ENNReal.ofReal (mixLR q v x ^ m) := by
    intro x
    rw [ENNReal.ofReal_rpow_of_nonneg (mixLR_nonneg h0 h1 v x) (Nat.cast_nonneg m), Real.rpow_natCast]
  simp_rw [e]
  rw [← ofReal_integral_eq_lintegral_ofReal (integrable_mixLR_pow q v m)
    (Filter.Eventually.of_forall fun x => pow_nonneg (mixLR_nonneg h0 h1 v x) _), integral_mixLR_pow q hv]

lemma gaussMix_ac (q : ℝ) {v : ℝ≥0} (hv : v ≠ 0) : gaussMix q v ≪ gaussianReal 0 v := by
  intro S hS
  have h1 := gaussian_ac 1 0 hv hS
  simp [gaussMix, hS, h1]

lemma mixMoment_pos {q : ℝ} (h0 : 0 ≤ q) (h1 : q ≤ 1) (v : ℝ≥0) (m : ℕ) : 0 < mixMoment q v m := by
  unfold mixMoment
  have hnn : ∀ k ∈ Finset.range (m + 1), 0 ≤ (m.choose k : ℝ) * (1 - q) ^ (m - k) * q ^ k *
      Real.exp (((k : ℝ) ^ 2 - k) / (2 * v)) := fun k _ => by
    have : 0 ≤ 1 - q := by linarith
    positivity
  have : (1 : ℝ) = ∑ k ∈ Finset.range (m + 1), (m.choose k : ℝ) * (1 - q) ^ (m - k) * q ^ k := by
    have := add_pow q (1 - q) m
    rw [add_sub_cancel, one_pow] at this
    exact this.trans (Finset.sum_congr rfl fun k _ => by ring)
  refine lt_of_lt_of_le zero_lt_one (this.trans_le (Finset.sum_le_sum fun k _ => ?_))
  have h3 : 0 ≤ (m.choose k : ℝ) * (1 - q) ^ (m - k) * q ^ k := by
    have : 0 ≤ 1 - q := by linarith
    positivity
  have h4 : 1 ≤ Real.exp (((k : ℝ) ^ 2 - k) / (2 * v)) := by
    apply Real.one_le_exp
    apply div_nonneg _ (by positivity)
    have : (k : ℝ) ≤ (k : ℝ) ^ 2 := by exact_mod_cast Nat.le_self_pow two_ne_zero k
    linarith
  nlinarith

lemma renyi_gaussMix {q : ℝ} (h0 : 0 ≤ q) (h1 : q ≤ 1) {v : ℝ≥0} (hv : v ≠ 0) (m : ℕ) (hm : 2 ≤ m) :
    renyiDiv m (gaussMix q v) (gaussianReal 0 v) = ((Real.log (mixMoment q v m) / (m - 1) : ℝ) : EReal) := by
  have hm' : (1 : ℝ) < m := by exact_mod_cast hm
  refine renyiDiv_eq hm' (gaussMix_ac q hv) ?_
  rw [gaussMix_moment h0 h1 hv]
  congr 1
  rw [mul_div_cancel₀ _ (by linarith), Real.exp_log (mixMoment_pos h0 h1 v m)]

end Verif.Spec
