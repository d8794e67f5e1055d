import Verif.Proofs.Tnb

/-! # Proofs: Renyi divergence of repeat-and-select with a truncated negative binomial number of runs -/

namespace Verif.Spec
open MeasureTheory ProbabilityTheory
open scoped ENNReal

variable {Y : Type*} [MeasurableSpace Y] {score : Y → ℝ}

lemma rankAt_mem (score : Y → ℝ) (P : Measure Y) [IsProbabilityMeasure P] (y : Y) {t : ℝ} (ht : t ∈ Set.Ioc (0 : ℝ) 1) :
    0 ≤ rankAt score P y t ∧ rankAt score P y t ≤ 1 := by
  have hab : (below score P y).toReal ≤ (upTo score P y).toReal :=
    ENNReal.toReal_mono (measure_ne_top _ _) (measure_mono fun z (hz : score z < score y) => (hz.le : score z ≤ score y))
  have h0 : 0 ≤ (below score P y).toReal := ENNReal.toReal_nonneg
  have h1 : (upTo score P y).toReal ≤ 1 := by
    have := ENNReal.toReal_mono ENNReal.one_ne_top (prob_le_one (μ := P) (s := {z | score z ≤ score y}))
    simpa [upTo] using this
  unfold rankAt
  constructor
  · exact add_nonneg h0 (mul_nonneg ht.1.le (by linarith))
  · nlinarith [ht.1, ht.2]

/-- Repeat-and-select has a probability distribution. -/
lemma repeatSelect_prob {p : ℕ → ℝ} (h0 : ∀ k, 0 ≤ p k) (hp : HasSum p 1) (hs : Measurable score) (P : Measure Y) [IsProbabilityMeasure P] :
    IsProbabilityMeasure (repeatSelect p score P) := by
  refine ⟨?_⟩
  unfold repeatSelect
  have e : ∀ k, (ENNReal.ofReal (p (k + 1)) • (bestLaw score P k).map (Sum.inr : Y → Unit ⊕ Y)) Set.univ = ENNReal.ofReal (p (k + 1)) := by
    intro k
    have := bestLaw_prob hs P k
    have : IsProbabilityMeasure ((bestLaw score P k).map (Sum.inr : Y → Unit ⊕ Y)) := Measure.isProbabilityMeasure_map measurable_inr.aemeasurable
    simp
  rw [Measure.add_apply, Measure.sum_apply _ MeasurableSet.univ]
  simp only [e]
  rw [Measure.smul_apply, measure_univ, smul_eq_mul, mul_one, ← tsum_eq_zero_add' (f := fun k => ENNReal.ofReal (p k)) ENNReal.summable,
    ← ENNReal.ofReal_tsum_of_nonneg h0 hp.summable, hp.tsum_eq, ENNReal.ofReal_one]

/-- Comparison of the ranks under the two distributions. -/
lemma rank_compare (hs : Measurable score) (P Q : Measure Y) [IsProbabilityMeasure P] [IsProbabilityMeasure Q] (y : Y) {t g l r : ℝ}
    (ht : t ∈ Set.Ioc (0 : ℝ) 1) (h0 : 0 ≤ g) (h1 : g < 1) (hl : 1 ≤ l) (hr : l ≠ 1 → renyiDiv l Q P ≤ (r : EReal)) :
    Real.log (1 - g * rankAt score Q y t) ≤ (1 - 1 / l) * r + (1 - 1 / l) * Real.log (1 - g * rankAt score P y t) := by
  have hQ := rankAt_mem score Q y ht
  have hP := rankAt_mem score P y ht
  have uQ : 0 < 1 - g * rankAt score Q y t := by nlinarith
  have uP : 0 < 1 - g * rankAt score P y t := by nlinarith
  rcases hl.eq_or_lt with rfl | hl
  · have : 1 - g * rankAt score Q y t ≤ 1 := by nlinarith
    have := Real.log_nonpos uQ.le this
    simpa using this
  · have hH := (renyi_le_iff_holder hl Q P r).1 (hr hl.ne')
    obtain ⟨φ, hφ, hpos, hle, hint⟩ := rankAt_lintegral hs y ht h0 h1.le
    have := hH (fun z => ENNReal.ofReal (φ z)) hφ.ennreal_ofReal
    rw [hint Q] at this
    have hl0 : 0 < l - 1 := by linarith
    have hlp : 0 < l := by linarith
    have e : (l - 1) / l = 1 - 1 / l := by field_simp
    have hmono : ∫⁻ z, ENNReal.ofReal (φ z) ^ (l / (l - 1)) ∂P ≤ ENNReal.ofReal (1 - g * rankAt score P y t) := by
      rw [← hint P]
      refine lintegral_mono fun z => ?_
      have h1 : ENNReal.ofReal (φ z) ≤ 1 := by rw [← ENNReal.ofReal_one]; exact ENNReal.ofReal_le_ofReal (hle z)
      calc ENNReal.ofReal (φ z) ^ (l / (l - 1)) ≤ ENNReal.ofReal (φ z) ^ (1 : ℝ) := by
            refine ENNReal.rpow_le_rpow_of_exponent_ge h1 ?_
            rw [le_div_iff₀ hl0]
            linarith
        _ = _ := ENNReal.rpow_one _
    have h2 : ENNReal.ofReal (1 - g * rankAt score Q y t) ≤
        ENNReal.ofReal (Real.exp ((l - 1) / l * r) * (1 - g * rankAt score P y t) ^ ((l - 1) / l)) := by
      refine this.trans ?_
      rw [ENNReal.ofReal_mul (Real.exp_pos _).le, ← ENNReal.ofReal_rpow_of_pos uP]
      gcongr
    rw [ENNReal.ofReal_le_ofReal_iff (by positivity)] at h2
    have h3 := Real.log_le_log uQ h2
    rw [Real.log_mul (Real.exp_pos _).ne' (Real.rpow_pos_of_pos uP _).ne', Real.log_exp, Real.log_rpow uP, e] at h3
    exact h3

/-- Theorem 2 of https://arxiv.org/abs/2110.03620. -/
theorem tnb_renyi (hs : Measurable score) (P Q : Measure Y) [IsProbabilityMeasure P] [IsProbabilityMeasure Q] {η γ a l r r' : ℝ} (hη : 0 ≤ η)
    (h0 : 0 < γ) (h1 : γ ≤ 1) (ha : 1 < a) (hl : 1 ≤ l) (hr : renyiDiv a P Q ≤ (r : EReal)) (hr' : l ≠ 1 → renyiDiv l Q P ≤ (r' : EReal)) :
    renyiDiv a (repeatSelect (tnb η γ) score P) (repeatSelect (tnb η γ) score Q) ≤
      ((r + Real.log (tnbMean η γ) / (a - 1) + (1 + η) * ((1 - 1 / l) * r' - Real.log γ / l) : ℝ) : EReal) := by
  have hC := tnbC_pos hη h0 h1
  have ha0 : 0 < a := by linarith
  have ha1 : 0 < a - 1 := by linarith
  have hl0 : 0 < l := by linarith
  set θ := (a - 1) / a with hθ
  have hθ0 : 0 < θ := by positivity
  have hθ1 : 1 - θ = 1 / a := by rw [hθ]; field_simp; ring
  set k : ℝ := Real.log (tnbMean η γ) / (a - 1) + (1 + η) * ((1 - 1 / l) * r' - Real.log γ / l) with hk
  have pP := repeatSelect_prob (tnb_nonneg hη h0 h1) (tnb_hasSum hη h0 h1) hs P
  have pQ := repeatSelect_prob (tnb_nonneg hη h0 h1) (tnb_hasSum hη h0 h1) hs Q
  rw [renyi_le_iff_holder ha] at hr ⊢
  have := repeatSelect_holder (p := tnb η γ) (by simp [tnb]) hs ha hr (K := ENNReal.ofReal (Real.exp (θ * k))) ?_
  · convert this using 1
    rw [← ENNReal.ofReal_mul (Real.exp_pos _).le, ← Real.exp_add, ← hθ, hk]
    congr 2
    ring
  intro y t ht
  have hQ := rankAt_mem score Q y ht
  have hP := rankAt_mem score P y ht
  have hc := rank_compare hs P Q y (g := 1 - γ) ht (by linarith) (by linarith) hl hr'
  rw [tnb_pgf hη h0 h1 hP.1 hP.2, tnb_pgf hη h0 h1 hQ.1 hQ.2]
  have uQ : 0 < 1 - (1 - γ) * rankAt score Q y t := by nlinarith
  have uP : γ ≤ 1 - (1 - γ) * rankAt score P y t := by nlinarith
  have uP0 := lt_of_lt_of_le h0 uP
  have hU := Real.log_le_log h0 uP
  rw [ENNReal.ofReal_rpow_of_pos (mul_pos hC (Real.rpow_pos_of_pos uQ _)), ← hθ, ← ENNReal.ofReal_mul (Real.exp_pos _).le]
  refine ENNReal.ofReal_le_ofReal ?_
  generalize 1 - (1 - γ) * rankAt score Q y t = v at *
  generalize 1 - (1 - γ) * rankAt score P y t = u at *
  have hpQ : 0 < tnbC η γ * v ^ (-(η + 1)) := mul_pos hC (Real.rpow_pos_of_pos uQ _)
  have hpP : 0 < tnbC η γ * u ^ (-(η + 1)) := mul_pos hC (Real.rpow_pos_of_pos uP0 _)
  rw [← Real.log_le_log_iff hpP (mul_pos (Real.exp_pos _) (Real.rpow_pos_of_pos hpQ _)), Real.log_mul (Real.exp_pos _).ne' (Real.rpow_pos_of_pos hpQ _).ne',
    Real.log_rpow hpQ, Real.log_mul hC.ne' (Real.rpow_pos_of_pos uQ _).ne', Real.log_mul hC.ne' (Real.rpow_pos_of_pos uP0 _).ne',
    Real.log_rpow uQ, Real.log_rpow uP0, Real.log_exp]
  have hm : Real.log (tnbMean η γ) = Real.log (tnbC η γ) - (η + 1) * Real.log γ := by
    rw [tnbMean_eq hη h0 h1, Real.log_mul hC.ne' (Real.rpow_pos_of_pos h0 _).ne', Real.log_rpow h0]
    ring
  have hθk : θ * k = (1 - θ) * (Real.log (tnbC η γ) - (η + 1) * Real.log γ) + θ * ((1 + η) * ((1 - 1 / l) * r' - Real.log γ / l)) := by
    rw [hk, mul_add, hm, hθ1, hθ]
    congr 1
    field_simp
  rw [hθk]
  have e1 : Real.log γ / l = (1 / l) * Real.log γ := by ring
  rw [e1]
  have hil : 0 ≤ 1 / l := by positivity
  have hil1 : 1 / l ≤ 1 := by rw [div_le_one hl0]; exact hl
  generalize 1 / l = w at *
  generalize Real.log γ = G at *
  generalize Real.log u = U at *
  generalize Real.log v = V at *
  generalize Real.log (tnbC η γ) = c at *
  have hθ2 : 0 ≤ 1 - θ := by rw [hθ1]; positivity
  clear_value θ
  -- divide by `η + 1`
  have key : 0 ≤ (1 - θ) * (U - G) + θ * ((1 - w) * r' + (1 - w) * U - V) + θ * w * (U - G) := by
    have i1 := mul_nonneg hθ2 (by linarith : 0 ≤ U - G)
    have i2 := mul_nonneg hθ0.le (by linarith : 0 ≤ (1 - w) * r' + (1 - w) * U - V)
    have i3 := mul_nonneg (mul_nonneg hθ0.le hil) (by linarith : 0 ≤ U - G)
    linarith
  have := mul_nonneg (by linarith : (0 : ℝ) ≤ η + 1) key
  nlinarith [this]

end Verif.Spec
