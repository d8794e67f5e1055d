import Verif.Proofs.RenyiGauss
import Verif.Spec.Privacy
import Mathlib.Analysis.Complex.ExponentialBounds
import Mathlib.MeasureTheory.Measure.Lebesgue.Basic

/-!
# The classical calibration of the Gaussian mechanism

Gaussian noise of standard deviation `√(2 log(1.25/δ)) Δ / ε` is `(ε, δ)`-private for `ε ≤ 1`.
-/

namespace Verif.ClassicalGaussian
open MeasureTheory ProbabilityTheory Verif.Spec

lemma shift (w : ℝ) : (gaussianReal 0 1).map (fun x => x + w) = gaussianReal w 1 := by
  rw [gaussianReal_map_add_const, zero_add]

lemma density (w : ℝ) : gaussianReal w 1 = (gaussianReal 0 1).withDensity fun x => ENNReal.ofReal (Real.exp (w * x - w ^ 2 / 2)) := by
  have h := gaussian_withDensity w (one_ne_zero (α := NNReal))
  simpa only [gaussLR, NNReal.coe_one, div_one] using h

lemma Ioi_zero : (gaussianReal 0 1).real (Set.Ioi 0) ≤ 1 / 2 := by
  have hneg : (gaussianReal 0 1).real (Set.Iio 0) = (gaussianReal 0 1).real (Set.Ioi 0) := by
    have h := gaussianReal_map_neg (μ := 0) (v := 1)
    rw [neg_zero] at h
    conv_lhs => rw [← h]
    rw [map_measureReal_apply measurable_neg measurableSet_Iio]
    congr 1
    ext x
    simp
  have h : (gaussianReal 0 1).real (Set.Iio 0) + (gaussianReal 0 1).real (Set.Ioi 0) ≤ 1 := by
    rw [← measureReal_union (by
      rw [Set.disjoint_left]
      intro x h1 h2
      exact absurd (Set.mem_Iio.1 h1) (not_lt.2 (Set.mem_Ioi.1 h2).le)) measurableSet_Ioi]
    exact measureReal_le_one
  rw [hneg] at h
  linarith

lemma compl_Iic_zero : 1 / 2 ≤ (gaussianReal 0 1).real (Set.Iic 0)ᶜ := by
  have hneg : (gaussianReal 0 1).real (Set.Iio 0) = (gaussianReal 0 1).real (Set.Ioi 0) := by
    have h := gaussianReal_map_neg (μ := 0) (v := 1)
    rw [neg_zero] at h
    conv_lhs => rw [← h]
    rw [map_measureReal_apply measurable_neg measurableSet_Iio]
    congr 1
    ext x
    simp
  have hat : (gaussianReal 0 1).real {0} = 0 := by
    have := noAtoms_gaussianReal (μ := 0) (v := 1) one_ne_zero
    rw [measureReal_def, measure_singleton, ENNReal.toReal_zero]
  have h : (gaussianReal 0 1).real (Set.univ) ≤ ((gaussianReal 0 1).real (Set.Iio 0) + (gaussianReal 0 1).real {0}) + (gaussianReal 0 1).real (Set.Ioi 0) := by
    have hu : (Set.univ : Set ℝ) = (Set.Iio 0 ∪ {0}) ∪ Set.Ioi 0 := by
      ext x
      rcases lt_trichotomy x 0 with h | h | h <;> simp [h]
    conv_lhs => rw [hu]
    exact (measureReal_union_le _ _).trans (add_le_add_left (measureReal_union_le _ _) _)
  rw [probReal_univ, hneg, hat] at h
  rw [Set.compl_Iic]
  linarith

lemma tail {t : ℝ} (ht : 0 ≤ t) : (gaussianReal 0 1).real (Set.Ioi t) ≤ 1 / 2 * Real.exp (-(t ^ 2 / 2)) := by
  have h1 : (gaussianReal 0 1).real (Set.Ioi t) = (gaussianReal (-t) 1).real (Set.Ioi 0) := by
    rw [← shift (-t), map_measureReal_apply (by fun_prop) measurableSet_Ioi]
    congr 1
    ext x
    simp
  have h2 : gaussianReal (-t) 1 (Set.Ioi 0) ≤ ENNReal.ofReal (Real.exp (-(t ^ 2 / 2))) * gaussianReal 0 1 (Set.Ioi 0) := by
    rw [density (-t), withDensity_apply _ measurableSet_Ioi, ← setLIntegral_const]
    refine setLIntegral_mono measurable_const fun x hx => ENNReal.ofReal_le_ofReal (Real.exp_le_exp.2 ?_)
    have := mul_nonneg ht (Set.mem_Ioi.1 hx).le
    nlinarith
  have h3 := ENNReal.toReal_mono (ENNReal.mul_ne_top ENNReal.ofReal_ne_top (measure_ne_top _ _)) h2
  rw [ENNReal.toReal_mul, ENNReal.toReal_ofReal (Real.exp_pos _).le] at h3
  rw [h1]
  change (gaussianReal (-t) 1 (Set.Ioi 0)).toReal ≤ _
  have h4 : (gaussianReal 0 1 (Set.Ioi 0)).toReal ≤ 1 / 2 := Ioi_zero
  nlinarith [Real.exp_pos (-(t ^ 2 / 2))]

lemma tail_near {t : ℝ} (ht : t ≤ 0) : (gaussianReal 0 1).real (Set.Ioi t) ≤ 1 / 2 - t := by
  have h1 : (gaussianReal 0 1) (Set.Ioc t 0) ≤ ENNReal.ofReal (-t) := by
    rw [gaussianReal_apply 0 one_ne_zero]
    calc ∫⁻ x in Set.Ioc t 0, gaussianPDF 0 1 x ≤ ∫⁻ x in Set.Ioc t 0, 1 := by
          refine lintegral_mono fun x => ?_
          rw [gaussianPDF, ENNReal.ofReal_le_one, gaussianPDFReal]
          have h2 : Real.exp (-(x - 0) ^ 2 / (2 * ((1 : NNReal) : ℝ))) ≤ 1 := by
            rw [Real.exp_le_one_iff]
            simp only [NNReal.coe_one]
            nlinarith [sq_nonneg (x - 0)]
          have h3 : (Real.sqrt (2 * Real.pi * ((1 : NNReal) : ℝ)))⁻¹ ≤ 1 := by
            refine inv_le_one_of_one_le₀ ?_
            rw [Real.one_le_sqrt]
            simp only [NNReal.coe_one]
            nlinarith [Real.two_le_pi]
          have := mul_le_mul h3 h2 (Real.exp_pos _).le zero_le_one
          simpa using this
      _ = ENNReal.ofReal (-t) := by
          rw [setLIntegral_one, Real.volume_Ioc, zero_sub]
  have h2 : (gaussianReal 0 1).real (Set.Ioc t 0) ≤ -t := by
    have := ENNReal.toReal_mono ENNReal.ofReal_ne_top h1
    rwa [ENNReal.toReal_ofReal (by linarith)] at this
  have h3 : Set.Ioi t = Set.Ioc t 0 ∪ Set.Ioi 0 := (Set.Ioc_union_Ioi_eq_Ioi ht).symm
  rw [h3]
  refine (measureReal_union_le _ _).trans ?_
  linarith [Ioi_zero]

/-- The probability that the privacy loss exceeds `e`. -/
lemma indist_tail (w e : ℝ) : Indist (gaussianReal w 1) (gaussianReal 0 1) e ((gaussianReal w 1).real {x | e < w * x - w ^ 2 / 2}) := by
  intro S hS
  have hA : MeasurableSet {x : ℝ | e < w * x - w ^ 2 / 2} := measurableSet_lt (by fun_prop) (by fun_prop)
  have h1 : gaussianReal w 1 (S \ {x | e < w * x - w ^ 2 / 2}) ≤ ENNReal.ofReal (Real.exp e) * gaussianReal 0 1 S := by
    calc gaussianReal w 1 (S \ {x | e < w * x - w ^ 2 / 2})
        = ∫⁻ x in S \ {x | e < w * x - w ^ 2 / 2}, ENNReal.ofReal (Real.exp (w * x - w ^ 2 / 2)) ∂gaussianReal 0 1 := by
          rw [density w, withDensity_apply _ (hS.diff hA)]
      _ ≤ ∫⁻ x in S \ {x | e < w * x - w ^ 2 / 2}, ENNReal.ofReal (Real.exp e) ∂gaussianReal 0 1 :=
          setLIntegral_mono measurable_const fun x hx => ENNReal.ofReal_le_ofReal (Real.exp_le_exp.2 (not_lt.1 hx.2))
      _ = ENNReal.ofReal (Real.exp e) * gaussianReal 0 1 (S \ {x | e < w * x - w ^ 2 / 2}) := setLIntegral_const _ _
      _ ≤ _ := by gcongr; exact Set.sdiff_subset
  have h2 := ENNReal.toReal_mono (ENNReal.mul_ne_top ENNReal.ofReal_ne_top (measure_ne_top _ _)) h1
  rw [ENNReal.toReal_mul, ENNReal.toReal_ofReal (Real.exp_pos _).le] at h2
  have h3 : (gaussianReal w 1).real S ≤ (gaussianReal w 1).real (S \ {x | e < w * x - w ^ 2 / 2}) +
      (gaussianReal w 1).real {x | e < w * x - w ^ 2 / 2} := by
    refine le_trans (measureReal_mono (s₂ := (S \ {x | e < w * x - w ^ 2 / 2}) ∪ {x | e < w * x - w ^ 2 / 2}) ?_) (measureReal_union_le _ _)
    rw [Set.sdiff_union_self]
    exact Set.subset_union_left
  exact h3.trans (add_le_add_left h2 _)

lemma loss_tail {w e : ℝ} (hw : w ≠ 0) :
    (gaussianReal w 1).real {x | e < w * x - w ^ 2 / 2} = (gaussianReal 0 1).real (Set.Ioi (e / |w| - |w| / 2)) := by
  have key : (gaussianReal w 1).real {x | e < w * x - w ^ 2 / 2} = (gaussianReal 0 1).real {z | e - w ^ 2 / 2 < w * z} := by
    rw [← shift w, map_measureReal_apply (by fun_prop) (measurableSet_lt (by fun_prop) (by fun_prop))]
    congr 1
    ext x
    simp only [Set.mem_preimage, Set.mem_ofPred_eq]
    constructor <;> intro h <;> nlinarith
  rw [key]
  rcases lt_or_gt_of_ne hw with h | h
  · have hn := gaussianReal_map_neg (μ := 0) (v := 1)
    rw [neg_zero] at hn
    conv_lhs => rw [← hn]
    rw [map_measureReal_apply measurable_neg (measurableSet_lt (by fun_prop) (by fun_prop))]
    congr 1
    ext x
    rw [abs_of_neg h]
    simp only [Set.mem_preimage, Set.mem_ofPred_eq, Set.mem_Ioi, neg_div, div_neg]
    rw [show -(e / w) - -(w / 2) = (e - w ^ 2 / 2) / -w by field_simp; ring, div_lt_iff₀ (by linarith)]
    constructor <;> intro h <;> linarith
  · congr 1
    ext x
    rw [abs_of_pos h]
    simp only [Set.mem_ofPred_eq, Set.mem_Ioi]
    rw [show e / w - w / 2 = (e - w ^ 2 / 2) / w by field_simp, div_lt_iff₀ h]
    constructor <;> intro h <;> linarith

/-- The classical Gaussian mechanism, with unit noise and the answers moved by `w`. -/
lemma indist {e d w : ℝ} (he : 0 < e) (he1 : e ≤ 1) (hd : 0 < d) (hd1 : d < 1) (hw : |w| * Real.sqrt (2 * Real.log (1.25 / d)) ≤ e) :
    Indist (gaussianReal w 1) (gaussianReal 0 1) e d := by
  rcases eq_or_ne w 0 with rfl | hw0
  · intro S _
    have h1 : (gaussianReal 0 1).real S ≤ Real.exp e * (gaussianReal 0 1).real S :=
      le_mul_of_one_le_left measureReal_nonneg (Real.one_le_exp he.le)
    linarith
  intro S hS
  refine (indist_tail w e S hS).trans (add_le_add_right ?_ _)
  rw [loss_tail hw0]
  have hL : 0.22 < Real.log (1.25 / d) := by
    have h1 : Real.log 1.25 < Real.log (1.25 / d) := Real.log_lt_log (by norm_num) (by
      rw [lt_div_iff₀ hd]; nlinarith)
    refine lt_trans ?_ h1
    rw [Real.lt_log_iff_exp_lt (by norm_num)]
    have h2 : Real.exp 0.22 ^ 50 < 1.25 ^ 50 := by
      rw [← Real.exp_nat_mul]
      norm_num
      have h3 : Real.exp 11 = Real.exp 1 ^ 11 := by rw [← Real.exp_nat_mul]; norm_num
      rw [h3]
      refine lt_trans (pow_lt_pow_left₀ Real.exp_one_lt_d9 (Real.exp_pos _).le (by norm_num)) ?_
      norm_num
    exact lt_of_pow_lt_pow_left₀ 50 (by norm_num) h2
  set c := Real.sqrt (2 * Real.log (1.25 / d)) with hc
  have hc2 : c ^ 2 = 2 * Real.log (1.25 / d) := Real.sq_sqrt (by linarith)
  have hcpos : 0 < c := Real.sqrt_pos.2 (by linarith)
  have hwpos : 0 < |w| := abs_pos.2 hw0
  have hexp : Real.exp (-(c ^ 2 / 2)) = d / 1.25 := by
    rw [hc2, mul_div_cancel_left₀ _ (two_ne_zero), Real.exp_neg, Real.exp_log (by positivity)]
    rw [inv_div]
  have ht : c - e / (2 * c) ≤ e / |w| - |w| / 2 := by
    have h1 : c ≤ e / |w| := by rw [le_div_iff₀ hwpos]; linarith
    have h2 : |w| ≤ e / c := by rw [le_div_iff₀ hcpos]; exact hw
    have h3 : e / (2 * c) = e / c / 2 := by field_simp
    linarith
  have hmono : (gaussianReal 0 1).real (Set.Ioi (e / |w| - |w| / 2)) ≤ (gaussianReal 0 1).real (Set.Ioi (c - e / (2 * c))) :=
    measureReal_mono (Set.Ioi_subset_Ioi ht)
  refine hmono.trans ?_
  rcases le_total 0 (c - e / (2 * c)) with h | h
  · refine (tail h).trans ?_
    have h1 : c ^ 2 - e ≤ (c - e / (2 * c)) ^ 2 := by
      have h2 : (c - e / (2 * c)) ^ 2 = c ^ 2 - e + (e / (2 * c)) ^ 2 := by field_simp; ring
      nlinarith [sq_nonneg (e / (2 * c))]
    have h2 : Real.exp (-((c - e / (2 * c)) ^ 2 / 2)) ≤ Real.exp (e / 2) * Real.exp (-(c ^ 2 / 2)) := by
      rw [← Real.exp_add]
      exact Real.exp_le_exp.2 (by linarith)
    have h3 : Real.exp (e / 2) ≤ 2.5 := by
      have h5 : Real.exp (e / 2) ^ 2 ≤ 2.5 ^ 2 := by
        rw [← Real.exp_nat_mul]
        have : Real.exp ((2 : ℕ) * (e / 2)) ≤ Real.exp 1 := Real.exp_le_exp.2 (by push_cast; linarith)
        refine this.trans ?_
        have := Real.exp_one_lt_d9
        norm_num
        linarith
      exact le_of_sq_le_sq h5 (by norm_num)
    rw [hexp] at h2
    have h4 : Real.exp (e / 2) * (d / 1.25) ≤ 2.5 * (d / 1.25) := mul_le_mul_of_nonneg_right h3 (by positivity)
    have h5 : (2.5 : ℝ) * (d / 1.25) = 2 * d := by ring
    linarith
  · refine (tail_near h).trans ?_
    -- here `2 c² ≤ e ≤ 1`, so that `d` is close to one
    have h1 : 2 * c ^ 2 ≤ e := by
      have h2 : c * (2 * c) ≤ e := by
        have : c ≤ e / (2 * c) := by linarith
        rwa [le_div_iff₀ (by positivity)] at this
      nlinarith
    have h2 : 0.6 ≤ c := by
      refine le_of_sq_le_sq ?_ hcpos.le
      rw [hc2]
      norm_num
      linarith
    have h3 : e / (2 * c) ≤ 1 / 1.2 := by
      rw [div_le_div_iff₀ (by positivity) (by norm_num)]
      linarith
    have h4 : 0.9 ≤ d := by
      have h5 : Real.exp (-(c ^ 2 / 2)) ≥ 1 - c ^ 2 / 2 := by linarith [Real.add_one_le_exp (-(c ^ 2 / 2))]
      rw [hexp] at h5
      have h6 : d / 1.25 * 1.25 = d := by field_simp
      norm_num at h5 h6 ⊢
      linarith
    norm_num at h2 h3 h4 ⊢
    linarith

end Verif.ClassicalGaussian
