import Verif.Spec.Noticeable
import Verif.Props.RdpFrac
import Verif.Proofs.RdpParamEvents
import Verif.Proofs.RdpConversion
import Mathlib.Analysis.Real.Pi.Bounds

/-! # The series of the library is not negative for samples that are not negligible -/

namespace Verif.Props
open Verif Verif.Spec Verif.Rdp Verif.Frac MeasureTheory ProbabilityTheory

/-- The mass of the standard normal distribution around zero. -/
lemma std_centre {s : ℝ} (hs : 0 < s) :
    0.34 * (2 * min s (1 / 2)) ≤ (gaussianReal 0 1).real (Set.Iic s) - (gaussianReal 0 1).real (Set.Iic (-s)) := by
  set t := min s (1 / 2) with ht
  have ht0 : 0 < t := lt_min hs (by norm_num)
  have hts : t ≤ s := min_le_left _ _
  have ht2 : t ≤ 1 / 2 := min_le_right _ _
  have hsub : Set.Iic (-s) ⊆ Set.Iic s := Set.Iic_subset_Iic.2 (by linarith)
  rw [← measureReal_sdiff hsub measurableSet_Iic, Set.Iic_sdiff_Iic]
  have hmono : (gaussianReal 0 1).real (Set.Ioc (-t) t) ≤ (gaussianReal 0 1).real (Set.Ioc (-s) s) :=
    measureReal_mono (Set.Ioc_subset_Ioc (by linarith) hts)
  refine le_trans ?_ hmono
  have k : ∀ x ∈ Set.Ioc (-t) t, ENNReal.ofReal 0.34 ≤ gaussianPDF 0 1 x := by
    intro x hx
    rw [gaussianPDF, gaussianPDFReal]
    refine ENNReal.ofReal_le_ofReal ?_
    have hx2 : x ^ 2 ≤ 1 / 4 := by
      have h1 := hx.1
      have h2 := hx.2
      nlinarith
    have he : 0.875 ≤ Real.exp (-(x - 0) ^ 2 / (2 * ((1 : NNReal) : ℝ))) := by
      have := Real.add_one_le_exp (-(x - 0) ^ 2 / (2 * ((1 : NNReal) : ℝ)))
      push_cast at this ⊢
      have e : -(x - 0) ^ 2 / (2 * (1 : ℝ)) = - (x ^ 2 / 2) := by ring
      rw [e] at this ⊢
      norm_num at this ⊢
      linarith
    have hsq : Real.sqrt (2 * Real.pi * ((1 : NNReal) : ℝ)) ≤ 2.57 := by
      rw [Real.sqrt_le_left (by norm_num)]
      push_cast
      have := Real.pi_lt_d2
      norm_num at this ⊢
      linarith
    have hpos : 0 < Real.sqrt (2 * Real.pi * ((1 : NNReal) : ℝ)) := Real.sqrt_pos.2 (by push_cast; positivity)
    rw [inv_mul_eq_div, le_div_iff₀ hpos]
    calc 0.34 * Real.sqrt (2 * Real.pi * ((1 : NNReal) : ℝ)) ≤ 0.34 * 2.57 := by linarith
      _ ≤ 0.875 := by norm_num
      _ ≤ _ := he
  have h2 : ENNReal.ofReal (0.34 * (2 * t)) ≤ gaussianReal 0 1 (Set.Ioc (-t) t) := by
    rw [gaussianReal_apply 0 one_ne_zero]
    refine le_trans (le_of_eq ?_) (setLIntegral_mono (measurable_gaussianPDF _ _) k)
    rw [setLIntegral_const, Real.volume_Ioc, ← ENNReal.ofReal_mul (by norm_num)]
    congr 1; ring
  rw [measureReal_def, ← ENNReal.ofReal_le_iff_le_toReal (measure_ne_top _ _)]
  exact h2

/-- A lower bound for the divergence, the same at all orders. -/
lemma sampledDiv_ge {q z α : ℝ} (h0 : 0 < q) (h1 : q < 1) (hz : 0 < z) (hα : 1 < α) (hq : 2e-5 * max z 1 ≤ q) :
    4.62e-11 * (α - 1) ≤ Real.log (moment q z α) := by
  obtain ⟨hp, hd⟩ := sampledDiv_eq h0 h1 hz hα
  set v := Real.toNNReal (z ^ 2) with hv
  set P := ENNReal.ofReal (1 - q) • gaussianReal 0 v + ENNReal.ofReal q • gaussianReal 1 v with hP
  have hprob : IsProbabilityMeasure P := by
    constructor
    rw [hP, Measure.add_apply, Measure.smul_apply, Measure.smul_apply, measure_univ, measure_univ, smul_eq_mul, smul_eq_mul, mul_one, mul_one,
      ← ENNReal.ofReal_add (by linarith) h0.le]
    simp
  obtain ⟨hr, htv⟩ := tv_of_renyi (P := P) (Q := gaussianReal 0 v) hα.le (le_of_eq hd) (S := Set.Ioi (1 / 2)) measurableSet_Ioi
  set d := Real.log (moment q z α) * (α - 1)⁻¹ with hdd
  have hPS : P.real (Set.Ioi (1 / 2)) = (1 - q) * (gaussianReal 0 v).real (Set.Ioi (1 / 2)) + q * (gaussianReal 1 v).real (Set.Ioi (1 / 2)) := by
    have f : ∀ (c : ℝ) (m : ℝ), (ENNReal.ofReal c • gaussianReal m v) (Set.Ioi (1 / 2)) ≠ ⊤ := fun c m => by
      rw [Measure.smul_apply, smul_eq_mul]
      exact ENNReal.mul_ne_top ENNReal.ofReal_ne_top (measure_ne_top _ _)
    rw [hP, measureReal_add_apply (h₁ := f _ _) (h₂ := f _ _), measureReal_ennreal_smul_apply, measureReal_ennreal_smul_apply, ENNReal.toReal_ofReal (by linarith),
      ENNReal.toReal_ofReal h0.le]
  rw [hPS, hv, std_Ioi hz, std_Ioi hz, show (1 - 1 / 2 : ℝ) / z = 1 / (2 * z) by field_simp; norm_num,
    show (0 - 1 / 2 : ℝ) / z = -(1 / (2 * z)) by field_simp; norm_num] at htv
  have hc := std_centre (s := 1 / (2 * z)) (by positivity)
  have hm : 2 * min (1 / (2 * z)) (1 / 2) = 1 / max z 1 := by
    rcases le_total z 1 with h | h
    · rw [max_eq_right h, min_eq_right (by
        rw [div_le_div_iff₀ (by norm_num) (by positivity)]; linarith)]; norm_num
    · rw [max_eq_left h, min_eq_left (by
        rw [div_le_div_iff₀ (by positivity) (by norm_num)]; linarith)]
      field_simp
  rw [hm] at hc
  have hmax : 0 < max z 1 := lt_max_of_lt_right one_pos
  have hqm : 2e-5 ≤ q * (1 / max z 1) := by rw [mul_one_div, le_div_iff₀ hmax]; exact hq
  have h6 : 6.8e-6 ≤ Real.sqrt (1 - Real.exp (-d)) := by
    refine le_trans ?_ htv
    have := mul_le_mul_of_nonneg_left hc h0.le
    norm_num at this hqm ⊢
    nlinarith
  have h7 : (6.8e-6 : ℝ) ^ 2 ≤ 1 - Real.exp (-d) := by
    have hn : 0 ≤ 1 - Real.exp (-d) := by
      have : Real.exp (-d) ≤ 1 := Real.exp_le_one_iff.2 (by linarith)
      linarith
    have := pow_le_pow_left₀ (by norm_num) h6 2
    rwa [Real.sq_sqrt hn] at this
  have h8 := Real.add_one_le_exp (-d)
  have h9 : 4.62e-11 ≤ d := by norm_num at h7 ⊢; linarith
  have hinv : 0 < α - 1 := by linarith
  rw [hdd, ← div_eq_mul_inv, le_div_iff₀ hinv] at h9
  exact h9

lemma fracSlack_le {α : ℝ} (h1 : 1.1 ≤ α) (h2 : α ≤ 11) : fracSlack α ≤ 4.62e-11 * (α - 1) := by
  have he := exp_neg_thirty
  have hp := Real.exp_pos (-30)
  have c0 := Nat.ceil_lt_add_one (by linarith [h1] : 0 ≤ α)
  have c1 : ⌈α⌉₊ ≤ 11 := Nat.ceil_le.2 (by simpa using h2)
  unfold fracSlack
  have hlog := Real.log_le_sub_one_of_pos (by positivity : 0 < 1 + 2 ^ (⌈α⌉₊ + 1) * Real.exp (-30))
  refine hlog.trans ?_
  have h3 : (2 : ℝ) ^ (⌈α⌉₊ + 1) * Real.exp (-30) ≤ 2 ^ (⌈α⌉₊ + 1) * 9.4e-14 := mul_le_mul_of_nonneg_left he (by positivity)
  have h4 : (2 : ℝ) ^ (⌈α⌉₊ + 1) * 9.4e-14 ≤ 4.62e-11 * (α - 1) := by
    generalize ⌈α⌉₊ = m at *
    interval_cases m <;> norm_num at * <;> linarith
  linarith

/-- The series of the library is not negative. -/
theorem series_nonneg {q z α : ℝ} {sigma : PyNum} (h0 : 0 < q) (h1 : q < 1) (hz : 0 < z) (hs : sigma.val = (z : EReal)) (hq : 2e-5 * max z 1 ≤ q)
    (ha : 1.1 ≤ α) (hb : α ≤ 11) (hi : ¬ ∃ m : ℤ, α = m) : 0 ≤ logAFrac q sigma α := by
  have hα : 1 < α := by norm_num at ha; linarith
  obtain ⟨hm0, hm1⟩ := ceil_facts hα hi
  rw [logAFrac_real hs]
  rcases frac_spec h0 h1 hz hi with h | ⟨N, hv, hs0, hs1⟩
  · rw [h]; exact le_top
  · have ht := total_pos h0 h1 hz α N
    obtain ⟨hp, -⟩ := sampledDiv_eq h0 h1 hz hα
    rw [hv]
    have hu := upper h0 h1 hz hm0 hm1 hs0 hs1
    have h2 : Real.log (moment q z α) ≤ Real.log (total q z α N) + fracSlack α := by
      unfold fracSlack
      rw [← Real.log_mul ht.ne' (by positivity)]
      refine Real.log_le_log hp (hu.trans (le_of_eq ?_))
      ring
    have h3 := sampledDiv_ge h0 h1 hz hα hq
    have h4 := fracSlack_le ha hb
    exact_mod_cast (by linarith : 0 ≤ Real.log (total q z α N))

end Verif.Props
