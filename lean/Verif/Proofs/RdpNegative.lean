import Verif.Props.RdpFrac

/-! # A series whose value is negative -/

namespace Verif.Props
open Verif Verif.Spec Verif.Rdp Verif.RdpConv Verif.Frac MeasureTheory ProbabilityTheory

/-- A tail of the standard normal distribution. -/
lemma std_tail {x s : ℝ} (hs : 0 < s) (hx : x ≤ -s) : (gaussianReal 0 1).real (Set.Iic x) ≤ 4 / s ^ 2 := by
  have h1 : (gaussianReal 0 1).real (Set.Iic x) ≤ (gaussianReal 0 1).real {y | id y ≤ -s} :=
    measureReal_mono (fun y hy => le_trans (Set.mem_Iic.1 hy) hx) (measure_ne_top _ _)
  have h2 := measure_le_le_exp_mul_mgf (μ := gaussianReal 0 1) (X := id) (t := -1) (-s) (by norm_num) (by
    simpa using integrable_exp_mul_gaussianReal (μ := 0) (v := 1) (-1))
  have h3 : mgf id (gaussianReal 0 1) (-1) = Real.exp (1 / 2) := by
    rw [mgf_gaussianReal (μ := 0) (v := 1) (by simp)]
    norm_num
  rw [h3] at h2
  refine h1.trans (h2.trans ?_)
  have e1 : Real.exp (1 / 2) ≤ 2 := by
    have h := Real.exp_one_lt_d9
    have : Real.exp (1 / 2) * Real.exp (1 / 2) = Real.exp 1 := by rw [← Real.exp_add]; norm_num
    nlinarith [Real.exp_pos (1 / 2)]
  have e2 : Real.exp (-(-1) * -s) ≤ 2 / s ^ 2 := by
    have h := Real.quadratic_le_exp_of_nonneg hs.le
    rw [show -(-1) * -s = -s by ring, Real.exp_neg, inv_le_comm₀ (Real.exp_pos _) (by positivity), inv_div]
    linarith
  calc _ ≤ 2 / s ^ 2 * 2 := mul_le_mul e2 e1 (Real.exp_pos _).le (by positivity)
    _ = _ := by ring

lemma big_facts : Real.exp 80 * Real.exp (-80) = 1 ∧ Real.exp (-80) < 1 / 500 ∧ (500 : ℝ) < Real.exp 80 := by
  have h1 : Real.exp 80 * Real.exp (-80) = 1 := by rw [← Real.exp_add]; norm_num
  have h2 : (500 : ℝ) < Real.exp 80 := by
    have h := Real.quadratic_le_exp_of_nonneg (by norm_num : (0 : ℝ) ≤ 80)
    norm_num at h
    linarith
  refine ⟨h1, ?_, h2⟩
  rw [Real.exp_neg, inv_lt_comm₀ (Real.exp_pos _) (by norm_num)]
  norm_num
  exact h2

/-- The second half of the first term is tiny. -/
lemma neg_M1 : M1 (Real.exp (-80)) (Real.exp 80) (5 / 2) 0 ≤ 8 * Real.exp (-80) ^ 4 := by
  obtain ⟨hqs, hq, hs⟩ := big_facts
  have h0 := Real.exp_pos (-80)
  have hs0 := Real.exp_pos 80
  set q := Real.exp (-80) with hqd
  set s := Real.exp 80 with hsd
  have hqinv : 1 / q = s := by rw [eq_comm, eq_div_iff h0.ne', hqs]
  have hz : 2 * s ^ 2 ≤ fracZ0 q s := by
    unfold fracZ0
    rw [hqinv]
    have : 2 ≤ Real.log (s - 1) := by
      rw [Real.le_log_iff_exp_le (by linarith)]
      have h1 := Real.exp_one_lt_d9
      have h2 : Real.exp 2 = Real.exp 1 * Real.exp 1 := by rw [← Real.exp_add]; norm_num
      rw [h2]
      nlinarith [Real.exp_pos 1]
    have := mul_le_mul_of_nonneg_left this (sq_nonneg s)
    have : (0 : ℝ) ≤ 0.5 := by norm_num
    linarith
  rw [M1_eq h0 hs0]
  simp only [Nat.cast_zero, sub_zero, Real.rpow_zero, one_mul]
  have ht : (gaussianReal 0 1).real (Set.Iic ((5 / 2 - fracZ0 q s) / s)) ≤ 4 / s ^ 2 := by
    refine std_tail hs0 ?_
    rw [div_le_iff₀ hs0]
    nlinarith
  have e4 : 4 / s ^ 2 = 4 * q ^ 2 := by rw [← hqinv]; field_simp
  rw [e4] at ht
  have e5 : Real.exp (((5 / 2 : ℝ) ^ 2 - 5 / 2) / (2 * s ^ 2)) ≤ 2 := by
    have h1 : ((5 / 2 : ℝ) ^ 2 - 5 / 2) / (2 * s ^ 2) ≤ 1 / 2 := by
      rw [div_le_iff₀ (by positivity)]
      nlinarith
    have h := Real.exp_one_lt_d9
    have : Real.exp (1 / 2) * Real.exp (1 / 2) = Real.exp 1 := by rw [← Real.exp_add]; norm_num
    have h2 : Real.exp (1 / 2) ≤ 2 := by nlinarith [Real.exp_pos (1 / 2)]
    exact (Real.exp_le_exp.2 h1).trans h2
  have e6 : q ^ (5 / 2 : ℝ) ≤ q ^ 2 := by
    rw [← Real.rpow_natCast q 2]
    exact Real.rpow_le_rpow_of_exponent_ge h0 (by linarith) (by norm_num)
  calc _ ≤ q ^ 2 * 2 * (4 * q ^ 2) := by
        refine mul_le_mul (mul_le_mul e6 e5 (Real.exp_pos _).le (by positivity)) ht measureReal_nonneg (by positivity)
    _ = _ := by ring

/-- The first halves of the first three terms. -/
lemma neg_M0 : M0 (Real.exp (-80)) (Real.exp 80) (5 / 2) 0 + 5 / 2 * M0 (Real.exp (-80)) (Real.exp 80) (5 / 2) 1 +
    15 / 8 * M0 (Real.exp (-80)) (Real.exp 80) (5 / 2) 2 ≤ 1 - 5 / 16 * Real.exp (-80) ^ 3 + 15 / 4 * Real.exp (-80) ^ 4 ∧
    M0 (Real.exp (-80)) (Real.exp 80) (5 / 2) 2 ≤ 2 * Real.exp (-80) ^ 2 := by
  obtain ⟨hqs, hq, hs⟩ := big_facts
  have h0 := Real.exp_pos (-80)
  have hs0 := Real.exp_pos 80
  set q := Real.exp (-80) with hqd
  set s := Real.exp 80 with hsd
  have hqinv : 1 / q = s := by rw [eq_comm, eq_div_iff h0.ne', hqs]
  have std1 : ∀ x : ℝ, (gaussianReal 0 1).real (Set.Iic x) ≤ 1 := fun x => measureReal_le_one
  set r := (1 - q) ^ (1 / 2 : ℝ) with hr
  have hr0 : 0 ≤ r := Real.rpow_nonneg (by linarith) _
  have hrr : r * r = 1 - q := by rw [hr, ← Real.rpow_add (by linarith)]; norm_num
  have p0 : (1 - q) ^ (5 / 2 : ℝ) = r * (1 - q) ^ 2 := by
    rw [hr, ← Real.rpow_natCast (1 - q) 2, ← Real.rpow_add (by linarith)]; norm_num
  have p1 : (1 - q) ^ (5 / 2 - 1 : ℝ) = r * (1 - q) := by
    have : r * (1 - q) = (1 - q) ^ (1 / 2 : ℝ) * (1 - q) ^ (1 : ℝ) := by rw [Real.rpow_one]
    rw [this, ← Real.rpow_add (by linarith)]; norm_num
  have p2 : (1 - q) ^ (5 / 2 - 2 : ℝ) = r := by rw [hr]; norm_num
  have a0 : M0 q s (5 / 2) 0 ≤ r * (1 - q) ^ 2 := by
    rw [M0_eq h0 hs0]
    simp only [Nat.cast_zero, sub_zero, Real.rpow_zero, mul_one, zero_pow (two_ne_zero), zero_div, Real.exp_zero]
    rw [p0]
    exact mul_le_of_le_one_right (by positivity) (std1 _)
  have a1 : M0 q s (5 / 2) 1 ≤ r * (1 - q) * q := by
    rw [M0_eq h0 hs0]
    simp only [Nat.cast_one, Real.rpow_one, one_pow, sub_self, zero_div, Real.exp_zero, mul_one]
    rw [p1]
    have : 0 ≤ r * (1 - q) * q := mul_nonneg (mul_nonneg hr0 (by linarith)) h0.le
    exact mul_le_of_le_one_right this (std1 _)
  have a2 : M0 q s (5 / 2) 2 ≤ r * q ^ 2 * (1 + 2 * q ^ 2) := by
    rw [M0_eq h0 hs0]
    simp only [Nat.cast_ofNat, Real.rpow_ofNat]
    rw [p2]
    have e1 : ((2 : ℝ) ^ 2 - 2) / (2 * s ^ 2) = q ^ 2 := by rw [← hqinv]; field_simp; norm_num
    rw [e1]
    have e2 : Real.exp (q ^ 2) ≤ 1 + 2 * q ^ 2 := by
      have h1 : q ^ 2 ≤ 1 := by nlinarith
      have h := Real.exp_bound_div_one_sub_of_interval (sq_nonneg q) (by nlinarith : q ^ 2 < 1)
      refine h.trans ?_
      rw [div_le_iff₀ (by nlinarith)]
      have h2 : 0 ≤ q ^ 2 * (1 / 2 - q ^ 2) := mul_nonneg (sq_nonneg q) (by nlinarith)
      nlinarith
    have : 0 ≤ r * q ^ 2 * (1 + 2 * q ^ 2) := by positivity
    calc _ ≤ r * q ^ 2 * (1 + 2 * q ^ 2) * 1 :=
          mul_le_mul (mul_le_mul_of_nonneg_left e2 (by positivity)) (std1 _) measureReal_nonneg this
      _ = _ := mul_one _
  have hB : r ≤ 1 - q / 2 - q ^ 2 / 8 - q ^ 3 / 16 := by
    have hB0 : 0 ≤ 1 - q / 2 - q ^ 2 / 8 - q ^ 3 / 16 := by nlinarith [sq_nonneg q]
    refine le_of_sq_le_sq ?_ hB0
    have : 0 ≤ q ^ 4 * (5 / 64 + q / 64 + q ^ 2 / 256) := by positivity
    nlinarith
  have hr1 : r ≤ 1 := by nlinarith [sq_nonneg q, mul_pos (mul_pos h0 h0) h0]
  refine ⟨?_, ?_⟩
  · have h1 : M0 q s (5 / 2) 0 + 5 / 2 * M0 q s (5 / 2) 1 + 15 / 8 * M0 q s (5 / 2) 2 ≤ r * (1 + q / 2 + 3 / 8 * q ^ 2) + 15 / 4 * (r * q ^ 4) := by
      nlinarith
    have h2 : r * (1 + q / 2 + 3 / 8 * q ^ 2) ≤ (1 - q / 2 - q ^ 2 / 8 - q ^ 3 / 16) * (1 + q / 2 + 3 / 8 * q ^ 2) :=
      mul_le_mul_of_nonneg_right hB (by positivity)
    have h3 : r * q ^ 4 ≤ q ^ 4 := mul_le_of_le_one_left (by positivity) hr1
    have h4 : 0 ≤ q ^ 4 * (3 / 64 + 1 / 32) + q ^ 5 * (3 / 128) := by positivity
    nlinarith
  · have h1 : r * q ^ 2 ≤ q ^ 2 := mul_le_of_le_one_left (by positivity) hr1
    have h2 : q ^ 2 ≤ 1 / 4 := by nlinarith
    have h3 : r * q ^ 2 * (1 + 2 * q ^ 2) ≤ q ^ 2 * 2 := mul_le_mul h1 (by linarith) (by positivity) (by positivity)
    linarith

/-- The value of the series is negative. -/
lemma neg_value : ∃ v : ℝ, v < 0 ∧ logAFracReal (Real.exp (-80)) (Real.exp 80) (5 / 2) = (v : EReal) := by
  obtain ⟨hqs, hq, hs⟩ := big_facts
  obtain ⟨c0, c1, c2, c3, c4⟩ := coef_vals
  obtain ⟨hM0, hM2⟩ := neg_M0
  have hM1 := neg_M1
  have h0 := Real.exp_pos (-80)
  have hs0 := Real.exp_pos 80
  have h1 : Real.exp (-80) < 1 := by linarith
  have hq2 : Real.exp (-80) ^ 2 = Real.exp (-160) := by rw [← Real.exp_nat_mul]; norm_num
  set q := Real.exp (-80) with hqd
  set s := Real.exp 80 with hsd
  have s0 := exp_S0 h0 h1 hs0 frac_five_halves
  have s1 := exp_S1 h0 h1 hs0 frac_five_halves
  have d0 : fracS0 q s (5 / 2) 2 < fracS0 q s (5 / 2) 1 := by
    rw [← Real.exp_lt_exp, s0, s0, c1, c2]
    have := M0_anti h0 h1 hs0 (5 / 2) (by norm_num : 1 ≤ 2)
    have := M0_pos h0 h1 hs0 (5 / 2) 1
    norm_num [abs_of_pos]
    linarith
  have d1 : fracS1 q s (5 / 2) 2 < fracS1 q s (5 / 2) 1 := by
    rw [← Real.exp_lt_exp, s1, s1, c1, c2]
    have := M1_anti h0 h1 hs0 (5 / 2) (by norm_num : 1 ≤ 2)
    have := M1_pos h0 h1 hs0 (5 / 2) 1
    norm_num [abs_of_pos]
    linarith
  have m12 : M1 q s (5 / 2) 2 ≤ M1 q s (5 / 2) 0 := M1_anti h0 h1 hs0 (5 / 2) (by norm_num : 0 ≤ 2)
  have m11 : M1 q s (5 / 2) 1 ≤ M1 q s (5 / 2) 0 := M1_anti h0 h1 hs0 (5 / 2) (by norm_num : 0 ≤ 1)
  have hz0 : 0 ≤ fracZ0 q s := by
    unfold fracZ0
    have hqinv : 1 / q = s := by rw [eq_comm, eq_div_iff h0.ne', hqs]
    rw [hqinv]
    have := mul_nonneg (sq_nonneg s) (Real.log_nonneg (by linarith : 1 ≤ s - 1))
    have h4 : (0 : ℝ) ≤ 0.5 := by norm_num
    linarith
  have hT : 1 / 16 ≤ total q s (5 / 2) 2 := by
    have m0 : 1 / 16 ≤ M0 q s (5 / 2) 0 := by
      rw [M0_eq h0 hs0]
      have hphi := std_nonneg (x := fracZ0 q s / s) (div_nonneg hz0 hs0.le)
      have hpow : (1 / 2 : ℝ) ^ (3 : ℝ) ≤ (1 - q) ^ (5 / 2 : ℝ) :=
        (Real.rpow_le_rpow_of_exponent_ge (by norm_num) (by norm_num) (by norm_num : (5 / 2 : ℝ) ≤ 3)).trans
          (Real.rpow_le_rpow (by norm_num) (by linarith) (by norm_num))
      have e3 : (1 / 2 : ℝ) ^ (3 : ℝ) = 1 / 8 := by
        rw [show (3 : ℝ) = ((3 : ℕ) : ℝ) by norm_num, Real.rpow_natCast]; norm_num
      rw [e3] at hpow
      simp only [Nat.cast_zero, sub_zero, Real.rpow_zero, mul_one, zero_pow (two_ne_zero), zero_div, Real.exp_zero]
      calc (1 / 16 : ℝ) = 1 / 8 * (1 / 2) := by norm_num
        _ ≤ _ := mul_le_mul hpow hphi (by norm_num) (Real.rpow_nonneg (by linarith) _)
    have a0 : |coef (5 / 2) 0| * M0 q s (5 / 2) 0 ≤ ∑ i ∈ Finset.range (2 + 1), |coef (5 / 2) i| * M0 q s (5 / 2) i :=
      Finset.single_le_sum (f := fun i => |coef (5 / 2) i| * M0 q s (5 / 2) i)
        (fun i _ => mul_nonneg (abs_nonneg _) (M0_pos h0 h1 hs0 _ i).le) (by simp)
    have a1 : 0 ≤ ∑ i ∈ Finset.range (2 + 1), |coef (5 / 2) i| * M1 q s (5 / 2) i :=
      Finset.sum_nonneg fun i _ => mul_nonneg (abs_nonneg _) (M1_pos h0 h1 hs0 _ i).le
    rw [c0, abs_one, one_mul] at a0
    unfold total
    linarith
  have hsmall : 300 * q ^ 2 < Real.exp (-30) := by
    rw [hq2]
    have e : Real.exp (-30) = Real.exp (-160) * Real.exp 130 := by rw [← Real.exp_add]; norm_num
    rw [e, mul_comm]
    refine mul_lt_mul_of_pos_left ?_ (Real.exp_pos _)
    have h := Real.quadratic_le_exp_of_nonneg (by norm_num : (0 : ℝ) ≤ 130)
    norm_num at h
    linarith
  have hq4 : q ^ 4 ≤ q ^ 2 / 100 := by
    have h : q ^ 2 ≤ 1 / 100 := by nlinarith
    have := mul_le_mul_of_nonneg_left h (sq_nonneg q)
    nlinarith
  have hq40 : 0 ≤ q ^ 4 := by positivity
  have hq20 := sq_nonneg q
  have hTe := mul_le_mul_of_nonneg_right hT (Real.exp_pos (-30)).le
  have small0 : Real.exp (fracS0 q s (5 / 2) 2) < total q s (5 / 2) 2 * Real.exp (-30) := by
    rw [s0, c2, abs_of_pos (by norm_num)]
    linarith
  have small1 : Real.exp (fracS1 q s (5 / 2) 2) < total q s (5 / 2) 2 * Real.exp (-30) := by
    rw [s1, c2, abs_of_pos (by norm_num)]
    have := sq_nonneg q
    linarith
  obtain ⟨N, hN, hv⟩ := loop_stops h0 h1 hs0 frac_five_halves d0 d1 small0 small1
  refine ⟨_, ?_, hv⟩
  refine Real.log_neg (total_pos h0 h1 hs0 _ N) ?_
  have ht : total q s (5 / 2) N ≤ total q s (5 / 2) 2 := by
    unfold total
    exact add_le_add
      (Finset.sum_le_sum_of_subset_of_nonneg (Finset.range_mono (by omega)) fun i _ _ => mul_nonneg (abs_nonneg _) (M0_pos h0 h1 hs0 _ i).le)
      (Finset.sum_le_sum_of_subset_of_nonneg (Finset.range_mono (by omega)) fun i _ _ => mul_nonneg (abs_nonneg _) (M1_pos h0 h1 hs0 _ i).le)
  refine lt_of_le_of_lt ht ?_
  have h4 : 47 * q ^ 4 < 5 / 16 * q ^ 3 := by
    have : 0 < q ^ 3 := by positivity
    nlinarith
  simp only [total, Finset.sum_range_succ, Finset.sum_range_zero, c0, c1, c2]
  norm_num [abs_of_pos]
  linarith

end Verif.Props
