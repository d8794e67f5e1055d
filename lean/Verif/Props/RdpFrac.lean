import Verif.Spec.RdpFrac
import Verif.Proofs.RdpFrac
import Verif.Proofs.ClassicalGaussian
import Verif.Props.RdpEndToEnd

/-!
# C62: Rényi divergences at fractional orders

Vocabulary (`Verif/Spec/RdpFrac.lean`): `sampledDiv q z α` is the Rényi divergence of order `α` of the Poisson-sampled Gaussian
query; `fracSlack α = log (1 + 2^(⌈α⌉+1) exp(-30))`. `logAFrac` is `_compute_log_a_frac`, `poissonOneOrder logAFrac` is
`compute_one_order` of `_compute_rdp_poisson_subsampled_gaussian`.
-/

namespace Verif.Props
open Verif Verif.Spec Verif.Rdp Verif.Frac MeasureTheory ProbabilityTheory

lemma sampledDiv_eq {q z α : ℝ} (h0 : 0 < q) (h1 : q < 1) (hz : 0 < z) (hα : 1 < α) :
    0 < moment q z α ∧ sampledDiv q z α = ((Real.log (moment q z α) * (α - 1)⁻¹ : ℝ) : EReal) := by
  have hv := v_ne hz
  have hp : 0 < moment q z α := by
    have a0 := M0_pos h0 h1 hz α 0
    have a1 := M1_pos h0 h1 hz α 0
    have := zero_le_moment_aux h0 h1 hz (by linarith : 0 ≤ α) (m := ⌈α⌉₊) (by linarith [Nat.ceil_lt_add_one (by linarith : 0 ≤ α)]) (Nat.le_ceil α)
    linarith
  refine ⟨hp, ?_⟩
  have hI := integrable_mixLR_rpow h0 h1 (Real.toNNReal (z ^ 2)) (m := ⌈α⌉₊)
    (by linarith [Nat.ceil_lt_add_one (by linarith : 0 ≤ α)]) (Nat.le_ceil α)
  have hm : renyiMoment α (gaussMix q (Real.toNNReal (z ^ 2))) (gaussianReal 0 (Real.toNNReal (z ^ 2))) = ENNReal.ofReal (moment q z α) := by
    rw [gaussMix_withDensity h0.le h1.le hv, renyiMoment_withDensity _ _ (measurable_mixLR q _).ennreal_ofReal]
    simp_rw [ENNReal.ofReal_rpow_of_nonneg (mixLR_nonneg h0.le h1.le _ _) (by linarith : 0 ≤ α)]
    rw [← ofReal_integral_eq_lintegral_ofReal hI
      (Filter.Eventually.of_forall fun x => Real.rpow_nonneg (mixLR_nonneg h0.le h1.le _ x) _)]
    rfl
  unfold sampledDiv
  refine renyiDiv_eq hα (gaussMix_ac q hv) (hm.trans ?_)
  rw [mul_comm (Real.log _), ← mul_assoc, mul_inv_cancel₀ (by linarith), one_mul, Real.exp_log hp]

lemma ceil_facts {α : ℝ} (hα : 1 < α) (hi : ¬ ∃ m : ℤ, α = m) : ((⌈α⌉₊ : ℕ) : ℝ) - 1 < α ∧ α ≤ (⌈α⌉₊ : ℕ) :=
  ⟨by linarith [Nat.ceil_lt_add_one (by linarith : 0 ≤ α)], Nat.le_ceil α⟩

lemma logAFrac_real {sigma : PyNum} {z : ℝ} (hs : sigma.val = (z : EReal)) (q α : ℝ) : logAFrac q sigma α = logAFracReal q z α := by
  cases sigma with
  | int i => simp only [PyNum.val, EReal.coe_eq_coe_iff] at hs; simp only [logAFrac, hs]
  | float x => simp only [PyNum.val, EReal.coe_eq_coe_iff] at hs; simp only [logAFrac, hs]
  | inf => simp [PyNum.val] at hs

/-- **C62 (partial), upper bound.** For a fractional order the value of the series, increased by `fracSlack`, bounds the Rényi
divergence of the Poisson-sampled Gaussian query. Missing: without the increase this is false, see
`C62_series_below_violated`. -/
theorem C62_series_bound_partial (q z α : ℝ) (sigma : PyNum) (h0 : 0 < q) (h1 : q < 1) (hz : 0 < z) (hs : sigma.val = (z : EReal))
    (hα : 1 < α) (hi : ¬ ∃ m : ℤ, α = m) :
    sampledDiv q z α ≤ (logAFrac q sigma α + ((fracSlack α : ℝ) : EReal)) * (((α - 1)⁻¹ : ℝ) : EReal) := by
  have hinv : 0 < (α - 1)⁻¹ := inv_pos.2 (by linarith)
  obtain ⟨hp, hd⟩ := sampledDiv_eq h0 h1 hz hα
  obtain ⟨hm0, hm1⟩ := ceil_facts hα hi
  rw [logAFrac_real hs]
  rcases frac_spec h0 h1 hz hi with h | ⟨N, hv, hs0, hs1⟩
  · rw [h, EReal.top_add_coe, EReal.top_mul_coe_of_pos hinv]; exact le_top
  · have ht := total_pos h0 h1 hz α N
    rw [hv, hd, ← EReal.coe_add, ← EReal.coe_mul, EReal.coe_le_coe_iff]
    refine mul_le_mul_of_nonneg_right ?_ hinv.le
    have hu := upper h0 h1 hz hm0 hm1 hs0 hs1
    unfold fracSlack
    rw [← Real.log_mul ht.ne' (by positivity)]
    refine Real.log_le_log hp (hu.trans (le_of_eq ?_))
    ring

/-- **C62, accuracy.** Where the series converges, its value is at most `2 f (1 - f) / (⌈α⌉ (α - 1))` above the divergence, `f` being
the fractional part of the order. -/
theorem C62_series_accuracy (q z α : ℝ) (sigma : PyNum) (h0 : 0 < q) (h1 : q < 1) (hz : 0 < z) (hs : sigma.val = (z : EReal))
    (hα : 1 < α) (hi : ¬ ∃ m : ℤ, α = m) (hfin : logAFrac q sigma α ≠ ⊤) :
    logAFrac q sigma α * (((α - 1)⁻¹ : ℝ) : EReal) ≤
      sampledDiv q z α + ((2 * Int.fract α * (1 - Int.fract α) / (⌈α⌉₊ * (α - 1)) : ℝ) : EReal) := by
  have hinv : 0 < (α - 1)⁻¹ := inv_pos.2 (by linarith)
  obtain ⟨hp, hd⟩ := sampledDiv_eq h0 h1 hz hα
  obtain ⟨hm0, hm1⟩ := ceil_facts hα hi
  rw [logAFrac_real hs] at hfin ⊢
  rcases frac_spec h0 h1 hz hi with h | ⟨N, hv, -, -⟩
  · exact absurd h hfin
  · have ht := total_pos h0 h1 hz α N
    have hl := lower h0 h1 hz (by linarith : 0 ≤ α) hm0 hm1 N
    obtain ⟨m, hm⟩ : ∃ m, ⌈α⌉₊ = m + 2 := by
      have : 1 < ⌈α⌉₊ := Nat.lt_ceil.2 (by simpa using hα)
      exact ⟨⌈α⌉₊ - 2, by omega⟩
    have hf : Int.fract α = α - (m + 1) := by
      have : ⌊α⌋ = (m : ℤ) + 1 := by
        rw [Int.floor_eq_iff]
        rw [hm] at hm0 hm1
        push_cast at hm0 hm1 ⊢
        have : α ≠ m + 2 := fun h => hi ⟨(m : ℤ) + 2, by push_cast; exact h⟩
        have : α < m + 2 := lt_of_le_of_ne hm1 this
        constructor <;> linarith
      rw [Int.fract, this]; push_cast; ring
    rw [hm] at hm0 hm1 hl
    push_cast at hm0 hm1
    have hc := abs_coef_ceil (m := m) (α := α) (by linarith) hm1
    rw [hv, hd, ← EReal.coe_add, ← EReal.coe_mul, EReal.coe_le_coe_iff]
    have hlog : Real.log (total q z α N) ≤ Real.log (moment q z α) + 2 * Int.fract α * (1 - Int.fract α) / ⌈α⌉₊ := by
      have h2 : Real.log (total q z α N) ≤ Real.log (moment q z α * (1 + 2 * |coef (α - 1) (m + 2)|)) := Real.log_le_log ht hl
      rw [Real.log_mul hp.ne' (by positivity)] at h2
      have h3 := Real.log_le_sub_one_of_pos (by positivity : 0 < 1 + 2 * |coef (α - 1) (m + 2)|)
      have h4 : 2 * Int.fract α * (1 - Int.fract α) / ⌈α⌉₊ = 2 * ((α - (m + 1)) * (m + 2 - α) / (m + 2)) := by
        rw [hf, hm]; push_cast; ring
      rw [h4]; linarith
    have := mul_le_mul_of_nonneg_right hlog hinv.le
    refine this.trans (le_of_eq ?_)
    rw [add_mul, ← div_div]; rfl

lemma exp_neg_thirty : Real.exp (-30) ≤ 9.4e-14 := by
  have h1 := Real.exp_one_gt_d9
  have h2 : Real.exp (-30) = (Real.exp 1 ^ 30)⁻¹ := by rw [← Real.exp_nat_mul, ← Real.exp_neg]; norm_num
  rw [h2]
  have h3 : (2.7182818283 : ℝ) ^ 30 ≤ Real.exp 1 ^ 30 := pow_le_pow_left₀ (by norm_num) h1.le 30
  calc (Real.exp 1 ^ 30)⁻¹ ≤ ((2.7182818283 : ℝ) ^ 30)⁻¹ := inv_anti₀ (by positivity) h3
    _ ≤ _ := by norm_num

/-- **C62, size of the increase.** It is positive, and below `4e-10` for every order up to 11, which covers all fractional
orders used by default. -/
theorem C62_slack_small (α : ℝ) (hα : α ≤ 11) : 0 < fracSlack α ∧ fracSlack α ≤ 4e-10 := by
  have he := exp_neg_thirty
  have hp := Real.exp_pos (-30)
  unfold fracSlack
  have hpos : 0 < 2 ^ (⌈α⌉₊ + 1) * Real.exp (-30) := by positivity
  refine ⟨Real.log_pos (by linarith), ?_⟩
  have h1 := Real.log_le_sub_one_of_pos (by linarith : 0 < 1 + 2 ^ (⌈α⌉₊ + 1) * Real.exp (-30))
  have h2 : (2 : ℝ) ^ (⌈α⌉₊ + 1) ≤ 2 ^ 12 := by
    refine pow_le_pow_right₀ (by norm_num) ?_
    have : ⌈α⌉₊ ≤ 11 := Nat.ceil_le.2 (by simpa using hα)
    omega
  have h3 : (2 : ℝ) ^ (⌈α⌉₊ + 1) * Real.exp (-30) ≤ 2 ^ 12 * 9.4e-14 := mul_le_mul h2 he hp.le (by positivity)
  norm_num at h3 ⊢
  linarith

/-- The series with its increase. -/
noncomputable def logAFracSafe (q : ℝ) (sigma : PyNum) (alpha : ℝ) : EReal := logAFrac q sigma alpha + ((fracSlack alpha : ℝ) : EReal)

/-- **C62 (partial), whole accountant.** With the increase, the function for fractional orders meets the assumption of the
theorems `C59_rdp_curve_partial`, `C59_get_epsilon_partial` and `C59_get_delta_partial` about the accountant. -/
theorem C62_fracBound_partial : FracBound logAFracSafe := fun q z α sigma h0 h1 hz hs hα hi =>
  C62_series_bound_partial q z α sigma h0 h1 hz hs hα hi

lemma coef_vals : coef (5 / 2) 0 = 1 ∧ coef (5 / 2) 1 = 5 / 2 ∧ coef (5 / 2) 2 = 15 / 8 ∧ coef (5 / 2) 3 = 5 / 16 ∧ coef (5 / 2) 4 = -5 / 128 := by
  refine ⟨coef_zero _, ?_, ?_, ?_, ?_⟩ <;> norm_num [coef, Finset.prod_range_succ]

lemma frac_five_halves : ¬ ∃ m : ℤ, (5 / 2 : ℝ) = m := by
  rintro ⟨m, hm⟩
  have h1 : ((2 * m : ℤ) : ℝ) = ((5 : ℤ) : ℝ) := by push_cast; linarith
  have h2 : 2 * m = 5 := by exact_mod_cast h1
  omega

lemma std_nonneg {x : ℝ} (hx : 0 ≤ x) : 1 / 2 ≤ (gaussianReal 0 1).real (Set.Iic x) := by
  have h := ClassicalGaussian.Ioi_zero
  have h2 : (gaussianReal 0 1).real (Set.Iic 0) = 1 - (gaussianReal 0 1).real (Set.Ioi 0) := by
    rw [← Set.compl_Ioi, probReal_compl_eq_one_sub measurableSet_Ioi]
  have h3 : (gaussianReal 0 1).real (Set.Iic 0) ≤ (gaussianReal 0 1).real (Set.Iic x) :=
    measureReal_mono (Set.Iic_subset_Iic.2 hx) (measure_ne_top _ _)
  linarith

lemma witness_q : 0 < Real.exp (-80) ∧ Real.exp (-80) < 1 / 2 := by
  refine ⟨Real.exp_pos _, ?_⟩
  have := Real.add_one_le_exp 80
  rw [Real.exp_neg, inv_lt_comm₀ (Real.exp_pos _) (by norm_num)]
  norm_num at this ⊢
  linarith

/-- With at most three terms the partial sum is too small. -/
lemma witness_below {N : ℕ} (hN : N ≤ 2) : total (Real.exp (-80)) 1 (5 / 2) N < moment (Real.exp (-80)) 1 (5 / 2) := by
  obtain ⟨h0, h1⟩ := witness_q
  have h1' : Real.exp (-80) < 1 := by linarith
  obtain ⟨c0, c1, c2, c3, c4⟩ := coef_vals
  have h := le_moment h0 h1' one_pos (α := 5 / 2) (m := 3) (by norm_num) (by norm_num)
  have a0 := M0_anti h0 h1' one_pos (5 / 2) (by norm_num : 3 ≤ 4)
  have a1 := M1_anti h0 h1' one_pos (5 / 2) (by norm_num : 3 ≤ 4)
  have p0 := M0_pos h0 h1' one_pos (5 / 2) 3
  have p1 := M1_pos h0 h1' one_pos (5 / 2) 3
  have ht : total (Real.exp (-80)) 1 (5 / 2) N ≤ total (Real.exp (-80)) 1 (5 / 2) 2 := by
    unfold total
    exact add_le_add
      (Finset.sum_le_sum_of_subset_of_nonneg (Finset.range_mono (by omega)) fun i _ _ => mul_nonneg (abs_nonneg _) (M0_pos h0 h1' one_pos _ i).le)
      (Finset.sum_le_sum_of_subset_of_nonneg (Finset.range_mono (by omega)) fun i _ _ => mul_nonneg (abs_nonneg _) (M1_pos h0 h1' one_pos _ i).le)
  refine lt_of_le_of_lt ht ?_
  simp only [total, Finset.sum_range_succ, Finset.sum_range_zero, c0, c1, c2, c3, c4] at h ⊢
  norm_num [abs_of_pos] at h ⊢
  linarith

/-- The loop stops at the third term at the latest. -/
lemma witness_stops : ∃ N ≤ 2, logAFracReal (Real.exp (-80)) 1 (5 / 2) = ((Real.log (total (Real.exp (-80)) 1 (5 / 2) N) : ℝ) : EReal) := by
  obtain ⟨h0, h1⟩ := witness_q
  have h1' : Real.exp (-80) < 1 := by linarith
  obtain ⟨c0, c1, c2, c3, c4⟩ := coef_vals
  set q := Real.exp (-80) with hq
  have s0 := exp_S0 h0 h1' one_pos frac_five_halves
  have s1 := exp_S1 h0 h1' one_pos frac_five_halves
  -- the third terms are smaller than the second ones
  have d0 : fracS0 q 1 (5 / 2) 2 < fracS0 q 1 (5 / 2) 1 := by
    rw [← Real.exp_lt_exp, s0, s0, c1, c2]
    have := M0_anti h0 h1' one_pos (5 / 2) (by norm_num : 1 ≤ 2)
    have := M0_pos h0 h1' one_pos (5 / 2) 1
    norm_num [abs_of_pos]
    linarith
  have d1 : fracS1 q 1 (5 / 2) 2 < fracS1 q 1 (5 / 2) 1 := by
    rw [← Real.exp_lt_exp, s1, s1, c1, c2]
    have := M1_anti h0 h1' one_pos (5 / 2) (by norm_num : 1 ≤ 2)
    have := M1_pos h0 h1' one_pos (5 / 2) 1
    norm_num [abs_of_pos]
    linarith
  -- and they are small
  have hz0 : 0 ≤ fracZ0 q 1 := by
    unfold fracZ0
    have h2 : 1 ≤ 1 / q - 1 := by
      have : 2 ≤ 1 / q := by rw [le_div_iff₀ h0]; linarith
      linarith
    have h3 := Real.log_nonneg h2
    have h4 : (0 : ℝ) ≤ 0.5 := by norm_num
    rw [one_pow, one_mul]
    linarith
  have hT : 1 / 16 ≤ total q 1 (5 / 2) 2 := by
    have m0 : 1 / 16 ≤ M0 q 1 (5 / 2) 0 := by
      rw [M0_eq h0 one_pos]
      have hphi := std_nonneg (x := fracZ0 q 1) hz0
      have hpow : (1 / 2 : ℝ) ^ (3 : ℝ) ≤ (1 - q) ^ (5 / 2 : ℝ) :=
        (Real.rpow_le_rpow_of_exponent_ge (by norm_num) (by norm_num) (by norm_num : (5 / 2 : ℝ) ≤ 3)).trans
          (Real.rpow_le_rpow (by norm_num) (by linarith) (by norm_num))
      have e3 : (1 / 2 : ℝ) ^ (3 : ℝ) = 1 / 8 := by
        rw [show (3 : ℝ) = ((3 : ℕ) : ℝ) by norm_num, Real.rpow_natCast]; norm_num
      rw [e3] at hpow
      simp only [Nat.cast_zero, sub_zero, Real.rpow_zero, mul_one, div_one, zero_pow (two_ne_zero), zero_div, Real.exp_zero]
      calc (1 / 16 : ℝ) = 1 / 8 * (1 / 2) := by norm_num
        _ ≤ _ := mul_le_mul hpow hphi (by norm_num) (Real.rpow_nonneg (by linarith) _)
    have a0 : |coef (5 / 2) 0| * M0 q 1 (5 / 2) 0 ≤ ∑ i ∈ Finset.range (2 + 1), |coef (5 / 2) i| * M0 q 1 (5 / 2) i :=
      Finset.single_le_sum (f := fun i => |coef (5 / 2) i| * M0 q 1 (5 / 2) i)
        (fun i _ => mul_nonneg (abs_nonneg _) (M0_pos h0 h1' one_pos _ i).le) (by simp)
    have a1 : 0 ≤ ∑ i ∈ Finset.range (2 + 1), |coef (5 / 2) i| * M1 q 1 (5 / 2) i :=
      Finset.sum_nonneg fun i _ => mul_nonneg (abs_nonneg _) (M1_pos h0 h1' one_pos _ i).le
    rw [c0, abs_one, one_mul] at a0
    unfold total
    linarith
  have hexp : Real.exp (-40) * 30 < Real.exp (-30) := by
    have e : Real.exp (-30) = Real.exp (-40) * Real.exp 10 := by rw [← Real.exp_add]; norm_num
    rw [e]
    refine mul_lt_mul_of_pos_left ?_ (Real.exp_pos _)
    have h2 : Real.exp 10 = Real.exp 1 ^ 10 := by rw [← Real.exp_nat_mul]; norm_num
    have h3 := Real.add_one_le_exp 1
    rw [h2]
    calc (30 : ℝ) < 2 ^ 10 := by norm_num
      _ ≤ _ := pow_le_pow_left₀ (by norm_num) (by linarith) 10
  have std1 : ∀ x : ℝ, (gaussianReal 0 1).real (Set.Iic x) ≤ 1 := fun x => measureReal_le_one
  have m0 : M0 q 1 (5 / 2) 2 ≤ Real.exp (-40) := by
    rw [M0_eq h0 one_pos]
    have hq2 : q ^ ((2 : ℕ) : ℝ) = Real.exp (-160) := by rw [hq, ← Real.exp_mul]; norm_num
    have hp1 : (1 - q) ^ (5 / 2 - ((2 : ℕ) : ℝ)) ≤ 1 := Real.rpow_le_one (by linarith) (by linarith) (by norm_num)
    have hp0 : 0 ≤ (1 - q) ^ (5 / 2 - ((2 : ℕ) : ℝ)) := Real.rpow_nonneg (by linarith) _
    have he : Real.exp (((2 : ℕ) : ℝ) ^ 2 - ((2 : ℕ) : ℝ)) = Real.exp 2 := by norm_num
    rw [hq2]
    have e1 : Real.exp ((((2 : ℕ) : ℝ) ^ 2 - ((2 : ℕ) : ℝ)) / (2 * 1 ^ 2)) = Real.exp 1 := by norm_num
    rw [e1]
    calc _ ≤ 1 * Real.exp (-160) * Real.exp 1 * 1 := by
          refine mul_le_mul ?_ (std1 _) measureReal_nonneg (by positivity)
          exact mul_le_mul_of_nonneg_right (mul_le_mul_of_nonneg_right hp1 (Real.exp_pos _).le) (Real.exp_pos _).le
      _ = Real.exp (-159) := by rw [one_mul, mul_one, ← Real.exp_add]; norm_num
      _ ≤ _ := Real.exp_le_exp.2 (by norm_num)
  have m1 : M1 q 1 (5 / 2) 2 ≤ Real.exp (-40) := by
    rw [M1_eq h0 one_pos]
    have hq2 : q ^ (5 / 2 - ((2 : ℕ) : ℝ)) = Real.exp (-40) := by rw [hq, ← Real.exp_mul]; norm_num
    have hp1 : (1 - q) ^ ((2 : ℕ) : ℝ) ≤ 1 := Real.rpow_le_one (by linarith) (by linarith) (by norm_num)
    have e1 : Real.exp (((5 / 2 - ((2 : ℕ) : ℝ)) ^ 2 - (5 / 2 - ((2 : ℕ) : ℝ))) / (2 * 1 ^ 2)) ≤ 1 := by
      rw [Real.exp_le_one_iff]; norm_num
    rw [hq2]
    calc _ ≤ 1 * Real.exp (-40) * 1 * 1 := by
          refine mul_le_mul ?_ (std1 _) measureReal_nonneg (by positivity)
          exact mul_le_mul (mul_le_mul_of_nonneg_right hp1 (Real.exp_pos _).le) e1 (Real.exp_pos _).le (by positivity)
      _ = _ := by ring
  have small0 : Real.exp (fracS0 q 1 (5 / 2) 2) < total q 1 (5 / 2) 2 * Real.exp (-30) := by
    have e : Real.exp (fracS0 q 1 (5 / 2) 2) ≤ 15 / 8 * Real.exp (-40) := by
      rw [s0, c2, abs_of_pos (by norm_num)]; linarith
    have := mul_le_mul_of_nonneg_right hT (Real.exp_pos (-30)).le
    linarith
  have small1 : Real.exp (fracS1 q 1 (5 / 2) 2) < total q 1 (5 / 2) 2 * Real.exp (-30) := by
    have e : Real.exp (fracS1 q 1 (5 / 2) 2) ≤ 15 / 8 * Real.exp (-40) := by
      rw [s1, c2, abs_of_pos (by norm_num)]; linarith
    have := mul_le_mul_of_nonneg_right hT (Real.exp_pos (-30)).le
    linarith
  exact loop_stops h0 h1' one_pos frac_five_halves d0 d1 small0 small1

/-- **C62, the increase is needed.** There are inputs for which the value returned for a fractional order is below the Rényi
divergence: the series stops after the third term although the omitted ones are positive. -/
theorem C62_series_below_violated : ∃ (q z α : ℝ) (sigma : PyNum), 0 < q ∧ q < 1 ∧ 0 < z ∧ sigma.val = (z : EReal) ∧ 1 < α ∧ (¬ ∃ m : ℤ, α = m) ∧
    logAFrac q sigma α * (((α - 1)⁻¹ : ℝ) : EReal) < sampledDiv q z α := by
  obtain ⟨h0, h1⟩ := witness_q
  have h1' : Real.exp (-80) < 1 := by linarith
  refine ⟨Real.exp (-80), 1, 5 / 2, .float 1, h0, h1', one_pos, rfl, by norm_num, frac_five_halves, ?_⟩
  obtain ⟨hp, hd⟩ := sampledDiv_eq h0 h1' one_pos (by norm_num : (1 : ℝ) < 5 / 2)
  obtain ⟨N, hN, hv⟩ := witness_stops
  have e : logAFrac (Real.exp (-80)) (.float 1) (5 / 2) = logAFracReal (Real.exp (-80)) 1 (5 / 2) := rfl
  rw [e, hv, hd, ← EReal.coe_mul, EReal.coe_lt_coe_iff]
  refine mul_lt_mul_of_pos_right (Real.log_lt_log (total_pos h0 h1' one_pos _ N) (witness_below hN)) (by norm_num)

/-- The hypotheses of the theorems above can be met, with a series that converges. -/
example : 0 < Real.exp (-80) ∧ Real.exp (-80) < 1 ∧ (PyNum.float 1).val = ((1 : ℝ) : EReal) ∧ (1 : ℝ) < 5 / 2 ∧ (¬ ∃ m : ℤ, (5 / 2 : ℝ) = m) ∧
    logAFrac (Real.exp (-80)) (.float 1) (5 / 2) ≠ ⊤ := by
  obtain ⟨h0, h1⟩ := witness_q
  obtain ⟨N, -, hv⟩ := witness_stops
  refine ⟨h0, by linarith, rfl, by norm_num, frac_five_halves, ?_⟩
  have e : logAFrac (Real.exp (-80)) (.float 1) (5 / 2) = logAFracReal (Real.exp (-80)) 1 (5 / 2) := rfl
  rw [e, hv]; exact EReal.coe_ne_top _

end Verif.Props
