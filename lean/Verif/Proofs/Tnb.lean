import Verif.Proofs.RepeatSelect
import Mathlib.Analysis.Analytic.Binomial
import Mathlib.Analysis.SpecialFunctions.Log.Deriv

/-! # Proofs: the truncated negative binomial distribution -/

namespace Verif.Spec
open MeasureTheory ProbabilityTheory
open scoped ENNReal

/-- Coefficients of the binomial series. -/
noncomputable def rise (a : ℝ) (k : ℕ) : ℝ := ∏ l ∈ Finset.range k, ((l : ℝ) + a) / (l + 1)

lemma rise_nonneg {a : ℝ} (ha : 0 ≤ a) (k : ℕ) : 0 ≤ rise a k := Finset.prod_nonneg fun l _ => by positivity

lemma multichoose_eq (a : ℝ) : ∀ k, Ring.multichoose a k = rise a k := by
  intro k
  have h : (k.factorial : ℝ) * Ring.multichoose a k = (ascPochhammer ℝ k).eval a := by
    rw [← Polynomial.ascPochhammer_smeval_eq_eval, ← Ring.factorial_nsmul_multichoose_eq_ascPochhammer, nsmul_eq_mul]
  have h2 : ∀ k : ℕ, (ascPochhammer ℝ k).eval a = k.factorial * rise a k := by
    intro k
    induction k with
    | zero => simp [rise]
    | succ k ih =>
      rw [ascPochhammer_succ_right, Polynomial.eval_mul, ih]
      unfold rise
      rw [Finset.prod_range_succ, Nat.factorial_succ]
      have : (k : ℝ) + 1 ≠ 0 := by positivity
      simp only [Polynomial.eval_add, Polynomial.eval_X, Polynomial.eval_natCast]
      push_cast
      field_simp
      ring
  have hk : (k.factorial : ℝ) ≠ 0 := by positivity
  exact mul_left_cancel₀ hk (h.trans (h2 k))

lemma _root_.HasSum.congr_fun' {f g : ℕ → ℝ} {s : ℝ} (h : HasSum f s) (e : ∀ k, g k = f k) : HasSum g s := by
  rw [funext e]
  exact h

lemma binomial_hasSum (a : ℝ) {z : ℝ} (hz : |z| < 1) : HasSum (fun k => rise a k * z ^ k) ((1 - z) ^ (-a)) := by
  have h := (Real.one_div_one_sub_rpow_hasFPowerSeriesOnBall_zero a).hasSum (y := z) (by
    rw [mem_eball_zero_iff]
    rw [← Real.norm_eq_abs] at hz
    rw [← ofReal_norm, ENNReal.ofReal_lt_one]
    exact hz)
  rw [zero_add] at h
  have e : (1 - z) ^ (-a) = 1 / (1 - z) ^ a := by
    rw [Real.rpow_neg (by linarith [le_abs_self z]), one_div]
  rw [e]
  refine h.congr_fun' fun k => ?_
  rw [FormalMultilinearSeries.ofScalars_apply_eq]
  have : Ring.choose (a + k - 1) k = Ring.multichoose a k := by
    unfold Ring.choose
    congr 1
    ring
  rw [this, multichoose_eq, smul_eq_mul]

lemma rise_shift (a : ℝ) (k : ℕ) : ((k : ℝ) + 1) * rise a (k + 1) = a * rise (a + 1) k := by
  induction k with
  | zero => simp [rise]
  | succ k ih =>
    unfold rise at *
    rw [Finset.prod_range_succ _ (k + 1), Finset.prod_range_succ (fun l : ℕ => ((l : ℝ) + (a + 1)) / (l + 1)) k]
    have h1 : (k : ℝ) + 1 ≠ 0 := by positivity
    have h2 : (k : ℝ) + 1 + 1 ≠ 0 := by positivity
    push_cast
    calc ((k : ℝ) + 1 + 1) * ((∏ l ∈ Finset.range (k + 1), ((l : ℝ) + a) / (l + 1)) * (((k : ℝ) + 1 + a) / (k + 1 + 1)))
        = (((k : ℝ) + 1) * ∏ l ∈ Finset.range (k + 1), ((l : ℝ) + a) / (l + 1)) * ((k + (a + 1)) / (k + 1)) := by field_simp; ring
      _ = _ := by rw [ih]; ring

/-- The factor in the derivative of the generating function. -/
noncomputable def tnbC (η γ : ℝ) : ℝ :=
  if γ = 1 then 1 else if η = 0 then (1 - γ) / Real.log (1 / γ) else η * (1 - γ) / (γ ^ (-η) - 1)

lemma tnbC_pos {η γ : ℝ} (hη : 0 ≤ η) (h0 : 0 < γ) (h1 : γ ≤ 1) : 0 < tnbC η γ := by
  unfold tnbC
  split_ifs with h h'
  · norm_num
  · have : γ < 1 := lt_of_le_of_ne h1 h
    have : 0 < Real.log (1 / γ) := Real.log_pos (by rw [lt_div_iff₀ h0]; linarith)
    exact div_pos (by linarith) this
  · have hg : γ < 1 := lt_of_le_of_ne h1 h
    have hη : 0 < η := lt_of_le_of_ne hη (Ne.symm h')
    have : 1 < γ ^ (-η) := Real.one_lt_rpow_of_pos_of_lt_one_of_neg h0 hg (by linarith)
    exact div_pos (mul_pos hη (by linarith)) (by linarith)

lemma tnb_nonneg {η γ : ℝ} (hη : 0 ≤ η) (h0 : 0 < γ) (h1 : γ ≤ 1) (k : ℕ) : 0 ≤ tnb η γ k := by
  unfold tnb
  split_ifs with hk h hk1 h'
  · rfl
  · norm_num
  · rfl
  · have : γ < 1 := lt_of_le_of_ne h1 h
    have : 0 < Real.log (1 / γ) := Real.log_pos (by rw [lt_div_iff₀ h0]; linarith)
    exact div_nonneg (pow_nonneg (by linarith) _) (by positivity)
  · have hg : γ < 1 := lt_of_le_of_ne h1 h
    have hη : 0 < η := lt_of_le_of_ne hη (Ne.symm h')
    have : 1 < γ ^ (-η) := Real.one_lt_rpow_of_pos_of_lt_one_of_neg h0 hg (by linarith)
    exact mul_nonneg (div_nonneg (pow_nonneg (by linarith) _) (by linarith)) (rise_nonneg hη.le k)

lemma tnb_term {η γ : ℝ} (hη : 0 ≤ η) (h0 : 0 < γ) (h1 : γ ≤ 1) (k : ℕ) :
    ((k : ℝ) + 1) * tnb η γ (k + 1) = tnbC η γ * (rise (η + 1) k * (1 - γ) ^ k) := by
  unfold tnb tnbC
  rw [if_neg (by omega)]
  by_cases h : γ = 1
  · rw [if_pos h, if_pos h, h]
    rcases k with _ | k
    · simp [rise]
    · simp
  · have hg : γ < 1 := lt_of_le_of_ne h1 h
    have hk : (k : ℝ) + 1 ≠ 0 := by positivity
    rw [if_neg h, if_neg h]
    by_cases h' : η = 0
    · rw [if_pos h', if_pos h', h']
      have hr : rise (0 + 1) k = 1 := by
        unfold rise
        refine Finset.prod_eq_one fun l _ => ?_
        rw [zero_add]
        exact div_self (by positivity)
      have : 0 < Real.log (1 / γ) := Real.log_pos (by rw [lt_div_iff₀ h0]; linarith)
      rw [hr, pow_succ]
      push_cast
      field_simp
    · rw [if_neg h', if_neg h']
      have hη : 0 < η := lt_of_le_of_ne hη (Ne.symm h')
      have : 1 < γ ^ (-η) := Real.one_lt_rpow_of_pos_of_lt_one_of_neg h0 hg (by linarith)
      have hs := rise_shift η k
      show ((k : ℝ) + 1) * ((1 - γ) ^ (k + 1) / (γ ^ (-η) - 1) * rise η (k + 1)) = _
      calc ((k : ℝ) + 1) * ((1 - γ) ^ (k + 1) / (γ ^ (-η) - 1) * rise η (k + 1))
          = (1 - γ) ^ (k + 1) / (γ ^ (-η) - 1) * (((k : ℝ) + 1) * rise η (k + 1)) := by ring
        _ = _ := by rw [hs, pow_succ]; ring

lemma tnb_pgf_hasSum {η γ x : ℝ} (hη : 0 ≤ η) (h0 : 0 < γ) (h1 : γ ≤ 1) (hx0 : 0 ≤ x) (hx1 : x ≤ 1) :
    HasSum (fun k : ℕ => ((k : ℝ) + 1) * tnb η γ (k + 1) * x ^ k) (tnbC η γ * (1 - (1 - γ) * x) ^ (-(η + 1))) := by
  have hz : |(1 - γ) * x| < 1 := by
    rw [abs_of_nonneg (mul_nonneg (by linarith) hx0)]
    nlinarith
  refine ((binomial_hasSum (η + 1) hz).mul_left (tnbC η γ)).congr_fun' fun k => ?_
  rw [tnb_term hη h0 h1, mul_pow]
  ring

/-- Derivative of the generating function. -/
lemma tnb_pgf {η γ x : ℝ} (hη : 0 ≤ η) (h0 : 0 < γ) (h1 : γ ≤ 1) (hx0 : 0 ≤ x) (hx1 : x ≤ 1) :
    pgf' (tnb η γ) x = ENNReal.ofReal (tnbC η γ * (1 - (1 - γ) * x) ^ (-(η + 1))) := by
  have hs := tnb_pgf_hasSum hη h0 h1 hx0 hx1
  unfold pgf'
  rw [← hs.tsum_eq, ENNReal.ofReal_tsum_of_nonneg (fun k => mul_nonneg (mul_nonneg (by positivity) (tnb_nonneg hη h0 h1 _)) (pow_nonneg hx0 _)) hs.summable]
  refine tsum_congr fun k => ?_
  rw [← ENNReal.ofReal_mul (tnb_nonneg hη h0 h1 _)]
  congr 1
  ring

/-- The mean. -/
lemma tnbMean_hasSum {η γ : ℝ} (hη : 0 ≤ η) (h0 : 0 < γ) (h1 : γ ≤ 1) :
    HasSum (fun k : ℕ => (k : ℝ) * tnb η γ k) (tnbC η γ * γ ^ (-(η + 1))) := by
  have hs := tnb_pgf_hasSum hη h0 h1 zero_le_one le_rfl
  simp only [one_pow, mul_one, sub_sub_cancel] at hs
  have : HasSum (fun k : ℕ => ((k + 1 : ℕ) : ℝ) * tnb η γ (k + 1)) (tnbC η γ * γ ^ (-(η + 1))) := by
    push_cast
    exact hs
  rw [hasSum_nat_add_iff (f := fun k : ℕ => (k : ℝ) * tnb η γ k) 1] at this
  simpa using this

lemma tnbMean_eq {η γ : ℝ} (hη : 0 ≤ η) (h0 : 0 < γ) (h1 : γ ≤ 1) : tnbMean η γ = tnbC η γ * γ ^ (-(η + 1)) :=
  (tnbMean_hasSum hη h0 h1).tsum_eq

/-- It is a probability distribution. -/
lemma tnb_hasSum {η γ : ℝ} (hη : 0 ≤ η) (h0 : 0 < γ) (h1 : γ ≤ 1) : HasSum (tnb η γ) 1 := by
  by_cases h : γ = 1
  · have : tnb η γ = fun k => if k = 1 then 1 else 0 := by
      funext k
      unfold tnb
      by_cases hk : k = 0
      · simp [hk]
      · rw [if_neg hk, if_pos h]
    rw [this]
    exact hasSum_ite_eq 1 1
  · have hg : γ < 1 := lt_of_le_of_ne h1 h
    have hz : |1 - γ| < 1 := by rw [abs_of_nonneg (by linarith)]; linarith
    suffices hh : HasSum (fun k => tnb η γ (k + 1)) 1 by
      rw [hasSum_nat_add_iff (f := tnb η γ) 1] at hh
      simpa [tnb] using hh
    by_cases h' : η = 0
    · have hl : 0 < Real.log (1 / γ) := Real.log_pos (by rw [lt_div_iff₀ h0]; linarith)
      have hs := (Real.hasSum_pow_div_log_of_abs_lt_one hz).div_const (Real.log (1 / γ))
      have e1 : -Real.log (1 - (1 - γ)) / Real.log (1 / γ) = 1 := by
        rw [sub_sub_cancel, one_div, Real.log_inv]
        refine div_self ?_
        rw [one_div, Real.log_inv] at hl
        exact hl.ne'
      rw [e1] at hs
      refine hs.congr_fun' fun k => ?_
      unfold tnb
      rw [if_neg (by omega), if_neg h, if_pos h']
      push_cast
      rw [div_div]
    · have hη : 0 < η := lt_of_le_of_ne hη (Ne.symm h')
      have hgt : 1 < γ ^ (-η) := Real.one_lt_rpow_of_pos_of_lt_one_of_neg h0 hg (by linarith)
      have hs := binomial_hasSum η hz
      rw [sub_sub_cancel] at hs
      rw [← hasSum_nat_add_iff' 1] at hs
      simp only [Finset.range_one, Finset.sum_singleton, pow_zero, mul_one] at hs
      rw [show rise η 0 = 1 by simp [rise]] at hs
      have hs := hs.div_const (γ ^ (-η) - 1)
      rw [div_self (by linarith)] at hs
      refine hs.congr_fun' fun k => ?_
      unfold tnb
      rw [if_neg (by omega), if_neg h, if_neg h']
      unfold rise
      ring

end Verif.Spec
