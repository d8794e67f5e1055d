import Verif.Proofs.TnbMean

/-! # Proofs: accuracy of the computed mean; the bisection -/

namespace Verif.RepeatSelect
open Verif Verif.Spec

lemma pow_tenth {y : ℝ} (h : |y| ≤ 0.1) : |y| ^ 99 ≤ 1e-99 := by
  calc |y| ^ 99 ≤ (0.1 : ℝ) ^ 99 := pow_le_pow_left₀ (abs_nonneg _) h 99
    _ ≤ 1e-99 := by norm_num

/-- Accuracy of `_expm1_over_x`. -/
lemma expm1OverX_acc {x : ℝ} : |expm1OverX x - ea x| ≤ 1e-98 := by
  rw [expm1OverX_eq]
  unfold ea
  by_cases hr : x < -0.1 ∨ x > 0.1
  · have hx : x ≠ 0 := by rintro rfl; norm_num at hr
    rw [if_pos hr, if_neg hx, sub_self, abs_zero]
    norm_num
  · rw [if_neg hr]
    push Not at hr
    have hx : |x| ≤ 0.1 := abs_le.2 ⟨by linarith [hr.1], hr.2⟩
    by_cases h0 : x = 0
    · subst h0
      rw [if_pos rfl, Finset.sum_range_succ']
      simp
      norm_num
    · rw [if_neg h0]
      have hb := Real.exp_bound (x := x) (n := 100) (by linarith) (by norm_num)
      rw [Finset.sum_range_succ'] at hb
      have e : ∑ k ∈ Finset.range 99, x ^ (k + 1) / ((k + 1).factorial : ℝ) = x * ∑ k ∈ Finset.range 99, x ^ k / ((k + 1).factorial : ℝ) := by
        rw [Finset.mul_sum]
        exact Finset.sum_congr rfl fun k _ => by rw [pow_succ]; ring
      rw [e] at hb
      set S := ∑ k ∈ Finset.range 99, x ^ k / ((k + 1).factorial : ℝ) with hS
      simp only [pow_zero, Nat.factorial_zero, Nat.cast_one, div_one] at hb
      have e2 : S - (Real.exp x - 1) / x = -((Real.exp x - (x * S + 1)) / x) := by field_simp; ring
      rw [e2, abs_neg, abs_div, div_le_iff₀ (abs_pos.2 h0)]
      refine hb.trans ?_
      have hc : ((Nat.succ 100 : ℕ) : ℝ) / (((Nat.factorial 100 : ℕ) : ℝ) * ((100 : ℕ) : ℝ)) ≤ 10 := by
        rw [div_le_iff₀ (by positivity)]
        have : (1 : ℝ) ≤ ((Nat.factorial 100 : ℕ) : ℝ) := by exact_mod_cast Nat.succ_le_of_lt (Nat.factorial_pos 100)
        push_cast
        nlinarith
      calc |x| ^ 100 * (((Nat.succ 100 : ℕ) : ℝ) / (((Nat.factorial 100 : ℕ) : ℝ) * ((100 : ℕ) : ℝ))) ≤ |x| ^ 100 * 10 := by gcongr
        _ = |x| ^ 99 * |x| * 10 := by ring
        _ ≤ 1e-99 * |x| * 10 := by have := pow_tenth hx; gcongr
        _ = 1e-98 * |x| := by ring

/-- Accuracy of `_logx_over_xm1`. -/
lemma logxOverXm1_acc {g : ℝ} (h1 : g ≤ 1) : |logxOverXm1 g - lb g| ≤ 1e-98 := by
  rw [logxOverXm1_eq]
  unfold lb
  by_cases hr : g < 0.9 ∨ g > 1.1
  · have hx : g ≠ 1 := by rintro rfl; norm_num at hr
    rw [if_pos hr, if_neg hx, sub_self, abs_zero]
    norm_num
  · rw [if_neg hr]
    push Not at hr
    by_cases h : g = 1
    · subst h
      rw [if_pos rfl, Finset.sum_range_succ']
      simp
      norm_num
    · rw [if_neg h]
      have hg : g < 1 := lt_of_le_of_ne h1 h
      have hy : |1 - g| ≤ 0.1 := abs_le.2 ⟨by linarith, by linarith [hr.1]⟩
      have hb := Real.abs_log_sub_add_sum_range_le (x := 1 - g) (by linarith) 99
      rw [sub_sub_cancel] at hb
      have e : ∑ i ∈ Finset.range 99, (1 - g) ^ (i + 1) / ((i : ℝ) + 1) = (1 - g) * ∑ k ∈ Finset.range 99, (1 - g) ^ k / ((k : ℝ) + 1) := by
        rw [Finset.mul_sum]
        exact Finset.sum_congr rfl fun k _ => by rw [pow_succ]; ring
      rw [e] at hb
      set S := ∑ k ∈ Finset.range 99, (1 - g) ^ k / ((k : ℝ) + 1) with hS
      have hne : 1 - g ≠ 0 := by linarith
      have hne' : g - 1 ≠ 0 := by linarith
      have e2 : S - Real.log g / (g - 1) = ((1 - g) * S + Real.log g) / (1 - g) := by
        field_simp
        ring
      rw [e2, abs_div, div_le_iff₀ (abs_pos.2 hne)]
      refine hb.trans ?_
      have h3 : 1 / (1 - |1 - g|) ≤ 10 := by rw [div_le_iff₀ (by linarith)]; linarith
      have h4 : 0 ≤ 1 / (1 - |1 - g|) := one_div_nonneg.2 (by norm_num at hy ⊢; linarith)
      calc |1 - g| ^ (99 + 1) / (1 - |1 - g|) = |1 - g| ^ 99 * |1 - g| * (1 / (1 - |1 - g|)) := by ring
        _ ≤ 1e-99 * |1 - g| * 10 := by have := pow_tenth hy; gcongr
        _ = 1e-98 * |1 - g| := by ring

lemma ea_ge {x : ℝ} (h : -0.1 ≤ x) (h0 : x ≤ 0) : 0.9 ≤ ea x := by
  unfold ea
  split_ifs with hx
  · norm_num
  · have hx' : x < 0 := lt_of_le_of_ne h0 hx
    rw [le_div_iff_of_neg hx']
    have h1 := Real.add_one_le_exp (-x)
    have h2 : Real.exp x * Real.exp (-x) = 1 := by rw [← Real.exp_add]; simp
    have h3 := Real.exp_pos x
    have h4 : Real.exp x * (1 - x) ≤ 1 := by nlinarith
    have h5 : (1 + x * 0.9) * (1 - x) ≥ 1 := by nlinarith
    nlinarith

lemma lb_ge_one {g : ℝ} (h0 : 0 < g) (h1 : g ≤ 1) : 1 ≤ lb g := by
  unfold lb
  split_ifs with h
  · exact le_rfl
  · have hg : g < 1 := lt_of_le_of_ne h1 h
    rw [le_div_iff_of_neg (by linarith)]
    linarith [Real.log_le_sub_one_of_pos h0]

/-- Relative accuracy: factors between `1 - 2e-98` and `1 + 2e-98`. -/
lemma expm1OverX_rel {x : ℝ} (h0 : x ≤ 0) : |expm1OverX x - ea x| ≤ 2e-98 * ea x := by
  by_cases hr : x < -0.1
  · have hx : x ≠ 0 := by rintro rfl; norm_num at hr
    have : expm1OverX x = ea x := by
      rw [expm1OverX_eq, if_pos (Or.inl hr), ea, if_neg hx]
    rw [this, sub_self, abs_zero]
    have := ea_pos x
    positivity
  · have := ea_ge (not_lt.1 hr) h0
    have h2 := expm1OverX_acc (x := x)
    norm_num at *
    linarith

lemma logxOverXm1_rel {g : ℝ} (h0 : 0 < g) (h1 : g ≤ 1) : |logxOverXm1 g - lb g| ≤ 2e-98 * lb g := by
  have := lb_ge_one h0 h1
  have h2 := logxOverXm1_acc h1
  norm_num at *
  linarith

/-- The computed mean is accurate. -/
theorem tnbMean_acc {shape gamma m : ℝ} (h : RepeatSelect.tnbMean gamma shape = .ok m) :
    0 ≤ shape ∧ 0 < gamma ∧ gamma ≤ 1 ∧ |m - Spec.tnbMean shape gamma| ≤ 1e-97 * Spec.tnbMean shape gamma := by
  unfold RepeatSelect.tnbMean at h
  by_cases hs : shape < 0
  · rw [if_pos hs] at h; cases h
  rw [if_neg hs] at h
  by_cases hg : gamma ≤ 0 ∨ gamma > 1
  · rw [if_pos hg] at h; cases h
  rw [if_neg hg] at h
  push Not at hg hs
  refine ⟨hs, hg.1, hg.2, ?_⟩
  have hL : Real.log gamma ≤ 0 := Real.log_nonpos hg.1.le hg.2
  rw [tnbMean_closed hs hg.1 hg.2]
  have hb := logxOverXm1_rel hg.1 hg.2
  have hb0 := lb_pos hg.1
  have key : ∀ a' a : ℝ, 0 < a → |a' - a| ≤ 2e-98 * a → |1 / (gamma * a' * logxOverXm1 gamma) - 1 / (gamma * a * lb gamma)| ≤ 1e-97 * (1 / (gamma * a * lb gamma)) := by
    intro a' a ha0 ha
    set b' := logxOverXm1 gamma
    set b := lb gamma
    obtain ⟨u, hu⟩ : ∃ u, a' = a * (1 + u) := ⟨(a' - a) / a, by field_simp; ring⟩
    obtain ⟨v, hv⟩ : ∃ v, b' = b * (1 + v) := ⟨(b' - b) / b, by field_simp; ring⟩
    have hu1 : |u| ≤ 2e-98 := by
      have e : a' - a = u * a := by rw [hu]; ring
      rw [e, abs_mul, abs_of_pos ha0] at ha
      exact le_of_mul_le_mul_right ha ha0
    have hv1 : |v| ≤ 2e-98 := by
      have e : b' - b = v * b := by rw [hv]; ring
      rw [e, abs_mul, abs_of_pos hb0] at hb
      exact le_of_mul_le_mul_right hb hb0
    rw [abs_le] at hu1 hv1
    have hg0 := hg.1
    have hw : |(1 + u) * (1 + v) - 1| ≤ 5e-98 := by
      rw [abs_le]
      norm_num at hu1 hv1 ⊢
      constructor <;> nlinarith [hu1.1, hu1.2, hv1.1, hv1.2]
    set w := (1 + u) * (1 + v) with hwd
    have hw0 : 0.9 < w := by
      rw [abs_le] at hw
      have := hw.1
      norm_num at this ⊢
      linarith
    have hw0' : 0 < w := by linarith
    have e : 1 / (gamma * a' * b') - 1 / (gamma * a * b) = (1 / (gamma * a * b)) * ((1 - w) / w) := by
      have : gamma * a' * b' = gamma * a * b * w := by rw [hu, hv, hwd]; ring
      rw [this]
      field_simp
    rw [e, abs_mul, abs_of_pos (by positivity), mul_comm]
    refine mul_le_mul_of_nonneg_right ?_ (by positivity)
    rw [abs_div, abs_of_pos hw0', div_le_iff₀ hw0', abs_sub_comm]
    refine hw.trans ?_
    norm_num at hw0 ⊢
    linarith
  by_cases h1 : shape = 1
  · subst h1
    rw [if_pos rfl] at h
    cases h
    have e : gamma * ea (1 * Real.log gamma) * lb gamma = gamma := by
      unfold ea lb
      by_cases hg1 : gamma = 1
      · simp [hg1]
      · have hl : Real.log gamma ≠ 0 := Real.log_ne_zero_of_pos_of_ne_one hg.1 hg1
        rw [one_mul, if_neg hl, if_neg hg1, Real.exp_log hg.1]
        have : gamma - 1 ≠ 0 := sub_ne_zero.2 hg1
        field_simp
    rw [e, sub_self, abs_zero]
    have := hg.1
    positivity
  rw [if_neg h1] at h
  by_cases h2 : shape = 0
  · subst h2
    rw [if_pos rfl] at h
    cases h
    have := key 1 1 one_pos (by norm_num)
    simpa [ea] using this
  · rw [if_neg h2] at h
    cases h
    exact key _ _ (ea_pos _) (expm1OverX_rel (mul_nonpos_of_nonneg_of_nonpos hs hL))

/-- Away from the Taylor expansions the computed mean is exact. -/
theorem tnbMean_exact {shape gamma : ℝ} (h0 : 0 < gamma) (h1 : gamma ≤ 1) (h : shape = 1 ∨ gamma < 0.9 ∧ (shape = 0 ∨ (0 < shape ∧ shape * Real.log gamma < -0.1))) :
    RepeatSelect.tnbMean gamma shape = .ok (Spec.tnbMean shape gamma) := by
  have hs : 0 ≤ shape := by rcases h with h | ⟨-, h | h⟩ <;> linarith
  rw [tnbMean_closed hs h0 h1]
  unfold RepeatSelect.tnbMean
  rw [if_neg (not_lt.2 hs), if_neg (by push Not; exact ⟨h0, h1⟩)]
  rcases h with rfl | ⟨hg, h⟩
  · rw [if_pos rfl]
    have e : gamma * ea (1 * Real.log gamma) * lb gamma = gamma := by
      unfold ea lb
      by_cases hg1 : gamma = 1
      · simp [hg1]
      · have hl : Real.log gamma ≠ 0 := Real.log_ne_zero_of_pos_of_ne_one h0 hg1
        rw [one_mul, if_neg hl, if_neg hg1, Real.exp_log h0]
        have : gamma - 1 ≠ 0 := sub_ne_zero.2 hg1
        field_simp
    rw [e]
  · have hg1 : gamma ≠ 1 := by norm_num at hg; linarith
    have hb : logxOverXm1 gamma = lb gamma := by rw [logxOverXm1_eq, if_pos (Or.inl hg), lb, if_neg hg1]
    rw [hb]
    rcases h with rfl | ⟨h, hx⟩
    · rw [if_neg (by norm_num), if_pos rfl]
      simp [ea]
    · have hx0 : shape * Real.log gamma ≠ 0 := by intro hc; rw [hc] at hx; norm_num at hx
      have ha : expm1OverX (shape * Real.log gamma) = ea (shape * Real.log gamma) := by rw [expm1OverX_eq, if_pos (Or.inl hx), ea, if_neg hx0]
      rw [if_neg h.ne', ha]
      by_cases h1s : shape = 1
      · subst h1s
        rw [if_pos rfl]
        congr 1
        have hl : Real.log gamma ≠ 0 := Real.log_ne_zero_of_pos_of_ne_one h0 hg1
        unfold ea lb
        rw [one_mul, if_neg hl, if_neg hg1, Real.exp_log h0]
        have : gamma - 1 ≠ 0 := sub_ne_zero.2 hg1
        field_simp
      · rw [if_neg h1s]

end Verif.RepeatSelect
