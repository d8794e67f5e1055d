import Verif.Proofs.WorModel
import Verif.Proofs.RdpNonneg

/-! # The bounds for sampling without replacement are monotone in the noise and in the sample -/

namespace Verif.Wor
open Verif Verif.Spec Verif.Pld Verif.Rdp Verif.LogDomain Verif.Props

lemma worB_nonneg (z : ℝ) (a j : ℕ) : 0 ≤ worB z a j := by
  unfold worB ternaryBound
  split_ifs
  · exact le_min (by positivity) (by positivity)
  · positivity

/-- More noise, smaller coefficients. -/
lemma worB_anti {z z' : ℝ} (hz' : 0 < z') (hzz : z' ≤ z) (a j : ℕ) : worB z a j ≤ worB z' a j := by
  have hz : 0 < z := hz'.trans_le hzz
  have h1 : 1 / z ^ 2 ≤ 1 / z' ^ 2 := one_div_le_one_div_of_le (by positivity) (by gcongr)
  have h2 : 1 / (2 * z ^ 2) ≤ 1 / (2 * z' ^ 2) := one_div_le_one_div_of_le (by positivity) (by gcongr)
  have hj : (0 : ℝ) ≤ (j : ℝ) * (j - 1) := by
    rcases j with _ | j
    · simp
    · push_cast; rw [add_sub_cancel_right]; positivity
  have e : 2 * Real.exp ((j : ℝ) * (j - 1) * (1 / (2 * z ^ 2))) ≤ 2 * Real.exp ((j : ℝ) * (j - 1) * (1 / (2 * z' ^ 2))) := by gcongr
  unfold worB ternaryBound
  split_ifs
  · refine min_le_min ?_ e
    have m : ∀ i, diffMoment (2 * i) (1 / z ^ 2) ≤ diffMoment (2 * i) (1 / z' ^ 2) := fun i =>
      diffMoment_mono i (Set.mem_Ici.2 (by positivity)) (Set.mem_Ici.2 (by positivity)) h1
    have p := fun i => diffMoment_nonneg i (s := 1 / z ^ 2) (by positivity)
    have p' := fun i => diffMoment_nonneg i (s := 1 / z' ^ 2) (by positivity)
    exact mul_le_mul_of_nonneg_left (Real.sqrt_le_sqrt (mul_le_mul (m _) (m _) (p _) (p' _))) (by norm_num)
  · exact e

lemma worMoment_mono {q q' z z' : ℝ} (hq : 0 ≤ q) (hqq : q ≤ q') (hz' : 0 < z') (hzz : z' ≤ z) (a : ℕ) :
    worMoment (worB z a) q a ≤ worMoment (worB z' a) q' a := by
  unfold worMoment
  refine add_le_add_right (Finset.sum_le_sum fun j _ => ?_) 1
  have := worB_anti hz' hzz a j
  have := worB_nonneg z a j
  exact mul_le_mul (by gcongr) (by assumption) (by assumption) (mul_nonneg (by positivity) (pow_nonneg (hq.trans hqq) j))

/-- The values at one order, for samples smaller than the data set. -/
lemma worScalar_mono {q q' z z' α : ℝ} {sigma sigma' : PyNum} (hq : 0 ≤ q) (hqq : q ≤ q') (h1 : q' < 1 ∨ q = 1) (hz' : 0 < z') (hzz : z' ≤ z)
    (hs : sigma.val = (z : EReal)) (hs' : sigma'.val = (z' : EReal)) {r r' : EReal} (h : worScalar q sigma (α : EReal) = .ok r)
    (h' : worScalar q' sigma' (α : EReal) = .ok r') : r ≤ r' := by
  have hz : 0 < z := hz'.trans_le hzz
  have hr' := worScalar_nonneg h'
  unfold worScalar at h h'
  by_cases c' : ¬ (q' ≤ 1 ∧ 0 ≤ q' ∧ 1 ≤ (α : EReal))
  · rw [if_pos c'] at h'; simp at h'
  rw [if_neg c'] at h'
  push Not at c'
  have hα : 1 ≤ α := by exact_mod_cast c'.2.2
  rw [if_neg (not_not.2 ⟨hqq.trans c'.1, hq, c'.2.2⟩)] at h
  rcases hq.eq_or_lt with rfl | hq
  · rw [if_pos rfl, Except.ok.injEq] at h
    rw [← h]; exact hr'
  have hq' : 0 < q' := hq.trans_le hqq
  rw [if_neg hq.ne'] at h
  rw [if_neg hq'.ne'] at h'
  rcases h1 with h1 | rfl
  swap
  · obtain rfl : q' = 1 := le_antisymm c'.1 hqq
    rw [if_pos rfl, if_neg (by rw [hs]; exact_mod_cast hz.ne'), Except.ok.injEq, halfInvSq_eq hs, Real.coe_toNNReal _ (sq_nonneg z)] at h
    rw [if_pos rfl, if_neg (by rw [hs']; exact_mod_cast hz'.ne'), Except.ok.injEq, halfInvSq_eq hs', Real.coe_toNNReal _ (sq_nonneg z')] at h'
    rw [← h, ← h']
    refine mul_le_mul_of_nonneg_left ?_ (by exact_mod_cast (by linarith : (0 : ℝ) ≤ α))
    exact_mod_cast one_div_le_one_div_of_le (by positivity) (by gcongr)
  rw [if_neg (hqq.trans_lt h1).ne, if_neg (EReal.coe_ne_top _)] at h
  rw [if_neg h1.ne, if_neg (EReal.coe_ne_top _)] at h'
  by_cases c1 : (α : EReal) = 1
  · rw [if_pos c1] at h; simp at h
  rw [if_neg c1] at h h'
  have hα1 : 1 < α := lt_of_le_of_ne hα fun h => c1 (by rw [← h]; simp)
  have hinv : (0 : EReal) ≤ (((α - 1)⁻¹ : ℝ) : EReal) := by exact_mod_cast inv_nonneg.2 (by linarith)
  have hfl : 1 ≤ ⌊α⌋₊ := Nat.le_floor (by simpa using hα)
  have hcl : 1 ≤ ⌈α⌉₊ := hfl.trans (Nat.floor_le_ceil α)
  have one : ∀ a : ℕ, 1 ≤ a → ∃ x y, worInt q sigma a = .ok x ∧ worInt q' sigma' a = .ok y ∧ toEReal x ≤ toEReal y := by
    intro a ha
    obtain ⟨x, hx, ex⟩ := worInt_eq hq hz hs a ha
    obtain ⟨y, hy, ey⟩ := worInt_eq hq' hz' hs' a ha
    refine ⟨x, y, hx, hy, ?_⟩
    have px := worMoment_pos (z := z) hq.le a a
    rw [toEReal_of_expLog ex px, toEReal_of_expLog ey (worMoment_pos hq'.le a a)]
    exact_mod_cast Real.log_le_log px (worMoment_mono hq.le hqq hz' hzz a)
  obtain ⟨x, y, hx, hy, hxy⟩ := one _ hfl
  obtain ⟨u, v, hu, hv, huv⟩ := one _ hcl
  simp only at h h'
  by_cases ci : ∃ m : ℕ, (α : EReal).toReal = m
  · rw [if_pos ci, EReal.toReal_coe, hx] at h
    rw [if_pos ci, EReal.toReal_coe, hy] at h'
    simp only [Except.ok.injEq] at h h'
    rw [← h, ← h']
    exact mul_le_mul_of_nonneg_right hxy hinv
  · rw [if_neg ci, EReal.toReal_coe, hx, hu] at h
    rw [if_neg ci, EReal.toReal_coe, hy, hv] at h'
    simp only [Except.ok.injEq] at h h'
    rw [← h, ← h']
    refine mul_le_mul_of_nonneg_right (add_le_add (mul_le_mul_of_nonneg_left hxy ?_) (mul_le_mul_of_nonneg_left huv ?_)) hinv
    · have := Nat.lt_floor_add_one α
      exact_mod_cast (by linarith : (0 : ℝ) ≤ 1 - (α - ⌊α⌋₊))
    · exact_mod_cast sub_nonneg.2 (Nat.floor_le (by linarith : 0 ≤ α))

end Verif.Wor
