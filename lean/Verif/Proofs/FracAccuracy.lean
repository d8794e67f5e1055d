import Verif.Proofs.RdpFrac

/-! # How far the series for fractional orders can be above the moment -/

namespace Verif.Frac
open MeasureTheory ProbabilityTheory Verif.Spec Finset

variable {q σ α : ℝ}

lemma lower_abs_last {m : ℕ} (hα : 0 ≤ α) (hm0 : (m : ℝ) - 1 < α) (hm1 : α ≤ m) {M : ℕ → ℝ} (ha : Antitone M) (hp : ∀ i, 0 < M i) (N : ℕ) :
    ∑ i ∈ range (N + 1), |coef α i| * M i ≤ ∑ i ∈ range (m + 2), coef α i * M i + 2 * |coef (α - 1) m| * M (m + 1) := by
  have hc : ∀ i ∈ range (m + 1), 0 < coef α i := fun i hi => coef_pos (by
    have : (i : ℝ) ≤ m := by exact_mod_cast Nat.lt_succ_iff.1 (mem_range.1 hi)
    linarith)
  have h2 : ∑ i ∈ range (N + 1), |coef α i| * M i ≤ ∑ i ∈ range (m + 1 + (N + 1)), |coef α i| * M i :=
    sum_le_sum_of_subset_of_nonneg (range_mono (by omega)) fun i _ _ => mul_nonneg (abs_nonneg _) (hp i).le
  rw [sum_range_add _ (m + 1) (N + 1)] at h2
  have h3 : ∑ i ∈ range (N + 1), |coef α (m + 1 + i)| * M (m + 1 + i) ≤ (∑ i ∈ range (N + 1), |coef α (m + 1 + i)|) * M (m + 1) := by
    rw [sum_mul]
    exact sum_le_sum fun i _ => mul_le_mul_of_nonneg_left (ha (by omega)) (abs_nonneg _)
  have h4 := sum_abs_coef_le hα hm1 (N + 1)
  have h5 := sum_abs_coef_le hα hm1 1
  simp only [range_one, sum_singleton, add_zero] at h5
  have h6 : (∑ i ∈ range (N + 1), |coef α (m + 1 + i)|) * M (m + 1) ≤ |coef (α - 1) m| * M (m + 1) := by
    refine mul_le_mul_of_nonneg_right ?_ (hp _).le
    have := abs_nonneg (coef (α - 1) (m + (N + 1)))
    linarith
  have h7 : -(|coef (α - 1) m| * M (m + 1)) ≤ coef α (m + 1) * M (m + 1) := by
    rw [← neg_mul]
    refine mul_le_mul_of_nonneg_right ?_ (hp _).le
    have := abs_nonneg (coef (α - 1) (m + 1))
    have := neg_abs_le (coef α (m + 1))
    linarith
  have h8 : ∑ i ∈ range (m + 1), |coef α i| * M i = ∑ i ∈ range (m + 1), coef α i * M i :=
    sum_congr rfl fun i hi => by rw [abs_of_pos (hc i hi)]
  rw [sum_range_succ _ (m + 1)]
  linarith

lemma lower_last (h0 : 0 < q) (h1 : q < 1) (hσ : 0 < σ) (hα : 0 ≤ α) {m : ℕ} (hm0 : (m : ℝ) - 1 < α) (hm1 : α ≤ m) (N : ℕ) :
    total q σ α N ≤ moment q σ α + 2 * |coef (α - 1) m| * (M0 q σ α (m + 1) + M1 q σ α (m + 1)) := by
  have h := le_moment h0 h1 hσ hm0.le hm1
  have e : ∑ i ∈ range (m + 2), coef α i * (M0 q σ α i + M1 q σ α i) =
      ∑ i ∈ range (m + 2), coef α i * M0 q σ α i + ∑ i ∈ range (m + 2), coef α i * M1 q σ α i := by
    rw [← sum_add_distrib]; exact sum_congr rfl fun i _ => by ring
  have u0 := lower_abs_last hα hm0 hm1 (M0_anti h0 h1 hσ α) (M0_pos h0 h1 hσ α) N
  have u1 := lower_abs_last hα hm0 hm1 (M1_anti h0 h1 hσ α) (M1_pos h0 h1 hσ α) N
  rw [e] at h
  unfold total
  linarith

/-- The two halves of one term of the series, bounded by a power of the sampling probability. -/
lemma halves_le (h0 : 0 < q) (h1 : q < 1) (hσ : 0 < σ) {k : ℕ} {s : ℝ} (hs0 : α - k ≤ s) (hs1 : s ≤ k) :
    M0 q σ α k + M1 q σ α k ≤ (1 - q) ^ (α - s) * q ^ s * Real.exp ((s ^ 2 - s) / (2 * σ ^ 2)) := by
  have hI := integrable_w h0 (Real.toNNReal (σ ^ 2)) α s
  have e : ∫ x, w q (Real.toNNReal (σ ^ 2)) α s x ∂gaussianReal 0 (Real.toNNReal (σ ^ 2)) =
      (1 - q) ^ (α - s) * q ^ s * Real.exp ((s ^ 2 - s) / (2 * σ ^ 2)) := by
    simp_rw [w_eq h0]
    have := setIntegral_gaussLR s (v_ne hσ) MeasurableSet.univ
    rw [Measure.restrict_univ] at this
    rw [integral_const_mul, this, v_coe]
    simp
  rw [← e, ← integral_add_compl (measurableSet_Iic (a := Rdp.fracZ0 q σ)) hI]
  refine add_le_add ?_ ?_
  · refine setIntegral_mono_on (integrable_w h0 _ α _).integrableOn hI.integrableOn measurableSet_Iic fun x hx => ?_
    exact term_anti (by linarith) (mul_pos h0 (gaussLR_pos _ _ _)) ((le_z0 h0 h1 hσ).1 hx) hs1
  · refine setIntegral_mono_on (integrable_w h0 _ α _).integrableOn hI.integrableOn measurableSet_Iic.compl fun x hx => ?_
    have h : 1 - q ≤ q * gaussLR 1 (Real.toNNReal (σ ^ 2)) x := by
      rw [Set.mem_compl_iff, Set.mem_Iic, le_z0 h0 h1 hσ, not_le] at hx; exact hx.le
    rw [w_swap, show s = α - (α - s) by ring, w_swap]
    exact term_anti (mul_pos h0 (gaussLR_pos _ _ _)) (by linarith) h (by linarith)

end Verif.Frac
