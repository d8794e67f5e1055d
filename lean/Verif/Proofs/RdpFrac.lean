import Verif.Proofs.FracMoment
import Verif.Proofs.RdpFns

/-! # What `_compute_log_a_frac` returns -/

namespace Verif.Frac
open MeasureTheory ProbabilityTheory Verif.Spec Finset Verif.Rdp Verif.LogDomain Verif.Pld

lemma upper_abs {α : ℝ} {m : ℕ} (hm0 : (m : ℝ) - 1 < α) (hm1 : α ≤ m) {M : ℕ → ℝ} (ha : Antitone M) (hp : ∀ i, 0 < M i) (N : ℕ) :
    ∑ i ∈ range (m + 1), coef α i * M i ≤ ∑ i ∈ range (N + 1), |coef α i| * M i + 2 ^ m * (|coef α N| * M N) := by
  have hc : ∀ i ∈ range (m + 1), 0 < coef α i := fun i hi => coef_pos (by
    have : (i : ℝ) ≤ m := by exact_mod_cast Nat.lt_succ_iff.1 (mem_range.1 hi)
    linarith)
  have hnn : 0 ≤ 2 ^ m * (|coef α N| * M N) := by have := hp N; positivity
  rcases le_or_gt m N with h | h
  · have h1 : ∑ i ∈ range (m + 1), coef α i * M i ≤ ∑ i ∈ range (m + 1), |coef α i| * M i :=
      sum_le_sum fun i _ => mul_le_mul_of_nonneg_right (le_abs_self _) (hp i).le
    have h2 : ∑ i ∈ range (m + 1), |coef α i| * M i ≤ ∑ i ∈ range (N + 1), |coef α i| * M i :=
      sum_le_sum_of_subset_of_nonneg (range_mono (by omega)) fun i _ _ => mul_nonneg (abs_nonneg _) (hp i).le
    linarith
  · rw [← sum_range_add_sum_Ico _ (by omega : N + 1 ≤ m + 1)]
    refine add_le_add (sum_le_sum fun i _ => mul_le_mul_of_nonneg_right (le_abs_self _) (hp i).le) ?_
    have h1 : ∑ i ∈ Ico (N + 1) (m + 1), coef α i * M i ≤ ∑ i ∈ Ico (N + 1) (m + 1), coef α i * M N := by
      refine sum_le_sum fun i hi => ?_
      rw [mem_Ico] at hi
      exact mul_le_mul_of_nonneg_left (ha (by omega)) (hc i (mem_range.2 hi.2)).le
    have h2 : ∑ i ∈ Ico (N + 1) (m + 1), coef α i ≤ ∑ i ∈ range (m + 1), coef α i := by
      refine sum_le_sum_of_subset_of_nonneg (fun i hi => ?_) fun i hi _ => (hc i hi).le
      rw [mem_Ico] at hi; exact mem_range.2 hi.2
    have h3 := sum_coef_le hm0.le hm1
    have h4 : 1 ≤ |coef α N| := by
      refine (one_le_coef ?_).trans (le_abs_self _)
      have : (N : ℝ) + 1 ≤ m := by exact_mod_cast h
      linarith
    rw [← sum_mul] at h1
    refine h1.trans (mul_le_mul (h2.trans h3) ?_ (hp N).le (by positivity))
    nlinarith [hp N]

lemma lower_abs {α : ℝ} {m : ℕ} (hα : 0 ≤ α) (hm0 : (m : ℝ) - 1 < α) (hm1 : α ≤ m) {M : ℕ → ℝ} (ha : Antitone M) (hp : ∀ i, 0 < M i) (N : ℕ) :
    ∑ i ∈ range (N + 1), |coef α i| * M i ≤ ∑ i ∈ range (m + 2), coef α i * M i + 2 * |coef (α - 1) m| * M 0 := by
  have hc : ∀ i ∈ range (m + 1), 0 < coef α i := fun i hi => coef_pos (by
    have : (i : ℝ) ≤ m := by exact_mod_cast Nat.lt_succ_iff.1 (mem_range.1 hi)
    linarith)
  have h2 : ∑ i ∈ range (N + 1), |coef α i| * M i ≤ ∑ i ∈ range (m + 1 + (N + 1)), |coef α i| * M i :=
    sum_le_sum_of_subset_of_nonneg (range_mono (by omega)) fun i _ _ => mul_nonneg (abs_nonneg _) (hp i).le
  rw [sum_range_add _ (m + 1) (N + 1)] at h2
  have h3 : ∑ i ∈ range (N + 1), |coef α (m + 1 + i)| * M (m + 1 + i) ≤ (∑ i ∈ range (N + 1), |coef α (m + 1 + i)|) * M 0 := by
    rw [sum_mul]
    exact sum_le_sum fun i _ => mul_le_mul_of_nonneg_left (ha (Nat.zero_le _)) (abs_nonneg _)
  have h4 := sum_abs_coef_le hα hm1 (N + 1)
  have h5 := sum_abs_coef_le hα hm1 1
  simp only [range_one, sum_singleton, add_zero] at h5
  have h6 : (∑ i ∈ range (N + 1), |coef α (m + 1 + i)|) * M 0 ≤ |coef (α - 1) m| * M 0 := by
    refine mul_le_mul_of_nonneg_right ?_ (hp 0).le
    have := abs_nonneg (coef (α - 1) (m + (N + 1)))
    linarith
  have h7 : -(|coef (α - 1) m| * M 0) ≤ coef α (m + 1) * M (m + 1) := by
    have e1 : |coef α (m + 1)| * M (m + 1) ≤ |coef (α - 1) m| * M 0 := by
      refine mul_le_mul ?_ (ha (Nat.zero_le _)) (hp _).le (abs_nonneg _)
      have := abs_nonneg (coef (α - 1) (m + 1))
      linarith
    have e2 : -(|coef α (m + 1)| * M (m + 1)) ≤ coef α (m + 1) * M (m + 1) := by
      have := mul_le_mul_of_nonneg_right (neg_abs_le (coef α (m + 1))) (hp (m + 1)).le
      linarith
    linarith
  have h8 : ∑ i ∈ range (m + 1), |coef α i| * M i = ∑ i ∈ range (m + 1), coef α i * M i :=
    sum_congr rfl fun i hi => by rw [abs_of_pos (hc i hi)]
  rw [sum_range_succ _ (m + 1)]
  linarith

variable {q σ α : ℝ}

lemma zero_le_moment_aux (h0 : 0 < q) (h1 : q < 1) (hσ : 0 < σ) (hα : 0 ≤ α) {m : ℕ} (hm0 : (m : ℝ) - 1 ≤ α) (hm1 : α ≤ m) :
    M0 q σ α 0 + M1 q σ α 0 ≤ moment q σ α := by
  unfold moment
  have hI := integrable_mixLR_rpow h0 h1 (Real.toNNReal (σ ^ 2)) hm0 hm1
  rw [← integral_add_compl (measurableSet_Iic (a := Rdp.fracZ0 q σ)) hI]
  refine add_le_add ?_ ?_
  · refine setIntegral_mono (integrable_w h0 _ α _).integrableOn hI.integrableOn fun x => ?_
    have hp := mul_pos h0 (gaussLR_pos 1 (Real.toNNReal (σ ^ 2)) x)
    simp only [w, Nat.cast_zero, sub_zero, Real.rpow_zero, mul_one, mixLR]
    exact Real.rpow_le_rpow (by linarith) (by linarith) hα
  · refine setIntegral_mono (integrable_w h0 _ α _).integrableOn hI.integrableOn fun x => ?_
    have hp := mul_pos h0 (gaussLR_pos 1 (Real.toNNReal (σ ^ 2)) x)
    simp only [w, Nat.cast_zero, sub_zero, sub_self, Real.rpow_zero, one_mul, mixLR]
    exact Real.rpow_le_rpow hp.le (by linarith) hα

/-- The sum of the terms of both series up to the `N`-th. -/
noncomputable def total (q σ α : ℝ) (N : ℕ) : ℝ :=
  ∑ i ∈ range (N + 1), |coef α i| * M0 q σ α i + ∑ i ∈ range (N + 1), |coef α i| * M1 q σ α i

lemma upper (h0 : 0 < q) (h1 : q < 1) (hσ : 0 < σ) {m : ℕ} (hm0 : (m : ℝ) - 1 < α) (hm1 : α ≤ m) {N : ℕ} {c : ℝ}
    (hs0 : |coef α N| * M0 q σ α N ≤ c) (hs1 : |coef α N| * M1 q σ α N ≤ c) : moment q σ α ≤ total q σ α N + 2 ^ (m + 1) * c := by
  have h := moment_le h0 h1 hσ hm0.le hm1
  have e : ∑ i ∈ range (m + 1), coef α i * (M0 q σ α i + M1 q σ α i) =
      ∑ i ∈ range (m + 1), coef α i * M0 q σ α i + ∑ i ∈ range (m + 1), coef α i * M1 q σ α i := by
    rw [← sum_add_distrib]; exact sum_congr rfl fun i _ => by ring
  have u0 := upper_abs hm0 hm1 (M0_anti h0 h1 hσ α) (M0_pos h0 h1 hσ α) N
  have u1 := upper_abs hm0 hm1 (M1_anti h0 h1 hσ α) (M1_pos h0 h1 hσ α) N
  have p : (0 : ℝ) < 2 ^ m := by positivity
  have b0 := mul_le_mul_of_nonneg_left hs0 p.le
  have b1 := mul_le_mul_of_nonneg_left hs1 p.le
  rw [e] at h
  unfold total
  rw [pow_succ]
  linarith

lemma lower (h0 : 0 < q) (h1 : q < 1) (hσ : 0 < σ) (hα : 0 ≤ α) {m : ℕ} (hm0 : (m : ℝ) - 1 < α) (hm1 : α ≤ m) (N : ℕ) :
    total q σ α N ≤ moment q σ α * (1 + 2 * |coef (α - 1) m|) := by
  have h := le_moment h0 h1 hσ hm0.le hm1
  have e : ∑ i ∈ range (m + 2), coef α i * (M0 q σ α i + M1 q σ α i) =
      ∑ i ∈ range (m + 2), coef α i * M0 q σ α i + ∑ i ∈ range (m + 2), coef α i * M1 q σ α i := by
    rw [← sum_add_distrib]; exact sum_congr rfl fun i _ => by ring
  have u0 := lower_abs hα hm0 hm1 (M0_anti h0 h1 hσ α) (M0_pos h0 h1 hσ α) N
  have u1 := lower_abs hα hm0 hm1 (M1_anti h0 h1 hσ α) (M1_pos h0 h1 hσ α) N
  have z := zero_le_moment_aux h0 h1 hσ hα hm0.le hm1
  rw [e] at h
  have := mul_le_mul_of_nonneg_left z (by positivity : 0 ≤ 2 * |coef (α - 1) m|)
  unfold total
  linarith

lemma expLog_add_coe (x : LogProb) (c : ℝ) : expLog (x + (c : LogProb)) = expLog x * Real.exp c := by
  cases x using WithBot.recBotCoe with
  | bot => simp [expLog]
  | coe x => rw [← WithBot.coe_add, expLog_coe, expLog_coe, Real.exp_add]

lemma expLog_lt {x : ℝ} {y : LogProb} (h : (x : LogProb) < y) : Real.exp x < expLog y := by
  cases y using WithBot.recBotCoe with
  | bot => simp at h
  | coe y => rw [expLog_coe]; exact Real.exp_lt_exp.2 (WithBot.coe_lt_coe.1 h)

/-- What the loop returns: `inf`, or the logarithm of a partial sum whose last terms are small. -/
lemma loop_spec (q σ α : ℝ) (fuel : ℕ) : ∀ (i : ℕ) (a0 a1 l0 l1 : LogProb),
    expLog a0 = ∑ k ∈ range i, Real.exp (fracS0 q σ α k) → expLog a1 = ∑ k ∈ range i, Real.exp (fracS1 q σ α k) →
    fracLoop q σ α fuel i a0 a1 l0 l1 = ⊤ ∨
      ∃ N T, T = ∑ k ∈ range (N + 1), Real.exp (fracS0 q σ α k) + ∑ k ∈ range (N + 1), Real.exp (fracS1 q σ α k) ∧
        fracLoop q σ α fuel i a0 a1 l0 l1 = ((Real.log T : ℝ) : EReal) ∧
        Real.exp (fracS0 q σ α N) ≤ T * Real.exp (-30) ∧ Real.exp (fracS1 q σ α N) ≤ T * Real.exp (-30) := by
  induction fuel with
  | zero => intros; left; rfl
  | succ fuel ih =>
    intro i a0 a1 l0 l1 e0 e1
    have e0' : expLog (logAdd a0 (fracS0 q σ α i : ℝ)) = ∑ k ∈ range (i + 1), Real.exp (fracS0 q σ α k) := by
      rw [Props.C29_log_add, e0, expLog_coe, sum_range_succ]
    have e1' : expLog (logAdd a1 (fracS1 q σ α i : ℝ)) = ∑ k ∈ range (i + 1), Real.exp (fracS1 q σ α k) := by
      rw [Props.C29_log_add, e1, expLog_coe, sum_range_succ]
    simp only [fracLoop]
    split_ifs with hc
    · right
      have et := Props.C29_log_add (logAdd a0 (fracS0 q σ α i : ℝ)) (logAdd a1 (fracS1 q σ α i : ℝ))
      refine ⟨i, _, rfl, toEReal_of_expLog (et.trans (by rw [e0', e1'])) ?_, ?_, ?_⟩
      · exact add_pos (sum_pos (fun k _ => Real.exp_pos _) ⟨0, by simp⟩) (sum_pos (fun k _ => Real.exp_pos _) ⟨0, by simp⟩)
      · have := expLog_lt ((le_max_left _ _).trans_lt hc.2.2)
        rw [expLog_add_coe, et, e0', e1'] at this
        exact this.le
      · have := expLog_lt ((le_max_right _ _).trans_lt hc.2.2)
        rw [expLog_add_coe, et, e0', e1'] at this
        exact this.le
    · exact ih (i + 1) _ _ _ _ e0' e1'

lemma frac_spec (h0 : 0 < q) (h1 : q < 1) (hσ : 0 < σ) (hα : ¬ ∃ m : ℤ, α = m) :
    logAFracReal q σ α = ⊤ ∨ ∃ N, logAFracReal q σ α = ((Real.log (total q σ α N) : ℝ) : EReal) ∧
      |coef α N| * M0 q σ α N ≤ total q σ α N * Real.exp (-30) ∧ |coef α N| * M1 q σ α N ≤ total q σ α N * Real.exp (-30) := by
  have h := loop_spec q σ α maxStepsLogAFrac 0 ⊥ ⊥ ⊥ ⊥ (by simp [expLog]) (by simp [expLog])
  refine h.imp id ?_
  rintro ⟨N, T, hT, hv, hs0, hs1⟩
  have e : T = total q σ α N := by
    rw [hT, total]; simp_rw [exp_S0 h0 h1 hσ hα, exp_S1 h0 h1 hσ hα]
  rw [e] at hv hs0 hs1
  rw [exp_S0 h0 h1 hσ hα] at hs0
  rw [exp_S1 h0 h1 hσ hα] at hs1
  exact ⟨N, hv, hs0, hs1⟩

lemma total_pos (h0 : 0 < q) (h1 : q < 1) (hσ : 0 < σ) (α : ℝ) (N : ℕ) : 0 < total q σ α N := by
  have hc : |coef α 0| = 1 := by rw [coef_zero, abs_one]
  have a0 : |coef α 0| * M0 q σ α 0 ≤ ∑ i ∈ range (N + 1), |coef α i| * M0 q σ α i :=
    single_le_sum (f := fun i => |coef α i| * M0 q σ α i) (fun i _ => mul_nonneg (abs_nonneg _) (M0_pos h0 h1 hσ α i).le) (by simp)
  have a1 : 0 ≤ ∑ i ∈ range (N + 1), |coef α i| * M1 q σ α i :=
    sum_nonneg fun i _ => mul_nonneg (abs_nonneg _) (M1_pos h0 h1 hσ α i).le
  have := M0_pos h0 h1 hσ α 0
  rw [hc, one_mul] at a0
  unfold total
  linarith

open Classical in
/-- If the third terms meet the criterion, the loop stops there or one step earlier. -/
lemma loop_stops (h0 : 0 < q) (h1 : q < 1) (hσ : 0 < σ) (hα : ¬ ∃ m : ℤ, α = m) (d0 : fracS0 q σ α 2 < fracS0 q σ α 1)
    (d1 : fracS1 q σ α 2 < fracS1 q σ α 1) (s0 : Real.exp (fracS0 q σ α 2) < total q σ α 2 * Real.exp (-30))
    (s1 : Real.exp (fracS1 q σ α 2) < total q σ α 2 * Real.exp (-30)) :
    ∃ N ≤ 2, logAFracReal q σ α = ((Real.log (total q σ α N) : ℝ) : EReal) := by
  have e0 := exp_S0 h0 h1 hσ hα
  have e1 := exp_S1 h0 h1 hσ hα
  have hb : expLog (⊥ : LogProb) = 0 := rfl
  unfold logAFracReal maxStepsLogAFrac
  rw [show (1000 : ℕ) = 997 + 1 + 1 + 1 from rfl]
  rw [fracLoop]
  simp only [not_lt_bot, false_and, if_false]
  rw [fracLoop]
  set a0 := logAdd ⊥ ((fracS0 q σ α 0 : ℝ) : LogProb) with ha0
  set a1 := logAdd ⊥ ((fracS1 q σ α 0 : ℝ) : LogProb) with ha1
  have x0 : expLog a0 = Real.exp (fracS0 q σ α 0) := by rw [ha0, Props.C29_log_add, hb, zero_add, expLog_coe]
  have x1 : expLog a1 = Real.exp (fracS1 q σ α 0) := by rw [ha1, Props.C29_log_add, hb, zero_add, expLog_coe]
  simp only [zero_add]
  split_ifs with hc
  · refine ⟨1, by norm_num, toEReal_of_expLog ?_ (total_pos h0 h1 hσ α 1)⟩
    rw [Props.C29_log_add, Props.C29_log_add a0, Props.C29_log_add a1, x0, x1, expLog_coe, expLog_coe, e0, e0, e1, e1, total]
    simp only [sum_range_succ, sum_range_zero]; ring
  · rw [fracLoop]
    have ht : expLog (logAdd (logAdd (logAdd a0 ((fracS0 q σ α 1 : ℝ) : LogProb)) ((fracS0 q σ α 2 : ℝ) : LogProb))
        (logAdd (logAdd a1 ((fracS1 q σ α 1 : ℝ) : LogProb)) ((fracS1 q σ α 2 : ℝ) : LogProb))) = total q σ α 2 := by
      rw [Props.C29_log_add, Props.C29_log_add (logAdd a0 _), Props.C29_log_add (logAdd a1 _), Props.C29_log_add a0, Props.C29_log_add a1, x0, x1, expLog_coe, expLog_coe, expLog_coe, expLog_coe, e0, e0, e0, e1, e1, e1, total]
      simp only [sum_range_succ, sum_range_zero]; ring
    have hlt : ∀ x : ℝ, Real.exp x < total q σ α 2 * Real.exp (-30) → ∀ y : LogProb, expLog y = total q σ α 2 → (x : LogProb) < y + ((-30 : ℝ) : LogProb) := by
      intro x hx y hy
      cases y using WithBot.recBotCoe with
      | bot => rw [hb] at hy; exact absurd hy (total_pos h0 h1 hσ α 2).ne
      | coe y =>
        rw [← WithBot.coe_add, WithBot.coe_lt_coe, ← Real.exp_lt_exp, Real.exp_add, ← expLog_coe y, hy]; exact hx
    simp only [one_add_one_eq_two]
    rw [if_pos ⟨WithBot.coe_lt_coe.2 d0, WithBot.coe_lt_coe.2 d1, max_lt (hlt _ s0 _ ht) (hlt _ s1 _ ht)⟩]
    exact ⟨2, le_rfl, toEReal_of_expLog ht (total_pos h0 h1 hσ α 2)⟩

end Verif.Frac
