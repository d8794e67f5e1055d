import Verif.Proofs.WorCoupling
import Verif.Proofs.RdpFns
import Verif.Props.ForwardDiffs

/-! # The model of sampling without replacement in closed form -/

namespace Verif.Wor
open Verif Verif.Spec Verif.Pld Verif.Rdp Verif.LogDomain Verif.Props MeasureTheory

lemma expLog_add (x y : LogProb) : expLog (x + y) = expLog x * expLog y := by
  cases x using WithBot.recBotCoe with
  | bot => simp [expLog]
  | coe x =>
    cases y using WithBot.recBotCoe with
    | bot => simp [expLog]
    | coe y => rw [← WithBot.coe_add, expLog_coe, expLog_coe, expLog_coe, Real.exp_add]

lemma expLog_nonneg' (x : LogProb) : 0 ≤ expLog x := by
  cases x using WithBot.recBotCoe with
  | bot => simp [expLog]
  | coe x => rw [expLog_coe]; exact (Real.exp_pos _).le

lemma expLog_halve (x : LogProb) : expLog (halve x) = Real.sqrt (expLog x) := by
  cases x using WithBot.recBotCoe with
  | bot => simp [halve, expLog]
  | coe x =>
    rw [halve, WithBot.map_coe, expLog_coe, expLog_coe, Real.sqrt_eq_rpow, ← Real.exp_mul]
    congr 1
    norm_num
    ring

lemma expLog_min (x y : LogProb) : expLog (min x y) = min (expLog x) (expLog y) := by
  rcases lt_or_ge x y with h | h
  · rw [min_eq_left h.le, min_eq_left (expLog_lt.1 h).le]
  · rw [min_eq_right h, min_eq_right]
    by_contra hc
    exact absurd (expLog_lt.2 (not_le.1 hc)) (not_lt.2 h)

lemma abs_signed (p : Bool × LogProb) : |signed p| = expLog p.2 := by
  rcases p with ⟨b, x⟩
  cases b
  · simp only [signed]; rw [abs_neg, abs_of_nonneg (expLog_nonneg' x)]
  · simp only [signed]; rw [abs_of_nonneg (expLog_nonneg' x)]

/-- The forward differences are the moments. -/
lemma expLog_forwardDiffs {h : ℝ} (hh : 0 ≤ h) (n k : ℕ) (hk : 1 ≤ k) (hkn : 2 * k < n + 3) :
    expLog (forwardDiffs (cgf h) n (2 * k - 1)).2 = diffMoment (2 * k) (2 * h) := by
  rw [← abs_signed, C43_forward_diffs _ _ _ (by omega)]
  have e1 : 2 * k - 1 + 2 = 2 * k + 1 := by omega
  have e2 : 2 * k - 1 + 1 = 2 * k := by omega
  rw [e1, e2]
  have : ∑ l ∈ Finset.range (2 * k + 1), (-1) ^ (2 * k - l) * ((2 * k).choose l : ℝ) * (if l = 0 then 1 else Real.exp (cgf h ((l : ℝ) - 1))) =
      diffMoment (2 * k) (2 * h) := by
    unfold diffMoment
    refine Finset.sum_congr rfl fun l _ => ?_
    congr 1
    split_ifs with hl
    · subst hl; simp
    · unfold cgf; congr 1; ring
  rw [this, abs_of_nonneg (diffMoment_nonneg k (by linarith))]

/-- The coefficients used by the code: the bound on the ternary divergence, or, for large orders, its second part only. -/
noncomputable def worB (z : ℝ) (a j : ℕ) : ℝ :=
  if j = 2 ∨ a ≤ 256 then ternaryBound z j else 2 * Real.exp ((j : ℝ) * (j - 1) * (1 / (2 * z ^ 2)))

lemma ternaryBound_le_worB (z : ℝ) (a j : ℕ) : ternaryBound z j ≤ worB z a j := by
  unfold worB
  split_ifs
  · exact le_rfl
  · exact min_le_right _ _

lemma exp_min (x y : ℝ) : Real.exp (min x y) = min (Real.exp x) (Real.exp y) := Real.exp_monotone.map_min

lemma expLog_worTerm {q z : ℝ} (hq : 0 < q) (hz : 0 < z) (a j : ℕ) (hj : 2 ≤ j) (hja : j ≤ a) :
    expLog (worTerm q (1 / (2 * z ^ 2)) a j) = (a.choose j : ℝ) * q ^ j * worB z a j := by
  have hc : (0 : ℝ) < (a.choose j : ℝ) := by exact_mod_cast Nat.choose_pos hja
  set h := 1 / (2 * z ^ 2) with hh
  have hpos : 0 < h := by positivity
  have hs : 1 / z ^ 2 = 2 * h := by rw [hh]; field_simp
  have hexp : Real.exp (j * Real.log q + logComb a j) = (a.choose j : ℝ) * q ^ j := by
    rw [logComb_nat a j hja, Real.exp_add, Real.exp_log hc, mul_comm (j : ℝ), Real.exp_mul, Real.exp_log hq, Real.rpow_natCast, mul_comm]
  unfold worTerm worB
  by_cases h2 : j = 2
  · subst h2
    rw [if_pos rfl, if_pos (Or.inl rfl), expLog_coe]
    unfold worTerm2
    simp only
    rw [Real.exp_add]
    have hexp' : Real.exp (2 * Real.log q + logComb a 2) = (a.choose 2 : ℝ) * q ^ 2 := by exact_mod_cast hexp
    rw [hexp', exp_min]
    congr 1
    unfold ternaryBound
    have h1 : 0 < 1 + -Real.exp (-(2 * h)) := by
      have : Real.exp (-(2 * h)) < 1 := by
        rw [← Real.exp_zero]; exact Real.exp_lt_exp.2 (by linarith)
      linarith
    congr 1
    · rw [Real.exp_add, Real.exp_add, Real.exp_log (by norm_num), Real.exp_log h1, hs]
      have e : 2 * (2 / 2) = 2 := by norm_num
      rw [e]
      have h0 := diffMoment_nonneg 1 (s := 2 * h) (by linarith)
      rw [Real.sqrt_mul_self h0]
      congr 1
      unfold diffMoment
      simp only [Finset.sum_range_succ, Finset.sum_range_zero]
      norm_num
      rw [mul_add, mul_neg, ← Real.exp_add]
      simp
      ring
    · rw [Real.exp_add, Real.exp_log (by norm_num), mul_comm]
      congr 2
      push_cast; ring
  rw [if_neg h2]
  by_cases ha : a ≤ 256
  · rw [if_pos ha, if_pos (Or.inr ha)]
    unfold worTermLow
    simp only
    rw [expLog_add, expLog_coe, hexp, expLog_min, expLog_add, expLog_halve, expLog_add, expLog_coe, expLog_coe, mul_comm]
    congr 1
    unfold ternaryBound
    rw [expLog_forwardDiffs hpos.le a (j / 2) (by omega) (by omega), expLog_forwardDiffs hpos.le a ((j + 1) / 2) (by omega) (by omega), hs,
      Real.exp_log (by norm_num), Real.exp_add, Real.exp_log (by norm_num)]
    congr 3
    unfold cgf; ring
  · rw [if_neg ha, if_neg (by push Not; exact ⟨h2, not_le.1 ha⟩)]
    unfold worTermHigh
    rw [expLog_coe]
    have : Real.log 2 + cgf h ((j : ℝ) - 1) + j * Real.log q + logComb a j = Real.log 2 + cgf h ((j : ℝ) - 1) + (j * Real.log q + logComb a j) := by ring
    rw [this, Real.exp_add, hexp, Real.exp_add, Real.exp_log (by norm_num), mul_comm]
    congr 3
    unfold cgf; ring

lemma expLog_fold' (l : List ℕ) (t : ℕ → LogProb) (acc : LogProb) :
    expLog (l.foldl (fun a i => logAdd a (t i)) acc) = expLog acc + (l.map fun i => expLog (t i)).sum := by
  induction l generalizing acc with
  | nil => simp
  | cons i l ih =>
    rw [List.foldl_cons, ih, C29_log_add, List.map_cons, List.sum_cons]
    ring

/-- What the code computes at an integer order. -/
lemma worInt_eq {q z : ℝ} (hq : 0 < q) (hz : 0 < z) {sigma : PyNum} (hs : sigma.val = (z : EReal)) (a : ℕ) (ha : 1 ≤ a) :
    ∃ x, worInt q sigma a = .ok x ∧ expLog x = worMoment (worB z a) q a := by
  have hh : halfInvSq sigma = 1 / (2 * z ^ 2) := by rw [halfInvSq_eq hs, Real.coe_toNNReal _ (sq_nonneg z)]
  unfold worInt
  by_cases h1 : a = 1
  · subst h1
    rw [if_pos rfl]
    refine ⟨_, rfl, ?_⟩
    rw [expLog_coe]; simp [worMoment]
  rw [if_neg h1, if_neg (by rw [hs]; exact_mod_cast hz.ne'), hh, if_neg (by positivity)]
  refine ⟨_, rfl, ?_⟩
  rw [expLog_fold', expLog_coe, Real.exp_zero, worMoment]
  congr 1
  have e : Finset.Icc 2 a = (List.range' 2 (a - 1)).toFinset := by
    ext x; simp only [Finset.mem_Icc, List.mem_toFinset, List.mem_range'_1]; omega
  rw [e, List.sum_toFinset _ (List.nodup_range' (s := 2) (n := a - 1))]
  congr 1
  refine List.map_congr_left fun j hj => ?_
  rw [List.mem_range'_1] at hj
  exact expLog_worTerm hq hz a j (by omega) (by omega)

lemma worMoment_pos {q z : ℝ} (hq : 0 ≤ q) (a b : ℕ) : 0 < worMoment (worB z a) q b := by
  unfold worMoment
  have : 0 ≤ ∑ j ∈ Finset.Icc 2 b, (b.choose j : ℝ) * q ^ j * worB z a j := by
    refine Finset.sum_nonneg fun j _ => mul_nonneg (by positivity) ?_
    unfold worB ternaryBound
    split_ifs
    · exact le_min (by positivity) (by positivity)
    · positivity
  linarith

end Verif.Wor
