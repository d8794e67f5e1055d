import Verif.Model.LogDomain
import Verif.Proofs.Pld

/-!
# C29: log-domain arithmetic

`expLog x` is the number whose logarithm is `x` (0 for `-inf`).
-/

namespace Verif.Props
open Verif Verif.Pld Verif.LogDomain

/-- The number represented by a sign and the logarithm of the magnitude. -/
noncomputable def signed : Bool × LogProb → ℝ
  | (true, x) => expLog x
  | (false, x) => -expLog x

lemma expLog_lt {x y : LogProb} : x < y ↔ expLog x < expLog y := by
  cases x using WithBot.recBotCoe with
  | bot =>
    cases y using WithBot.recBotCoe with
    | bot => simp
    | coe y => simpa [expLog] using Real.exp_pos y
  | coe x =>
    cases y using WithBot.recBotCoe with
    | bot => simpa [expLog] using (Real.exp_pos x).le
    | coe y => simp [expLog]

lemma subMag_spec {x y : LogProb} (h : y < x) : expLog (subMag x y) = expLog x - expLog y := by
  cases x using WithBot.recBotCoe with
  | bot => simp at h
  | coe x =>
    cases y using WithBot.recBotCoe with
    | bot => simp [subMag, expLog]
    | coe y =>
      have h' : y < x := by exact_mod_cast h
      have : 0 < 1 + -Real.exp (y - x) := by
        have : Real.exp (y - x) < 1 := by rw [Real.exp_lt_one_iff]; linarith
        linarith
      simp only [subMag, expLog_coe]
      rw [Real.exp_add, Real.exp_log this, mul_add, mul_one, mul_neg, ← Real.exp_add, add_sub_cancel]
      ring

/-- **C29 (RDP addition).** `_log_add` of the RDP accountant adds, for all logarithms including `-inf`. -/
theorem C29_log_add (x y : LogProb) : expLog (logAdd x y) = expLog x + expLog y := by
  unfold logAdd
  wlog h : x ≤ y generalizing x y with H
  · have := H y x (le_of_not_ge h)
    rw [min_comm, max_comm, add_comm]
    exact this
  rw [min_eq_left h, max_eq_right h]
  cases x using WithBot.recBotCoe with
  | bot => simp [expLog]
  | coe x =>
    cases y using WithBot.recBotCoe with
    | bot => simp at h
    | coe y =>
      simp only [expLog_coe]
      rw [Real.exp_add, Real.exp_log (by positivity), add_mul, ← Real.exp_add, one_mul, sub_add_cancel, add_comm]

/-- **C29 (RDP subtraction).** `_log_sub_sign` returns sign and logarithm of the magnitude of the difference. -/
theorem C29_log_sub_sign (x y : LogProb) : signed (logSubSign x y) = expLog x - expLog y := by
  unfold logSubSign
  split_ifs with h1 h2
  · exact subMag_spec h1
  · simp only [signed, subMag_spec h2]; ring
  · have : x = y := le_antisymm (not_lt.1 h1) (not_lt.1 h2)
    subst this
    simp [signed, expLog]

/-- **C29 (RDP subtraction, sign).** The sign is `True` exactly if the difference is non-negative. -/
theorem C29_log_sub_sign_true (x y : LogProb) : (logSubSign x y).1 = true ↔ 0 ≤ expLog x - expLog y := by
  unfold logSubSign
  split_ifs with h1 h2
  · have := expLog_lt.1 h1; simp; linarith
  · have := expLog_lt.1 h2; simp; linarith
  · have : x = y := le_antisymm (not_lt.1 h1) (not_lt.1 h2)
    simp [this]

/-- **C29 (PLD addition).** `_log_add` adds, unless both numbers are zero, when it gives NaN. -/
theorem C29_pld_log_add (a b : LogProb) :
    (a = ⊥ ∧ b = ⊥ ∧ pldLogAdd a b = .nan) ∨ ∃ x, pldLogAdd a b = .val x ∧ expLog x = expLog a + expLog b := by
  cases a using WithBot.recBotCoe with
  | bot =>
    cases b using WithBot.recBotCoe with
    | bot => left; simp [pldLogAdd]
    | coe b => right; exact ⟨_, rfl, by simp [expLog]⟩
  | coe a =>
    right
    cases b using WithBot.recBotCoe with
    | bot => exact ⟨_, rfl, by simp [expLog]⟩
    | coe b =>
      refine ⟨_, rfl, ?_⟩
      simp only [expLog_coe]
      rw [Real.exp_add, Real.exp_log (by positivity), mul_add, mul_one, ← Real.exp_add, add_sub_cancel]
      rcases le_total a b with h | h
      · rw [max_eq_right h, min_eq_left h, add_comm]
      · rw [max_eq_left h, min_eq_right h]

/-- **C29 (PLD subtraction).** `_log_sub` subtracts if the difference is positive and raises `ValueError` otherwise. -/
theorem C29_pld_log_sub (a b : LogProb) :
    (0 < expLog a - expLog b → ∃ x, pldLogSub a b = .val x ∧ expLog x = expLog a - expLog b) ∧
    (expLog a - expLog b ≤ 0 → pldLogSub a b = .raise .valueError) := by
  constructor
  · intro h
    have hlt : b < a := expLog_lt.2 (by linarith)
    unfold pldLogSub
    rw [if_neg (by simpa using hlt)]
    have := subMag_spec hlt
    cases a using WithBot.recBotCoe with
    | bot => simp at hlt
    | coe a =>
      cases b using WithBot.recBotCoe with
      | bot => exact ⟨_, rfl, this⟩
      | coe b => exact ⟨_, rfl, this⟩
  · intro h
    have : ¬ b < a := fun hc => by have := expLog_lt.1 hc; linarith
    unfold pldLogSub
    rw [if_pos (by simpa using this)]

/-- **C29 (`log_a_times_exp_b_plus_c`, defined).** Whenever `a * exp(b) + c > 0` its logarithm is returned. -/
theorem C29_log_a_times_exp_b_plus_c (a b c : ℝ) (h : 0 < a * Real.exp b + c) :
    logATimesExpBPlusC a b c = .val ((Real.log (a * Real.exp b + c) : ℝ) : LogProb) := by
  have fromExp : ∀ (x : LogProb), expLog x = a * Real.exp b + c →
      LogRes.val x = .val ((Real.log (a * Real.exp b + c) : ℝ) : LogProb) := by
    intro x hx
    cases x using WithBot.recBotCoe with
    | bot => simp [expLog] at hx; linarith
    | coe x => rw [← hx, expLog_coe, Real.log_exp]
  unfold logATimesExpBPlusC
  split_ifs with h1 h2 h3 h4 h5 h6
  · subst h1
    rw [zero_mul, zero_add] at *
    rw [npLog, if_neg (by linarith), if_neg (by linarith)]
  · have := Real.exp_pos b; nlinarith
  · rw [not_le] at h3
    obtain ⟨hs, -⟩ := C29_pld_log_sub ((Real.log c : ℝ) : LogProb) ((Real.log (-a) + b : ℝ) : LogProb)
    have e : expLog ((Real.log c : ℝ) : LogProb) - expLog ((Real.log (-a) + b : ℝ) : LogProb) = a * Real.exp b + c := by
      rw [expLog_coe, expLog_coe, Real.exp_add, Real.exp_log h3, Real.exp_log (by linarith)]; ring
    rw [e] at hs
    obtain ⟨x, hx, hx'⟩ := hs h
    rw [hx, fromExp x hx']
  · subst h4
    rw [Real.exp_zero, mul_one] at *
    rw [npLog, if_neg (by linarith), if_neg (by linarith)]
  · have ha : 0 < a := lt_of_le_of_ne (not_lt.1 h2) (Ne.symm h1)
    apply fromExp
    rw [expLog_coe, Real.exp_add, Real.exp_log ha, h5]; ring
  · have ha : 0 < a := lt_of_le_of_ne (not_lt.1 h2) (Ne.symm h1)
    obtain ⟨hs, -⟩ := C29_pld_log_sub ((b + Real.log a : ℝ) : LogProb) ((Real.log (-c) : ℝ) : LogProb)
    have e : expLog ((b + Real.log a : ℝ) : LogProb) - expLog ((Real.log (-c) : ℝ) : LogProb) = a * Real.exp b + c := by
      rw [expLog_coe, expLog_coe, Real.exp_add, Real.exp_log ha, Real.exp_log (by linarith)]; ring
    rw [e] at hs
    obtain ⟨x, hx, hx'⟩ := hs h
    rw [hx, fromExp x hx']
  · have ha : 0 < a := lt_of_le_of_ne (not_lt.1 h2) (Ne.symm h1)
    have hc : 0 < c := lt_of_le_of_ne (not_lt.1 h6) (Ne.symm h5)
    rcases C29_pld_log_add ((b + Real.log a : ℝ) : LogProb) ((Real.log c : ℝ) : LogProb) with ⟨h', _⟩ | ⟨x, hx, hx'⟩
    · simp at h'
    · rw [hx]
      apply fromExp
      rw [hx', expLog_coe, expLog_coe, Real.exp_add, Real.exp_log ha, Real.exp_log hc]; ring

/-- **C29 (`log_a_times_exp_b_plus_c`, undefined).** If `a * exp(b) + c <= 0` then `ValueError` is raised, except that
numpy's `-inf` (for zero) or NaN (for a negative number) is returned when `a = 0`, or `a > 0` and `b = 0`. -/
theorem C29_log_a_times_exp_b_plus_c_undefined (a b c : ℝ) (h : a * Real.exp b + c ≤ 0) :
    logATimesExpBPlusC a b c =
      if a = 0 ∨ (0 < a ∧ b = 0) then (if a * Real.exp b + c < 0 then .nan else .val ⊥) else .raise .valueError := by
  have hn : ∀ x : ℝ, x ≤ 0 → npLog x = if x < 0 then .nan else .val ⊥ := by
    intro x hx
    unfold npLog
    split_ifs with h1 h2
    · rfl
    · rfl
    · exact absurd (le_antisymm hx (not_lt.1 h1)) h2
  have hp := Real.exp_pos b
  unfold logATimesExpBPlusC
  by_cases h1 : a = 0
  · subst h1
    rw [zero_mul, zero_add] at *
    simp [hn c h]
  rw [if_neg h1]
  rcases lt_or_gt_of_ne h1 with h2 | h2
  · have hno : ¬ (a = 0 ∨ (0 < a ∧ b = 0)) := by
      rintro (h3 | ⟨h3, -⟩)
      · exact h1 h3
      · linarith
    rw [if_pos h2, if_neg hno]
    split_ifs with h3
    · rfl
    · rw [not_le] at h3
      refine (C29_pld_log_sub _ _).2 ?_
      rw [expLog_coe, expLog_coe, Real.exp_add, Real.exp_log h3, Real.exp_log (by linarith)]
      linarith
  · rw [if_neg (by linarith)]
    by_cases h3 : b = 0
    · subst h3
      rw [Real.exp_zero, mul_one] at *
      simp [hn _ h, h2]
    · have hno : ¬ (a = 0 ∨ (0 < a ∧ b = 0)) := by
        rintro (h4 | ⟨-, h4⟩)
        · exact h1 h4
        · exact h3 h4
      rw [if_neg h3, if_neg hno]
      have hc : c < 0 := by nlinarith
      rw [if_neg hc.ne, if_pos hc]
      refine (C29_pld_log_sub _ _).2 ?_
      rw [expLog_coe, expLog_coe, Real.exp_add, Real.exp_log h2, Real.exp_log (by linarith)]
      linarith

/-- Non-vacuity: `2 e^1 - 1` has a logarithm, `-2 e^1 + 1` raises, `1 * e^0 - 2` gives NaN. -/
example : (∃ x, logATimesExpBPlusC 2 1 (-1) = .val x) ∧ logATimesExpBPlusC (-2) 1 1 = .raise .valueError ∧
    logATimesExpBPlusC 1 0 (-2) = .nan := by
  have := Real.add_one_lt_exp (one_ne_zero)
  refine ⟨⟨_, C29_log_a_times_exp_b_plus_c 2 1 (-1) (by linarith)⟩, ?_, ?_⟩
  · rw [C29_log_a_times_exp_b_plus_c_undefined _ _ _ (by linarith)]; norm_num
  · rw [C29_log_a_times_exp_b_plus_c_undefined _ _ _ (by norm_num)]; norm_num

end Verif.Props
