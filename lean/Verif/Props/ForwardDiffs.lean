import Verif.Model.RdpSampling
import Verif.Props.LogDomain
import Mathlib.Algebra.Group.ForwardDiff

/-!
# C43: forward differences in the log domain

`forwardDiffs f n i` is the model of entry `i` of the result of `_get_forward_diffs(f, n)`, `inplaceDiff` of
`_stable_inplace_diff_in_log`. A number is represented by its sign and the logarithm of its absolute value: `signed`.
-/

namespace Verif.Props
open Verif Verif.Rdp Verif.Pld Verif.LogDomain

/-- The number at index `j`. -/
noncomputable def valAt (st : SignedVec) (j : ℕ) : ℝ := signed (st.1 j, st.2 j)

lemma diffStep_ne (st : SignedVec) {j k : ℕ} (h : k ≠ j) : (diffStep st j).1 k = st.1 k ∧ (diffStep st j).2 k = st.2 k := by
  unfold diffStep
  dsimp only
  split_ifs <;> simp [Function.update_of_ne h]

lemma diffStep_eq (st : SignedVec) (j : ℕ) : valAt (diffStep st j) j = valAt st (j + 1) - valAt st j := by
  have hne : j + 1 ≠ j := by omega
  unfold diffStep
  by_cases h : st.1 j = st.1 (j + 1)
  · rw [if_pos h]
    have hs := C29_log_sub_sign (st.2 (j + 1)) (st.2 j)
    dsimp only
    rw [Function.update_of_ne hne]
    unfold valAt
    cases hb : st.1 (j + 1) with
    | true =>
      rw [hb] at h
      simp only [not_true_eq_false, if_false, Function.update_self, h, signed] at hs ⊢
      simpa using hs
    | false =>
      rw [hb] at h
      simp only [Bool.false_eq_true, not_false_eq_true, if_true, Function.update_self, h, signed] at hs ⊢
      rcases hr : logSubSign (st.2 (j + 1)) (st.2 j) with ⟨b, x⟩
      rw [hr] at hs
      cases b <;> simp at hs ⊢ <;> linarith
  · rw [if_neg h]
    have hs := C29_log_add (st.2 j) (st.2 (j + 1))
    unfold valAt
    simp only [Function.update_self, signed]
    cases h1 : st.1 j <;> cases h2 : st.1 (j + 1) <;> simp [h1, h2] at h ⊢ <;> linarith

lemma inplaceDiff_spec (st : SignedVec) (n : ℕ) :
    (∀ j < n, valAt (inplaceDiff st n) j = valAt st (j + 1) - valAt st j) ∧
    (∀ j, n ≤ j → (inplaceDiff st n).1 j = st.1 j ∧ (inplaceDiff st n).2 j = st.2 j) := by
  induction n with
  | zero => exact ⟨fun j hj => absurd hj (by omega), fun j _ => ⟨rfl, rfl⟩⟩
  | succ n ih =>
    have e : inplaceDiff st (n + 1) = diffStep (inplaceDiff st n) n := by
      unfold inplaceDiff; rw [List.range_succ, List.foldl_append]; rfl
    rw [e]
    constructor
    · intro j hj
      rcases Nat.lt_succ_iff_lt_or_eq.1 hj with h | rfl
      · have := diffStep_ne (inplaceDiff st n) (j := n) (k := j) (by omega)
        rw [← ih.1 j h]
        unfold valAt
        rw [this.1, this.2]
      · rw [diffStep_eq]
        have h1 := ih.2 j le_rfl
        have h2 := ih.2 (j + 1) (by omega)
        unfold valAt
        rw [h1.1, h1.2, h2.1, h2.2]
    · intro j hj
      have h1 := diffStep_ne (inplaceDiff st n) (j := n) (k := j) (by omega)
      have h2 := ih.2 j (by omega)
      exact ⟨h1.1.trans h2.1, h1.2.trans h2.2⟩

/-- **C43 (in-place difference).** `_stable_inplace_diff_in_log` replaces the first `n` numbers by the differences of
consecutive *original* numbers (although it overwrites them as it goes) and leaves the others alone. -/
theorem C43_inplace_diff (st : SignedVec) (n j : ℕ) :
    valAt (inplaceDiff st n) j = if j < n then valAt st (j + 1) - valAt st j else valAt st j := by
  split_ifs with h
  · exact (inplaceDiff_spec st n).1 j h
  · have := (inplaceDiff_spec st n).2 j (not_lt.1 h)
    unfold valAt; rw [this.1, this.2]

/-- The sequence whose differences are taken: `1, e^f(0), e^f(1), …`. -/
noncomputable def expSeq (f : ℝ → ℝ) (k : ℕ) : ℝ := if k = 0 then 1 else Real.exp (f ((k : ℝ) - 1))

lemma diffIter_spec (f : ℝ → ℝ) (n i : ℕ) (hi : i ≤ n + 2) : ∀ j, j + i ≤ n + 2 →
    valAt (diffIter f n i) j = (fwdDiff 1)^[i] (expSeq f) j := by
  induction i with
  | zero =>
    intro j _
    simp only [diffIter, initVec, valAt, signed, Function.iterate_zero, id, expSeq]
    split_ifs <;> simp [expLog]
  | succ i ih =>
    intro j hj
    rw [diffIter, C43_inplace_diff, if_pos (by omega), ih (by omega) (j + 1) (by omega), ih (by omega) j (by omega),
      Function.iterate_succ_apply']
    rfl

/-- **C43.** Entry `i` of the result of `_get_forward_diffs(f, n)` is the forward difference of order `i + 1` of the sequence
`1, e^f(0), e^f(1), …` at 0, with its sign, for every `n` and every `i < n + 2`. -/
theorem C43_forward_diffs (f : ℝ → ℝ) (n i : ℕ) (hi : i < n + 2) :
    signed (forwardDiffs f n i) =
      ∑ k ∈ Finset.range (i + 2), (-1) ^ (i + 1 - k) * ((i + 1).choose k : ℝ) * (if k = 0 then 1 else Real.exp (f ((k : ℝ) - 1))) := by
  have h := diffIter_spec f n (i + 1) (by omega) 0 (by omega)
  rw [fwdDiff_iter_eq_sum_shift] at h
  show valAt (diffIter f n (i + 1)) 0 = _
  rw [h]
  refine Finset.sum_congr rfl fun k _ => ?_
  rw [zsmul_eq_mul]
  push_cast
  congr 1
  simp only [expSeq, smul_eq_mul, mul_one, zero_add]

/-- A concrete case: the second difference of `1, e^0, e^1` is `1 - 2 + e`. -/
example : signed (forwardDiffs (fun x => x) 0 1) = 1 - 2 + Real.exp 1 := by
  rw [C43_forward_diffs _ 0 1 (by norm_num)]
  simp [Finset.sum_range_succ]
  norm_num

end Verif.Props
