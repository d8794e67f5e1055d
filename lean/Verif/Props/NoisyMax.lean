import Verif.Proofs.NoisyMax

/-!
# Noisy max (C50)
-/

namespace Verif.Props
open MeasureTheory Verif.Spec Verif.NoisyMax

/-- C50: the element returned for a sample is distributed as in the exponential mechanism: element `i` has a probability proportional
to `e^(epsilon * count_i / 2)`. -/
theorem C50_exponential_mechanism {e : ℝ} (he : 0 < e) (k : ℕ) (data : List ℝ) (n : ℕ) (s : Fin n) (i : Fin k) :
    noisyMaxProb e k data n s i = Real.exp (e * counts data k i / 2) / ∑ j, Real.exp (e * counts data k j / 2) :=
  noisyMaxProb_eq he data s i

/-- C50: adding or removing a record changes no probability by a factor above `e^(epsilon / 2)`. -/
theorem C50_add_remove {e : ℝ} (he : 0 < e) (k : ℕ) (l r : List ℝ) (x : ℝ) (n : ℕ) (s : Fin n) (i : Fin k) :
    noisyMaxProb e k (l ++ x :: r) n s i ≤ Real.exp (e / 2) * noisyMaxProb e k (l ++ r) n s i ∧
    noisyMaxProb e k (l ++ r) n s i ≤ Real.exp (e / 2) * noisyMaxProb e k (l ++ x :: r) n s i := by
  have key : ∀ j : Fin k, e * (counts (l ++ r) k j : ℝ) / 2 ≤ e * counts (l ++ x :: r) k j / 2 ∧
      e * (counts (l ++ x :: r) k j : ℝ) / 2 ≤ e * counts (l ++ r) k j / 2 + e / 2 := by
    intro j
    obtain ⟨h1, h2⟩ := counts_insert l r x k j
    have h1' : (counts (l ++ r) k j : ℝ) ≤ counts (l ++ x :: r) k j := by exact_mod_cast h1
    have h2' : (counts (l ++ x :: r) k j : ℝ) ≤ counts (l ++ r) k j + 1 := by exact_mod_cast h2
    constructor <;> nlinarith
  simp only [noisyMaxProb_eq he]
  exact ⟨softmax_le i (Or.inr key), softmax_le i (Or.inl key)⟩

/-- C50: the mechanism is `epsilon`-differentially private for adding, removing and replacing a record. -/
theorem C50_private {e : ℝ} (he : 0 < e) (k : ℕ) (l r : List ℝ) (x y : ℝ) (n : ℕ) (s : Fin n) (i : Fin k) :
    noisyMaxProb e k (l ++ x :: r) n s i ≤ Real.exp e * noisyMaxProb e k (l ++ r) n s i ∧
    noisyMaxProb e k (l ++ r) n s i ≤ Real.exp e * noisyMaxProb e k (l ++ x :: r) n s i ∧
    noisyMaxProb e k (l ++ x :: r) n s i ≤ Real.exp e * noisyMaxProb e k (l ++ y :: r) n s i := by
  have hle : Real.exp (e / 2) ≤ Real.exp e := Real.exp_le_exp.2 (by linarith)
  have hx := C50_add_remove he k l r x n s i
  have hy := C50_add_remove he k l r y n s i
  refine ⟨hx.1.trans (mul_le_mul_of_nonneg_right hle measureReal_nonneg), hx.2.trans (mul_le_mul_of_nonneg_right hle measureReal_nonneg), ?_⟩
  calc noisyMaxProb e k (l ++ x :: r) n s i ≤ Real.exp (e / 2) * noisyMaxProb e k (l ++ r) n s i := hx.1
    _ ≤ Real.exp (e / 2) * (Real.exp (e / 2) * noisyMaxProb e k (l ++ y :: r) n s i) := mul_le_mul_of_nonneg_left hy.2 (Real.exp_pos _).le
    _ = Real.exp e * noisyMaxProb e k (l ++ y :: r) n s i := by rw [← mul_assoc, ← Real.exp_add]; congr 2; ring

/-- C50: with no elements to choose from, a call raises. -/
theorem C50_no_elements (e : ℝ) (data : List ℝ) (n : ℕ) (draws : Fin n → Fin 0 → ℝ) : ∃ err, NoisyMax.call e 0 data n draws = .error err := by
  unfold NoisyMax.call
  by_cases h : e = 0
  · exact ⟨_, if_pos h⟩
  · exact ⟨_, if_neg h⟩

/-- Two elements, three records: the second element is returned with probability `e / (√e + e)` for `epsilon = 1`. -/
example (n : ℕ) (s : Fin n) : noisyMaxProb 1 2 [1, 0, 1] n s 1 = Real.exp 1 / (Real.exp (1 / 2) + Real.exp 1) := by
  rw [C50_exponential_mechanism one_pos, Fin.sum_univ_two]
  have h0 : counts [1, 0, 1] 2 0 = 1 := by simp [counts]
  have h1 : counts [1, 0, 1] 2 1 = 2 := by simp [counts]
  rw [h0, h1]
  norm_num

end Verif.Props
