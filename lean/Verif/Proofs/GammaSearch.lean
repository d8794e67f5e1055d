import Verif.Model.RepeatSelect
import Verif.Proofs.Tnb
import Mathlib.Analysis.SpecialFunctions.Pow.NNReal
import Mathlib.Analysis.SpecialFunctions.Trigonometric.DerivHyp
import Mathlib.Analysis.Complex.ExponentialBounds

/-! # Proofs: the search for the parameter of the truncated negative binomial distribution -/

namespace Verif.RepeatSelect
open Verif

/-! ### The truncated series -/

lemma expm1_fold (x : ℝ) (m : ℕ) : (List.range' 1 m).foldl (fun (s : ℝ × ℝ) (k : ℕ) => (s.1 / k * x, s.2 + s.1 / k)) (1, 0) =
    (x ^ m / m.factorial, ∑ k ∈ Finset.range m, x ^ k / (k + 1).factorial) := by
  induction m with
  | zero => simp
  | succ m ih =>
    rw [List.range'_concat, List.foldl_append, ih, Finset.sum_range_succ]
    simp only [List.foldl_cons, List.foldl_nil, Prod.mk.injEq]
    have : (m.factorial : ℝ) ≠ 0 := by positivity
    rw [Nat.factorial_succ, pow_succ]
    push_cast
    constructor
    · field_simp
      ring
    · congr 1
      field_simp
      ring

lemma expm1OverX_eq (x : ℝ) : expm1OverX x = if x < -0.1 ∨ x > 0.1 then (Real.exp x - 1) / x else ∑ k ∈ Finset.range 99, x ^ k / (k + 1).factorial := by
  unfold expm1OverX
  rw [expm1_fold]

lemma logxOverXm1_eq (x : ℝ) : logxOverXm1 x = if x < 0.9 ∨ x > 1.1 then Real.log x / (x - 1) else ∑ k ∈ Finset.range 99, (1 - x) ^ k / ((k : ℝ) + 1) := by
  unfold logxOverXm1
  congr 1
  have : ∀ m : ℕ, ((List.range' 1 m).map fun k : ℕ => (1 - x) ^ (k - 1) / (k : ℝ)).sum = ∑ k ∈ Finset.range m, (1 - x) ^ k / ((k : ℝ) + 1) := by
    intro m
    induction m with
    | zero => simp
    | succ m ih =>
      rw [List.range'_concat, List.map_append, List.sum_append, ih, Finset.sum_range_succ]
      simp [add_comm]
  exact this 99

end Verif.RepeatSelect
