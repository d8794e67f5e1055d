import Verif.Proofs.RenyiFin
import Verif.Proofs.RdpFns

/-! # RDP of randomised response -/

namespace Verif.Rdp
open Verif Verif.Spec MeasureTheory

lemma sum_two {k : ℕ} {x y : Fin k} (hxy : x ≠ y) (A B C : ℝ) :
    ∑ o : Fin k, (if o = x then A else if o = y then B else C) = A + B + ((k : ℝ) - 2) * C := by
  have : ∀ o : Fin k, (if o = x then A else if o = y then B else C) = C + (if o = x then A - C else 0) + (if o = y then B - C else 0) := by
    intro o
    by_cases h1 : o = x
    · have : o ≠ y := fun h => hxy (h1.symm.trans h)
      simp [h1, hxy]
    · by_cases h2 : o = y
      · simp [h2, hxy.symm]
      · simp [h1, h2]
  simp only [this, Finset.sum_add_distrib, Finset.sum_ite_eq', Finset.mem_univ, if_true, Finset.sum_const, Finset.card_univ,
    Fintype.card_fin, nsmul_eq_mul]
  ring

lemma sum_one {k : ℕ} (x : Fin k) (A C : ℝ) : ∑ o : Fin k, (if o = x then A else C) = A + ((k : ℝ) - 1) * C := by
  have : ∀ o : Fin k, (if o = x then A else C) = C + (if o = x then A - C else 0) := by
    intro o
    by_cases h1 : o = x <;> simp [h1]
  simp only [this, Finset.sum_add_distrib, Finset.sum_ite_eq', Finset.mem_univ, if_true, Finset.sum_const, Finset.card_univ,
    Fintype.card_fin, nsmul_eq_mul]
  ring

lemma two_le_of_ne {k : ℕ} {x y : Fin k} (hxy : x ≠ y) : 2 ≤ k := by
  have h1 := x.2
  have h2 := y.2
  have : x.1 ≠ y.1 := fun h => hxy (Fin.ext h)
  omega

lemma rr_prob {k : ℕ} {p : ℝ} (h0 : 0 ≤ p) (h1 : p ≤ 1) (x : Fin k) : IsProbabilityMeasure (rrMech k p x) := by
  have hk : (0 : ℝ) < k := by exact_mod_cast x.pos
  constructor
  rw [← setLIntegral_one, Measure.restrict_univ]
  unfold rrMech
  rw [lintegral_finMeasure]
  simp only [mul_one]
  rw [← ENNReal.ofReal_sum_of_nonneg]
  · simp only [mul_ite, mul_one, mul_zero, Finset.sum_add_distrib, Finset.sum_ite_eq', Finset.mem_univ, if_true, Finset.sum_const,
      Finset.card_univ, Fintype.card_fin, nsmul_eq_mul]
    rw [mul_div_cancel₀ _ hk.ne']
    simp
  · intro o _
    have : 0 ≤ p / k := by positivity
    split_ifs <;> nlinarith

lemma uniform_prob {k : ℕ} (hk : 0 < k) : IsProbabilityMeasure (uniformResponse k) := by
  have hk : (0 : ℝ) < k := by exact_mod_cast hk
  constructor
  rw [← setLIntegral_one, Measure.restrict_univ]
  unfold uniformResponse
  rw [lintegral_finMeasure]
  simp only [mul_one]
  rw [← ENNReal.ofReal_sum_of_nonneg fun _ _ => by positivity]
  simp only [Finset.sum_const, Finset.card_univ, Fintype.card_fin, nsmul_eq_mul]
  rw [mul_div_cancel₀ _ hk.ne']
  simp

/-- At `p = 1` the response is uniform. -/
lemma rr_one {k : ℕ} (x : Fin k) : rrMech k 1 x = uniformResponse k := by
  unfold rrMech uniformResponse
  congr 1
  funext o
  simp

lemma rr_mass_pos {k : ℕ} {p : ℝ} (h0 : 0 < p) (h1 : p ≤ 1) (x : Fin k) (o : Fin k) :
    0 < (1 - p) * (if o = x then 1 else 0) + p / k := by
  have hk : (0 : ℝ) < k := by exact_mod_cast x.pos
  have : 0 < p / k := by positivity
  split_ifs <;> nlinarith

/-- The sum of the Rényi moment of two responses. -/
lemma rr_moment {k : ℕ} {p : ℝ} (h0 : 0 < p) (h1 : p ≤ 1) {x y : Fin k} (hxy : x ≠ y) (α : ℝ) :
    ∑ o : Fin k, ((1 - p) * (if o = y then 1 else 0) + p / k) *
        (((1 - p) * (if o = x then 1 else 0) + p / k) / ((1 - p) * (if o = y then 1 else 0) + p / k)) ^ α =
      p / k * (k / p - k + 1) ^ α + (1 - p + p / k) * (k / p - k + 1) ^ (-α) + (1 - 2 / k) * p := by
  have hk : (0 : ℝ) < k := by exact_mod_cast x.pos
  have hpk : 0 < p / k := by positivity
  have hL : (1 - p + p / k) / (p / k) = k / p - k + 1 := by field_simp
  have hLpos : 0 < (k : ℝ) / p - k + 1 := by rw [← hL]; exact div_pos (by linarith) hpk
  rw [show (1 - 2 / (k : ℝ)) * p = ((k : ℝ) - 2) * (p / k) by field_simp, ← sum_two hxy]
  refine Finset.sum_congr rfl fun o _ => ?_
  by_cases hx : o = x
  · have : o ≠ y := fun h => hxy (hx.symm.trans h)
    simp only [hx, if_true, hxy, if_false, mul_one, mul_zero, zero_add]
    rw [hL]
  · by_cases hy : o = y
    · simp only [hx, hy, if_true, hxy.symm, if_false, mul_one, mul_zero, zero_add]
      rw [Real.rpow_neg hLpos.le, ← Real.inv_rpow hLpos.le, ← hL, inv_div]
    · simp only [hx, hy, if_false, mul_zero, zero_add]
      rw [div_self hpk.ne', Real.one_rpow, mul_one]

lemma rr_special_moment {k : ℕ} {p : ℝ} (h0 : 0 < p) (x : Fin k) (α : ℝ) :
    ∑ o : Fin k, (1 / (k : ℝ)) * (((1 - p) * (if o = x then 1 else 0) + p / k) / (1 / (k : ℝ))) ^ α =
      1 / k * (k * (1 - p) + p) ^ α + (1 - 1 / k) * p ^ α := by
  have hk : (0 : ℝ) < k := by exact_mod_cast x.pos
  rw [show (1 - 1 / (k : ℝ)) * p ^ α = ((k : ℝ) - 1) * (1 / k * p ^ α) by field_simp, ← sum_one x]
  refine Finset.sum_congr rfl fun o _ => ?_
  by_cases hx : o = x
  · simp only [hx, if_true, mul_one]
    congr 2; field_simp
  · simp only [hx, if_false, mul_zero, zero_add]
    congr 2; field_simp

lemma rr_special_moment' {k : ℕ} {p : ℝ} (h0 : 0 < p) (h1 : p ≤ 1) (x : Fin k) (α : ℝ) :
    ∑ o : Fin k, ((1 - p) * (if o = x then 1 else 0) + p / k) * ((1 / (k : ℝ)) / ((1 - p) * (if o = x then 1 else 0) + p / k)) ^ α =
      1 / k * (k * (1 - p) + p) ^ (1 - α) + (1 - 1 / k) * p ^ (1 - α) := by
  have hk : (0 : ℝ) < k := by exact_mod_cast x.pos
  rw [← rr_special_moment h0 x (1 - α)]
  refine Finset.sum_congr rfl fun o _ => ?_
  have hg := rr_mass_pos h0 h1 x o
  generalize ((1 - p) * (if o = x then 1 else 0) + p / k) = g at hg
  have hr : 0 < g / (1 / (k : ℝ)) := by positivity
  rw [Real.rpow_sub hr, Real.rpow_one, show 1 / (k : ℝ) / g = (g / (1 / (k : ℝ)))⁻¹ by rw [inv_div], Real.inv_rpow hr.le]
  field_simp

/-- Pure indistinguishability of finitely supported measures. -/
lemma indist_fin_iff {O : Type*} [MeasurableSpace O] [MeasurableSingletonClass O] (S : Finset O) (f g : O → ℝ)
    (hf : ∀ o ∈ S, 0 ≤ f o) (hg : ∀ o ∈ S, 0 ≤ g o) (r : ℝ) :
    Indist (finMeasure S f) (finMeasure S g) r 0 ↔ ∀ o ∈ S, f o ≤ Real.exp r * g o := by
  classical
  constructor
  · intro h o ho
    have := h {o} (measurableSet_singleton o)
    rwa [Measure.real, Measure.real, finMeasure_singleton S f ho, finMeasure_singleton S g ho, ENNReal.toReal_ofReal (hf o ho),
      ENNReal.toReal_ofReal (hg o ho), add_zero] at this
  · intro h s hs
    have e : ∀ f : O → ℝ, (∀ o ∈ S, 0 ≤ f o) → (finMeasure S f).real s = ∑ o ∈ S, f o * (if o ∈ s then 1 else 0) := by
      intro f hf
      rw [Measure.real, ← setLIntegral_one, ← lintegral_indicator hs, lintegral_finMeasure, ENNReal.toReal_sum]
      · refine Finset.sum_congr rfl fun o ho => ?_
        by_cases h : o ∈ s <;> simp [h, hf o ho]
      · intro o _
        by_cases h : o ∈ s <;> simp [h]
    rw [e f hf, e g hg, add_zero, Finset.mul_sum]
    refine Finset.sum_le_sum fun o ho => ?_
    split_ifs
    · simpa using h o ho
    · simp

end Verif.Rdp
