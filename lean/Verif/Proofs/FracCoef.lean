import Verif.Model.Rdp
import Mathlib.Analysis.SpecialFunctions.Gamma.Basic
import Mathlib.Analysis.SpecialFunctions.Pow.Deriv
import Mathlib.Analysis.Calculus.Deriv.MeanValue

/-! # Generalised binomial coefficients and the partial sums of the binomial series -/

namespace Verif.Frac
open Finset

/-- `α (α-1) ... (α-i+1) / i!`. -/
noncomputable def coef (α : ℝ) (i : ℕ) : ℝ := ∏ k ∈ range i, (α - k) / (k + 1)

lemma coef_zero (α : ℝ) : coef α 0 = 1 := by simp [coef]

lemma coef_succ (α : ℝ) (i : ℕ) : coef α (i + 1) = coef α i * ((α - i) / (i + 1)) := by
  unfold coef
  rw [prod_range_succ]

lemma coef_shift (α : ℝ) (i : ℕ) : ((i : ℝ) + 1) * coef α (i + 1) = α * coef (α - 1) i := by
  induction i with
  | zero => simp [coef]
  | succ i ih =>
    rw [coef_succ α (i + 1), coef_succ (α - 1) i]
    have h1 : ((i : ℝ) + 1) ≠ 0 := by positivity
    have h2 : (((i + 1 : ℕ) : ℝ) + 1) ≠ 0 := by positivity
    have : coef α (i + 1) = α * coef (α - 1) i / (i + 1) := by rw [← ih]; field_simp
    rw [this]
    push_cast at h2 ⊢
    field_simp
    ring

lemma coef_nat (n i : ℕ) (h : i ≤ n) : coef n i = n.choose i := by
  induction i with
  | zero => simp [coef]
  | succ i ih =>
    rw [coef_succ, ih (by omega)]
    have := Nat.choose_succ_right_eq n i
    have h2 : ((n.choose (i + 1) : ℕ) : ℝ) * (i + 1) = n.choose i * (n - i) := by
      rw [← Nat.cast_sub (by omega : i ≤ n)]; exact_mod_cast this
    have h1 : ((i : ℝ) + 1) ≠ 0 := by positivity
    field_simp
    linarith

lemma coef_mono {α β : ℝ} {i : ℕ} (h : (i : ℝ) - 1 ≤ α) (hb : α ≤ β) : coef α i ≤ coef β i := by
  refine prod_le_prod (fun k hk => ?_) fun k hk => ?_
  · have : (k : ℝ) + 1 ≤ i := by exact_mod_cast mem_range.1 hk
    exact div_nonneg (by linarith) (by positivity)
  · gcongr

lemma coef_pos {α : ℝ} {i : ℕ} (h : (i : ℝ) - 1 < α) : 0 < coef α i := by
  refine prod_pos fun k hk => ?_
  have : (k : ℝ) + 1 ≤ i := by exact_mod_cast mem_range.1 hk
  exact div_pos (by linarith) (by positivity)

lemma one_le_coef {α : ℝ} {i : ℕ} (h : (i : ℝ) ≤ α) : 1 ≤ coef α i := by
  have := coef_mono (α := i) (i := i) (by linarith) h
  rwa [coef_nat i i le_rfl, Nat.choose_self, Nat.cast_one] at this

lemma coef_le_choose {α : ℝ} {m i : ℕ} (h0 : (m : ℝ) - 1 ≤ α) (h1 : α ≤ m) (hi : i ≤ m) : coef α i ≤ m.choose i := by
  rw [← coef_nat m i hi]
  have : (i : ℝ) ≤ m := by exact_mod_cast hi
  exact coef_mono (by linarith) h1

lemma sum_coef_le {α : ℝ} {m : ℕ} (h0 : (m : ℝ) - 1 ≤ α) (h1 : α ≤ m) : ∑ i ∈ range (m + 1), coef α i ≤ 2 ^ m := by
  have h : ∑ i ∈ range (m + 1), coef α i ≤ ∑ i ∈ range (m + 1), (m.choose i : ℝ) :=
    sum_le_sum fun i hi => coef_le_choose h0 h1 (by have := mem_range.1 hi; omega)
  have h2 : ∑ i ∈ range (m + 1), (m.choose i : ℝ) = 2 ^ m := by exact_mod_cast Nat.sum_range_choose m
  linarith

/-- The absolute values of the coefficients beyond the order telescope. -/
lemma sum_abs_coef_le {α : ℝ} {m : ℕ} (h0 : 0 ≤ α) (h1 : α ≤ m) (n : ℕ) :
    ∑ i ∈ range n, |coef α (m + 1 + i)| ≤ |coef (α - 1) m| - |coef (α - 1) (m + n)| := by
  induction n with
  | zero => simp
  | succ n ih =>
    rw [sum_range_succ]
    have e1 : |coef α (m + 1 + n)| = |coef (α - 1) (m + n)| * (α / (m + n + 1)) := by
      have := coef_shift α (m + n)
      have hp : (0 : ℝ) < ((m + n : ℕ) : ℝ) + 1 := by positivity
      have h2 : coef α (m + 1 + n) = coef (α - 1) (m + n) * (α / (((m + n : ℕ) : ℝ) + 1)) := by
        rw [show m + 1 + n = m + n + 1 by ring]; field_simp; linarith
      rw [h2, abs_mul, abs_of_nonneg (div_nonneg h0 hp.le)]
      push_cast; ring_nf
    have e2 : |coef (α - 1) (m + (n + 1))| = |coef (α - 1) (m + n)| * ((m + n + 1 - α) / (m + n + 1)) := by
      rw [← add_assoc, coef_succ, abs_mul]
      congr 1
      push_cast
      have hn : (0 : ℝ) ≤ n := Nat.cast_nonneg n
      rw [show (α - 1 - ((m : ℝ) + n)) / (m + n + 1) = -((m + n + 1 - α) / (m + n + 1)) by ring, abs_neg, abs_of_nonneg]
      exact div_nonneg (by linarith) (by positivity)
    have hs : α / ((m : ℝ) + n + 1) + (m + n + 1 - α) / (m + n + 1) = 1 := by
      have : ((m : ℝ) + n + 1) ≠ 0 := by positivity
      field_simp; ring
    have : |coef (α - 1) (m + n)| * (α / (m + n + 1)) + |coef (α - 1) (m + n)| * ((m + n + 1 - α) / (m + n + 1)) = |coef (α - 1) (m + n)| := by
      rw [← mul_add, hs, mul_one]
    linarith

lemma abs_coef_ceil {α : ℝ} {m : ℕ} (h0 : (m : ℝ) + 1 ≤ α) (h1 : α ≤ m + 2) :
    |coef (α - 1) (m + 2)| ≤ (α - (m + 1)) * (m + 2 - α) / (m + 2) := by
  rw [coef_succ, coef_succ]
  have hm : (0 : ℝ) ≤ m := Nat.cast_nonneg m
  have hc : coef (α - 1) m ≤ m + 1 := by
    have := coef_le_choose (α := α - 1) (m := m + 1) (i := m) (by push_cast; linarith) (by push_cast; linarith) (by omega)
    simpa using this
  have hc0 : 0 ≤ coef (α - 1) m := (coef_pos (by linarith)).le
  rw [abs_mul, abs_mul, abs_of_nonneg hc0]
  push_cast
  rw [show (α - 1 - ((m : ℝ) + 1)) / (m + 1 + 1) = -((m + 2 - α) / (m + 2)) by ring, abs_neg,
    abs_of_nonneg (div_nonneg (by linarith) (by linarith) : 0 ≤ ((m : ℝ) + 2 - α) / (m + 2)),
    abs_of_nonneg (div_nonneg (by linarith) (by linarith) : 0 ≤ (α - 1 - (m : ℝ)) / (m + 1)), mul_div_assoc (α - (m + 1))]
  refine mul_le_mul_of_nonneg_right ?_ (div_nonneg (by linarith) (by linarith))
  calc coef (α - 1) m * ((α - 1 - m) / (m + 1)) ≤ (m + 1) * ((α - 1 - m) / (m + 1)) :=
        mul_le_mul_of_nonneg_right hc (div_nonneg (by linarith) (by linarith))
    _ = α - (m + 1) := by field_simp; ring

/-- Partial sum of the binomial series. -/
noncomputable def poly (α : ℝ) (n : ℕ) (r : ℝ) : ℝ := ∑ i ∈ range n, coef α i * r ^ i

lemma poly_zero_right (α : ℝ) (n : ℕ) : poly α (n + 1) 0 = 1 := by
  unfold poly
  rw [sum_range_succ']
  simp [coef_zero]

lemma hasDerivAt_poly (α : ℝ) (n : ℕ) (r : ℝ) : HasDerivAt (poly α (n + 1)) (α * poly (α - 1) n r) r := by
  have h : poly α (n + 1) = fun r => ∑ i ∈ range n, coef α (i + 1) * r ^ (i + 1) + 1 := by
    ext r; unfold poly; rw [sum_range_succ']; simp [coef_zero]
  rw [h]
  have h2 : HasDerivAt (fun r => ∑ i ∈ range n, coef α (i + 1) * r ^ (i + 1)) (∑ i ∈ range n, coef α (i + 1) * (((i + 1 : ℕ) : ℝ) * r ^ i)) r := by
    have := HasDerivAt.fun_sum (u := range n) (A := fun i r => coef α (i + 1) * r ^ (i + 1)) (A' := fun i => coef α (i + 1) * (((i + 1 : ℕ) : ℝ) * r ^ i)) (x := r)
      fun i _ => (hasDerivAt_pow (i + 1) r).const_mul _
    exact this
  refine (h2.add_const 1).congr_deriv ?_
  unfold poly
  rw [mul_sum]
  refine sum_congr rfl fun i _ => ?_
  rw [← mul_assoc α, ← coef_shift]; push_cast; ring

lemma nonneg_of_deriv {f f' : ℝ → ℝ} (hd : ∀ r, 0 ≤ r → HasDerivAt f (f' r) r) (h0 : 0 ≤ f 0) (h : ∀ r, 0 ≤ r → 0 ≤ f' r)
    {r : ℝ} (hr : 0 ≤ r) : 0 ≤ f r := by
  have hm : MonotoneOn f (Set.Ici 0) := by
    refine monotoneOn_of_deriv_nonneg (convex_Ici 0) (fun x hx => (hd x hx).continuousAt.continuousWithinAt) (fun x hx => ?_) fun x hx => ?_
    · rw [interior_Ici] at hx
      exact (hd x (le_of_lt hx)).differentiableAt.differentiableWithinAt
    · rw [interior_Ici] at hx
      rw [(hd x (le_of_lt hx)).deriv]; exact h x (le_of_lt hx)
  exact h0.trans (hm Set.self_mem_Ici hr hr)

lemma hasDerivAt_one_add_rpow (α : ℝ) {r : ℝ} (hr : 0 ≤ r) : HasDerivAt (fun r : ℝ => (1 + r) ^ α) (α * (1 + r) ^ (α - 1)) r := by
  have := ((hasDerivAt_id r).const_add 1).rpow_const (p := α) (Or.inl (by simp; linarith))
  simpa using this

lemma one_add_rpow_le_one {α r : ℝ} (hα : α ≤ 0) (hr : 0 ≤ r) : (1 + r) ^ α ≤ 1 := Real.rpow_le_one_of_one_le_of_nonpos (by linarith) hα

/-- The partial sum up to the next integer is an upper bound. -/
lemma rpow_le_poly (m : ℕ) : ∀ {α : ℝ}, (m : ℝ) - 1 ≤ α → α ≤ m → ∀ {r : ℝ}, 0 ≤ r → (1 + r) ^ α ≤ poly α (m + 1) r := by
  induction m with
  | zero =>
    intro α _ h1 r hr
    have : poly α (0 + 1) r = 1 := by simp [poly, coef_zero]
    rw [this]; exact one_add_rpow_le_one (by simpa using h1) hr
  | succ m ih =>
    intro α h0 h1 r hr
    push_cast at h0 h1
    have hm : (0 : ℝ) ≤ m := Nat.cast_nonneg m
    have := nonneg_of_deriv (f := fun r => poly α (m + 1 + 1) r - (1 + r) ^ α) (f' := fun r => α * poly (α - 1) (m + 1) r - α * (1 + r) ^ (α - 1))
      (fun r hr => (hasDerivAt_poly α (m + 1) r).sub (hasDerivAt_one_add_rpow α hr)) (by rw [poly_zero_right]; simp)
      (fun r hr => by
        have := ih (α := α - 1) (by linarith) (by linarith) hr
        have := mul_le_mul_of_nonneg_left this (by linarith : 0 ≤ α)
        linarith) hr
    linarith

/-- One term more and the partial sum is a lower bound. -/
lemma poly_le_rpow (m : ℕ) : ∀ {α : ℝ}, (m : ℝ) - 1 ≤ α → α ≤ m → ∀ {r : ℝ}, 0 ≤ r → poly α (m + 2) r ≤ (1 + r) ^ α := by
  induction m with
  | zero =>
    intro α _ h1 r hr
    simp only [Nat.cast_zero] at h1
    have := nonneg_of_deriv (f := fun r => (1 + r) ^ α - poly α (1 + 1) r) (f' := fun r => α * (1 + r) ^ (α - 1) - α * poly (α - 1) 1 r)
      (fun r hr => (hasDerivAt_one_add_rpow α hr).sub (hasDerivAt_poly α 1 r)) (by rw [poly_zero_right]; simp)
      (fun r hr => by
        have h2 : poly (α - 1) 1 r = 1 := by simp [poly, coef_zero]
        have := mul_le_mul_of_nonpos_left (one_add_rpow_le_one (α := α - 1) (by linarith) hr) h1
        rw [h2]; linarith) hr
    have e : (0 : ℕ) + 2 = 1 + 1 := rfl
    rw [e]; linarith
  | succ m ih =>
    intro α h0 h1 r hr
    push_cast at h0 h1
    have hm : (0 : ℝ) ≤ m := Nat.cast_nonneg m
    have := nonneg_of_deriv (f := fun r => (1 + r) ^ α - poly α (m + 2 + 1) r) (f' := fun r => α * (1 + r) ^ (α - 1) - α * poly (α - 1) (m + 2) r)
      (fun r hr => (hasDerivAt_one_add_rpow α hr).sub (hasDerivAt_poly α (m + 2) r)) (by rw [poly_zero_right]; simp)
      (fun r hr => by
        have := ih (α := α - 1) (by linarith) (by linarith) hr
        have := mul_le_mul_of_nonneg_left this (by linarith : 0 ≤ α)
        linarith) hr
    have e : m + 1 + 2 = m + 2 + 1 := rfl
    rw [e]; linarith

/-- `_log_comb` of a fractional number is the logarithm of the absolute value of the coefficient. -/
lemma exp_logComb {α : ℝ} (hα : ¬ ∃ m : ℤ, α = m) (i : ℕ) : Real.exp (Rdp.logComb α i) = |coef α i| := by
  have hg : ∀ k : ℤ, Real.Gamma (α - k) ≠ 0 := fun k => Real.Gamma_ne_zero fun m hm => hα ⟨k - m, by push_cast; linarith⟩
  have hne : ∀ k : ℕ, α - k ≠ 0 := fun k hk => hα ⟨k, by push_cast; linarith⟩
  induction i with
  | zero =>
    have h1 : Real.Gamma (α + 1) ≠ 0 := by have := hg (-1); push_cast at this; simpa using this
    simp [Rdp.logComb, Rdp.gammaln, coef_zero]
  | succ i ih =>
    have e1 : Rdp.gammaln (((i + 1 : ℕ) : ℝ) + 1) = Real.log (i + 1) + Rdp.gammaln ((i : ℝ) + 1) := by
      have h := Real.Gamma_add_one (s := (i : ℝ) + 1) (by positivity)
      unfold Rdp.gammaln
      push_cast
      rw [h, Real.log_mul (by positivity) (Real.Gamma_pos_of_pos (by positivity)).ne']
    have e2 : Rdp.gammaln (α - i + 1) = Real.log (α - i) + Rdp.gammaln (α - ((i + 1 : ℕ) : ℝ) + 1) := by
      have h := Real.Gamma_add_one (hne i)
      unfold Rdp.gammaln
      have := hg i
      push_cast at this ⊢
      rw [h, Real.log_mul (hne i) this]
      ring_nf
    have e3 : Rdp.logComb α ((i + 1 : ℕ) : ℝ) = Rdp.logComb α i + Real.log (α - i) - Real.log (i + 1) := by
      unfold Rdp.logComb
      rw [e1, e2]; ring
    rw [e3, Real.exp_sub, Real.exp_add, ih, Real.exp_log_eq_abs (hne i), Real.exp_log (by positivity), coef_succ, abs_mul, abs_div,
      abs_of_pos (by positivity : (0 : ℝ) < i + 1)]
    ring

end Verif.Frac
