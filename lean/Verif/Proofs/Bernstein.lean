import Verif.Proofs.Mcdiarmid
import Mathlib.MeasureTheory.Integral.Pi

/-!
# Bernstein's inequality, and the same with the variance of the sample

For independent samples of a bounded function, the mean of the sample exceeds the expectation by more than
`√(2 V L / n) + 7 R L / (3 (n - 1))` with probability at most `2 exp (- κ L)`, where `V` is the (biased) variance of the sample and
`κ = 3 n / (3 n + 7 L)`.
-/

namespace Verif.Bernstein

open MeasureTheory Real

/-! ### Elementary inequalities -/

theorem k_mono : Monotone fun x : ℝ => 2 + x - (2 - x) * exp x := by
  refine monotone_of_deriv_nonneg (by fun_prop) fun x => ?_
  have h : HasDerivAt (fun x : ℝ => 2 + x - (2 - x) * exp x) (1 - ((-1) * exp x + (2 - x) * exp x)) x := by
    have h1 : HasDerivAt (fun x : ℝ => 2 + x) 1 x := (hasDerivAt_id x).const_add 2
    have h2 : HasDerivAt (fun x : ℝ => 2 - x) (-1) x := (hasDerivAt_id x).const_sub 2
    exact h1.sub (h2.mul (hasDerivAt_exp x))
  rw [h.deriv]
  have h3 : 1 - x ≤ exp (-x) := by have := add_one_le_exp (-x); linarith
  have h4 : (1 - x) * exp x ≤ 1 := by
    have := mul_le_mul_of_nonneg_right h3 (exp_pos x).le
    rwa [← exp_add, neg_add_cancel, exp_zero] at this
  linarith

theorem g_deriv (x : ℝ) : HasDerivAt (fun x : ℝ => 1 + 2 * x / 3 + x ^ 2 / 6 - (1 - x / 3) * exp x)
    ((2 + x - (2 - x) * exp x) / 3) x := by
  have h1 : HasDerivAt (fun x : ℝ => 1 + 2 * x / 3 + x ^ 2 / 6) (2 * 1 / 3 + 2 * x ^ 1 * 1 / 6) x := by
    exact ((((hasDerivAt_id x).const_mul 2).div_const 3).const_add 1).add (((hasDerivAt_id x).pow 2).div_const 6)
  have h2 : HasDerivAt (fun x : ℝ => 1 - x / 3) (-(1 / 3)) x := ((hasDerivAt_id x).div_const 3).const_sub 1
  exact (h1.sub (h2.mul (hasDerivAt_exp x))).congr_deriv (by ring)

theorem g_nonneg (x : ℝ) : 0 ≤ 1 + 2 * x / 3 + x ^ 2 / 6 - (1 - x / 3) * exp x := by
  have hk := k_mono
  have hk0 : (fun x : ℝ => 2 + x - (2 - x) * exp x) 0 = 0 := by norm_num
  have hcont : Continuous fun x : ℝ => 1 + 2 * x / 3 + x ^ 2 / 6 - (1 - x / 3) * exp x := by fun_prop
  have hg0 : (fun x : ℝ => 1 + 2 * x / 3 + x ^ 2 / 6 - (1 - x / 3) * exp x) 0 = 0 := by norm_num
  rcases le_total 0 x with hx | hx
  · have : MonotoneOn (fun x : ℝ => 1 + 2 * x / 3 + x ^ 2 / 6 - (1 - x / 3) * exp x) (Set.Ici 0) := by
      refine monotoneOn_of_deriv_nonneg (convex_Ici 0) hcont.continuousOn
        (fun y _ => (g_deriv y).differentiableAt.differentiableWithinAt) fun y hy => ?_
      rw [(g_deriv y).deriv]
      rw [interior_Ici] at hy
      have := hk (le_of_lt hy : (0 : ℝ) ≤ y)
      rw [hk0] at this
      exact div_nonneg this (by norm_num)
    have := this (Set.self_mem_Ici) hx hx
    rw [hg0] at this
    exact this
  · have : AntitoneOn (fun x : ℝ => 1 + 2 * x / 3 + x ^ 2 / 6 - (1 - x / 3) * exp x) (Set.Iic 0) := by
      refine antitoneOn_of_deriv_nonpos (convex_Iic 0) hcont.continuousOn
        (fun y _ => (g_deriv y).differentiableAt.differentiableWithinAt) fun y hy => ?_
      rw [(g_deriv y).deriv]
      rw [interior_Iic] at hy
      have := hk (le_of_lt hy : y ≤ (0 : ℝ))
      rw [hk0] at this
      exact div_nonpos_of_nonpos_of_nonneg this (by norm_num)
    have := this hx (Set.self_mem_Iic) hx
    rw [hg0] at this
    exact this

theorem exp_le_quad {x b : ℝ} (hx : x ≤ b) (hb : b < 3) : exp x ≤ 1 + x + x ^ 2 / (2 * (1 - b / 3)) := by
  have h0 : 0 < 1 - b / 3 := by linarith
  have h1 : 0 < 1 - x / 3 := by linarith
  have hg := g_nonneg x
  have h2 : exp x ≤ 1 + x + x ^ 2 / (2 * (1 - x / 3)) := by
    have h3 : 3 - x ≠ 0 := by linarith
    have e : 1 + x + x ^ 2 / (2 * (1 - x / 3)) = (1 + 2 * x / 3 + x ^ 2 / 6) / (1 - x / 3) := by
      field_simp
      ring
    rw [e, le_div_iff₀ h1]
    linarith
  have h3 : x ^ 2 / (2 * (1 - x / 3)) ≤ x ^ 2 / (2 * (1 - b / 3)) :=
    div_le_div_of_nonneg_left (sq_nonneg x) (by linarith) (by linarith)
  linarith

theorem exp_neg_le {x : ℝ} (hx : 0 ≤ x) : exp (-x) ≤ 1 - x + x ^ 2 / 2 := by
  have h1 := quadratic_le_exp_of_nonneg hx
  have h2 : 0 < 1 + x + x ^ 2 / 2 := by positivity
  rw [exp_neg, inv_le_comm₀ (exp_pos x)]
  · refine le_trans ?_ h1
    rw [inv_le_comm₀ _ h2]
    · rw [inv_le_iff_one_le_mul₀ h2]
      nlinarith [sq_nonneg (x ^ 2)]
    · nlinarith [sq_nonneg (x - 1)]
  · nlinarith [sq_nonneg (x - 1)]

/-! ### Chernoff's bound -/

variable {T : Type*} [MeasurableSpace T]

theorem chernoff (μ : Measure T) [IsProbabilityMeasure μ] {g : T → ℝ} (hg : Measurable g) {B : ℝ} (hB : ∀ x, |g x| ≤ B) (n : ℕ) {c t : ℝ}
    (hc : ∫ x, exp (g x) ∂μ ≤ exp c) :
    (Measure.pi fun _ : Fin n => μ).real {z | t ≤ ∑ i, g (z i)} ≤ exp (n * c - t) := by
  have hm : Measurable fun z : Fin n → T => exp (∑ i, g (z i)) := by fun_prop
  have hi : Integrable (fun z : Fin n → T => exp (∑ i, g (z i))) (Measure.pi fun _ : Fin n => μ) := by
    refine integrable_bdd (B := exp (n * B)) hm fun z => ?_
    rw [abs_of_pos (exp_pos _)]
    refine exp_le_exp.2 ?_
    calc ∑ i, g (z i) ≤ ∑ _i : Fin n, B := Finset.sum_le_sum fun i _ => (le_abs_self _).trans (hB _)
      _ = n * B := by simp
  have h1 := mul_meas_ge_le_integral_of_nonneg (Filter.Eventually.of_forall fun z => (exp_pos _).le) hi (exp t)
  have h2 : ∫ z, exp (∑ i, g (z i)) ∂(Measure.pi fun _ : Fin n => μ) = (∫ x, exp (g x) ∂μ) ^ n := by
    simp_rw [exp_sum]
    rw [integral_fintype_prod_eq_pow (fun x => exp (g x))]
    simp
  have h3 : (∫ x, exp (g x) ∂μ) ^ n ≤ exp (n * c) := by
    rw [exp_nat_mul]
    exact pow_le_pow_left₀ (integral_nonneg fun x => (exp_pos _).le) hc n
  have h4 : {z : Fin n → T | t ≤ ∑ i, g (z i)} = {z | exp t ≤ exp (∑ i, g (z i))} := by
    ext z; simp
  rw [h4, exp_sub, le_div_iff₀ (exp_pos t)]
  rw [h2] at h1
  linarith

/-! ### Bernstein's inequality -/

section

variable (μ : Measure T) [IsProbabilityMeasure μ] {f : T → ℝ} (hf : Measurable f) {m R s : ℝ} (hm : ∫ x, f x ∂μ = m)
  (hR : ∀ x, |f x - m| ≤ R) (hs0 : 0 < s)

include hf hR hs0

include hm in
theorem upper (hs : ∫ x, (f x - m) ^ 2 ∂μ ≤ s ^ 2) (hRpos : 0 < R) (n : ℕ) {w : ℝ} (hw : 0 ≤ w) :
    (Measure.pi fun _ : Fin n => μ).real {z | n * (s * w + R * w ^ 2 / 6) ≤ ∑ i, (f (z i) - m)} ≤ exp (-(n * (w ^ 2 / 2))) := by
  have hden : 0 < s + R / 3 * w := by positivity
  set lam := w / (s + R / 3 * w) with hlam
  have hlam0 : 0 ≤ lam := by positivity
  have hb : lam * R < 3 := by
    rw [hlam, div_mul_eq_mul_div, div_lt_iff₀ hden]
    nlinarith
  have hI1 : Integrable (fun x => f x - m) μ := integrable_bdd (hf.sub_const m) hR
  have hI2 : Integrable (fun x => (f x - m) ^ 2) μ := integrable_bdd (B := R ^ 2) ((hf.sub_const m).pow_const 2) fun x => by
    rw [abs_pow]
    exact pow_le_pow_left₀ (abs_nonneg _) (hR x) 2
  have hmean : ∫ x, (f x - m) ∂μ = 0 := by
    have hfI : Integrable f μ := integrable_bdd (B := R + |m|) hf fun x => by
      have := abs_add_le (f x - m) m
      rw [sub_add_cancel] at this
      linarith [hR x]
    rw [integral_sub hfI (integrable_const m), hm]
    simp
  set K := lam ^ 2 / (2 * (1 - lam * R / 3)) with hK
  have hK0 : 0 ≤ K := by
    have : 0 < 1 - lam * R / 3 := by linarith
    positivity
  have hc : ∫ x, exp (lam * (f x - m)) ∂μ ≤ exp (K * s ^ 2) := by
    have hle : ∀ x, exp (lam * (f x - m)) ≤ 1 + lam * (f x - m) + K * (f x - m) ^ 2 := by
      intro x
      have h1 : lam * (f x - m) ≤ lam * R := mul_le_mul_of_nonneg_left ((le_abs_self _).trans (hR x)) hlam0
      refine (exp_le_quad h1 hb).trans (le_of_eq ?_)
      rw [hK]
      ring
    have hint : Integrable (fun x => 1 + lam * (f x - m) + K * (f x - m) ^ 2) μ :=
      ((integrable_const 1).add (hI1.const_mul lam)).add (hI2.const_mul K)
    calc ∫ x, exp (lam * (f x - m)) ∂μ ≤ ∫ x, (1 + lam * (f x - m) + K * (f x - m) ^ 2) ∂μ := by
          refine integral_mono ?_ hint hle
          refine integrable_bdd (B := exp (lam * R)) (by fun_prop) fun x => ?_
          rw [abs_of_pos (exp_pos _)]
          exact exp_le_exp.2 (mul_le_mul_of_nonneg_left ((le_abs_self _).trans (hR x)) hlam0)
      _ ≤ 1 + K * s ^ 2 := by
          have e1 : ∫ x, (1 + lam * (f x - m) + K * (f x - m) ^ 2) ∂μ =
              ∫ x, (1 + lam * (f x - m)) ∂μ + ∫ x, K * (f x - m) ^ 2 ∂μ :=
            integral_add ((integrable_const 1).add (hI1.const_mul lam)) (hI2.const_mul K)
          have e2 : ∫ x, (1 + lam * (f x - m)) ∂μ = ∫ _, (1 : ℝ) ∂μ + ∫ x, lam * (f x - m) ∂μ :=
            integral_add (integrable_const 1) (hI1.const_mul lam)
          rw [e1, e2, integral_const_mul, integral_const_mul, hmean]
          have := mul_le_mul_of_nonneg_left hs hK0
          simp only [integral_const, probReal_univ, smul_eq_mul, mul_one, mul_zero, add_zero]
          linarith
      _ ≤ exp (K * s ^ 2) := by linarith [add_one_le_exp (K * s ^ 2)]
  have hch := chernoff μ (g := fun x => lam * (f x - m)) (by fun_prop) (B := lam * R) (fun x => by
    rw [abs_mul, abs_of_nonneg hlam0]
    exact mul_le_mul_of_nonneg_left (hR x) hlam0) n (t := lam * (n * (s * w + R * w ^ 2 / 6))) hc
  have hval : K * s ^ 2 - lam * (s * w + R * w ^ 2 / 6) = -(w ^ 2 / 2) := by
    have h1 : 1 - lam * R / 3 = s / (s + R / 3 * w) := by
      rw [hlam]
      field_simp
      ring
    have h2 : K * s ^ 2 = s * w ^ 2 / (2 * (s + R / 3 * w)) := by
      rw [hK, h1, hlam]
      field_simp
    rw [h2, hlam]
    field_simp
    ring
  refine le_trans (measureReal_mono fun z hz => ?_) (hch.trans (le_of_eq ?_))
  · simp only [Set.mem_ofPred_eq] at hz ⊢
    rw [← Finset.mul_sum]
    exact mul_le_mul_of_nonneg_left hz hlam0
  · congr 1
    linear_combination (n : ℝ) * hval

theorem lower (hs : ∫ x, (f x - m) ^ 2 ∂μ = s ^ 2) (hRpos : 0 < R) (n : ℕ) {w : ℝ} (hw : 0 ≤ w) :
    (Measure.pi fun _ : Fin n => μ).real {z | ∑ i, (f (z i) - m) ^ 2 ≤ n * (s ^ 2 - R * s * w)} ≤ exp (-(n * (w ^ 2 / 2))) := by
  set lam := w / (R * s) with hlam
  have hlam0 : 0 ≤ lam := by positivity
  have hsq : ∀ x, (f x - m) ^ 2 ≤ R ^ 2 := fun x => by
    rw [← sq_abs]
    exact pow_le_pow_left₀ (abs_nonneg _) (hR x) 2
  have hI2 : Integrable (fun x => (f x - m) ^ 2) μ := integrable_bdd (B := R ^ 2) ((hf.sub_const m).pow_const 2) fun x => by
    rw [abs_of_nonneg (sq_nonneg _)]
    exact hsq x
  set K := -lam + lam ^ 2 * R ^ 2 / 2 with hK
  have hc : ∫ x, exp (-(lam * (f x - m) ^ 2)) ∂μ ≤ exp (K * s ^ 2) := by
    have hle : ∀ x, exp (-(lam * (f x - m) ^ 2)) ≤ 1 + K * (f x - m) ^ 2 := by
      intro x
      have h1 := exp_neg_le (x := lam * (f x - m) ^ 2) (by positivity)
      have h2 : (lam * (f x - m) ^ 2) ^ 2 ≤ lam ^ 2 * R ^ 2 * (f x - m) ^ 2 := by
        have := mul_le_mul_of_nonneg_left (hsq x) (by positivity : 0 ≤ lam ^ 2 * (f x - m) ^ 2)
        nlinarith
      rw [hK]
      linarith
    calc ∫ x, exp (-(lam * (f x - m) ^ 2)) ∂μ ≤ ∫ x, (1 + K * (f x - m) ^ 2) ∂μ := by
          refine integral_mono ?_ ((integrable_const 1).add (hI2.const_mul K)) hle
          refine integrable_bdd (B := 1) (by fun_prop) fun x => ?_
          rw [abs_of_pos (exp_pos _)]
          exact exp_le_one_iff.2 (neg_nonpos.2 (by positivity))
      _ = 1 + K * s ^ 2 := by
          rw [integral_add (integrable_const 1) (hI2.const_mul K), integral_const_mul, hs]
          simp
      _ ≤ exp (K * s ^ 2) := by linarith [add_one_le_exp (K * s ^ 2)]
  have hch := chernoff μ (g := fun x => -(lam * (f x - m) ^ 2)) (by fun_prop) (B := lam * R ^ 2) (fun x => by
    rw [abs_neg, abs_of_nonneg (by positivity)]
    exact mul_le_mul_of_nonneg_left (hsq x) hlam0) n (t := -(lam * (n * (s ^ 2 - R * s * w)))) hc
  have hval : K * s ^ 2 + lam * (s ^ 2 - R * s * w) = -(w ^ 2 / 2) := by
    rw [hK, hlam]
    field_simp
    ring
  refine le_trans (measureReal_mono fun z hz => ?_) (hch.trans (le_of_eq ?_))
  · simp only [Set.mem_ofPred_eq] at hz ⊢
    rw [Finset.sum_neg_distrib, ← Finset.mul_sum]
    exact neg_le_neg (mul_le_mul_of_nonneg_left hz hlam0)
  · congr 1
    linear_combination (n : ℝ) * hval

end

/-! ### With the variance of the sample -/

/-- The two good events give the bound: `y` is `L / n` and `k` is `1 / (1 + 7 y / 3)`. -/
theorem combine {R s w y k D V : ℝ} (hR : 0 < R) (hy : 0 < y) (hk : k * (1 + 7 * y / 3) = 1) (hwk : w ^ 2 = 2 * (k * y)) (hD0 : 0 ≤ D) (hD : D < s * w + R * w ^ 2 / 6) (hs2 : s ^ 2 - R * s * w < V + D ^ 2) :
    D < √(2 * y * V) + 7 * R * y / 3 := by
  have hk0 : 0 < k := by
    by_contra h
    rw [not_lt] at h
    nlinarith [mul_nonneg (neg_nonneg.2 h) (by positivity : 0 ≤ 1 + 7 * y / 3)]
  have hk1 : k ≤ 1 := by nlinarith
  set E := s * w + R * w ^ 2 / 6 with hE
  refine hD.trans_le ?_
  by_cases hcase : E ≤ 7 * R * y / 3
  · linarith [Real.sqrt_nonneg (2 * y * V)]
  rw [not_le] at hcase
  suffices h : (E - 7 * R * y / 3) ^ 2 ≤ 2 * y * V by
    have := Real.abs_le_sqrt h
    rw [abs_of_pos (by linarith)] at this
    linarith
  have hD2 : D ^ 2 ≤ E ^ 2 := pow_le_pow_left₀ hD0 hD.le 2
  have hVl : s ^ 2 - R * s * w - E ^ 2 ≤ V := by linarith
  refine le_trans ?_ (mul_le_mul_of_nonneg_left hVl (by positivity : 0 ≤ 2 * y))
  -- multiply by `k`
  have hsw : s * w = E - R * (k * y) / 3 := by rw [hE, hwk]; ring
  have h1 : k * (2 * y * (s ^ 2 - R * s * w - E ^ 2)) = (s * w) ^ 2 - 2 * (k * y) * R * (s * w) - 2 * (k * y) * E ^ 2 := by
    have : (s * w) ^ 2 = s ^ 2 * (2 * (k * y)) := by rw [mul_pow, hwk]
    rw [this]
    ring
  refine le_of_mul_le_mul_left ?_ hk0
  rw [h1, hsw]
  have h2 : k * (7 * y / 3) = 1 - k := by linarith
  have h3 : k * y = 3 * (1 - k) / 7 := by linarith
  set x := E / R with hx
  have hEx : E = R * x := by rw [hx]; field_simp
  have hxy : 7 * y / 3 < x := by
    rw [hx, lt_div_iff₀ hR]
    linarith
  rw [hEx]
  suffices h : 0 ≤ (x - k * y / 3) ^ 2 - 2 * (k * y) * (x - k * y / 3) - 2 * (k * y) * x ^ 2 - k * (x - 7 * y / 3) ^ 2 by
    have := mul_nonneg (sq_nonneg R) h
    nlinarith
  have h4 : (x - k * y / 3) ^ 2 - 2 * (k * y) * (x - k * y / 3) - 2 * (k * y) * x ^ 2 - k * (x - 7 * y / 3) ^ 2 =
      k * y / 3 * x ^ 2 + 2 * (k * y) * x + 7 * (k * y) ^ 2 / 9 - 49 * k * y ^ 2 / 9 := by
    linear_combination (-(x ^ 2)) * hk
  rw [h4]
  have h5 : (7 * y / 3) ^ 2 ≤ x ^ 2 := pow_le_pow_left₀ (by positivity) hxy.le 2
  have h6 : k * y / 3 * (7 * y / 3) ^ 2 ≤ k * y / 3 * x ^ 2 := mul_le_mul_of_nonneg_left h5 (by positivity)
  have h7 : 2 * (k * y) * (7 * y / 3) ≤ 2 * (k * y) * x := mul_le_mul_of_nonneg_left hxy.le (by positivity)
  have h8 : 0 ≤ k * y / 3 * (7 * y / 3) ^ 2 + 2 * (k * y) * (7 * y / 3) + 7 * (k * y) ^ 2 / 9 - 49 * k * y ^ 2 / 9 := by
    have e : k * y / 3 * (7 * y / 3) ^ 2 + 2 * (k * y) * (7 * y / 3) + 7 * (k * y) ^ 2 / 9 - 49 * k * y ^ 2 / 9 =
        k * y ^ 2 * (49 * y / 27 - 7 / 9 + 7 * k / 9) := by ring
    rw [e]
    refine mul_nonneg (by positivity) ?_
    nlinarith
  linarith

/-- The biased variance of a sample, truncated at zero. -/
noncomputable def sampleVariance {n : ℕ} (v : Fin n → ℝ) : ℝ := max 0 ((∑ i, v i ^ 2) / n - ((∑ i, v i) / n) ^ 2)

theorem empirical (μ : Measure T) [IsProbabilityMeasure μ] {f : T → ℝ} (hf : Measurable f) {m R : ℝ} (hm : ∫ x, f x ∂μ = m)
    (hR : ∀ x, |f x - m| ≤ R) (hRpos : 0 < R) {n : ℕ} (hn : 2 ≤ n) {L : ℝ} (hL : 0 < L) :
    (Measure.pi fun _ : Fin n => μ).real {z | √(2 * sampleVariance (fun i => f (z i)) * L / n) + 7 * R * L / (3 * (n - 1)) ≤
      (∑ i, f (z i)) / n - m} ≤ 2 * exp (-(3 * n / (3 * n + 7 * L) * L)) := by
  have hn2 : (2 : ℝ) ≤ n := by exact_mod_cast hn
  have hn0 : (0 : ℝ) < n := by linarith
  set y := L / n with hy
  have hy0 : 0 < y := by positivity
  set k := 1 / (1 + 7 * y / 3) with hk
  have hk1 : k * (1 + 7 * y / 3) = 1 := by rw [hk]; field_simp
  have hk0 : 0 < k := by positivity
  have hkle : k ≤ 1 := by nlinarith
  have hkn : 3 * n / (3 * n + 7 * L) = k := by rw [hk, hy]; field_simp
  set w := √(2 * (k * y)) with hw
  have hw0 : 0 < w := Real.sqrt_pos.2 (by positivity)
  have hw2 : w ^ 2 = 2 * (k * y) := Real.sq_sqrt (by positivity)
  have hexp : exp (-(n * (w ^ 2 / 2))) = exp (-(3 * n / (3 * n + 7 * L) * L)) := by
    rw [hkn, hw2, hy]
    congr 1
    field_simp
  have hsum : ∀ z : Fin n → T, ∑ i, (f (z i) - m) = n * ((∑ i, f (z i)) / n - m) := fun z => by
    rw [Finset.sum_sub_distrib]
    simp only [Finset.sum_const, Finset.card_univ, Fintype.card_fin, nsmul_eq_mul]
    field_simp
  have htol : 7 * R * y / 3 ≤ 7 * R * L / (3 * (n - 1)) := by
    rw [hy, show 7 * R * (L / n) / 3 = 7 * R * L / (3 * n) by field_simp]
    exact div_le_div_of_nonneg_left (by positivity) (by linarith) (by linarith)
  have hv0 : 0 ≤ ∫ x, (f x - m) ^ 2 ∂μ := integral_nonneg fun x => sq_nonneg _
  rcases hv0.eq_or_lt with hv | hv
  · -- no variance
    have hs0 : 0 < 2 * R * y / w := by positivity
    have h1 := upper μ hf hm hR hs0 (by rw [← hv]; positivity) hRpos n hw0.le
    rw [hexp] at h1
    refine le_trans (measureReal_mono fun z hz => ?_) (h1.trans (by linarith [exp_pos (-(3 * n / (3 * n + 7 * L) * L))]))
    simp only [Set.mem_ofPred_eq] at hz ⊢
    rw [hsum]
    refine mul_le_mul_of_nonneg_left ?_ hn0.le
    have e : 2 * R * y / w * w + R * w ^ 2 / 6 = 2 * R * y + R * (k * y) / 3 := by
      rw [hw2]; field_simp; ring
    rw [e]
    have : R * (k * y) ≤ R * y := by
      have := mul_le_mul_of_nonneg_right hkle (by positivity : 0 ≤ R * y)
      linarith
    linarith [Real.sqrt_nonneg (2 * sampleVariance (fun i => f (z i)) * L / n)]
  · set s := √(∫ x, (f x - m) ^ 2 ∂μ) with hs
    have hs0 : 0 < s := Real.sqrt_pos.2 hv
    have hs2 : ∫ x, (f x - m) ^ 2 ∂μ = s ^ 2 := (Real.sq_sqrt hv.le).symm
    have h1 := upper μ hf hm hR hs0 hs2.le hRpos n hw0.le
    have h2 := lower μ hf hR hs0 hs2 hRpos n hw0.le
    rw [hexp] at h1 h2
    have h12 := (measureReal_union_le _ _).trans (add_le_add h1 h2)
    rw [← two_mul] at h12
    refine le_trans (measureReal_mono fun z hz => ?_) h12
    by_contra hcon
    rw [Set.mem_union, not_or] at hcon
    obtain ⟨hc1, hc2⟩ := hcon
    simp only [Set.mem_ofPred_eq, not_le] at hz hc1 hc2
    rw [hsum] at hc1
    have hc1 := lt_of_mul_lt_mul_left hc1 hn0.le
    set D := (∑ i, f (z i)) / n - m with hD
    set V := sampleVariance (fun i => f (z i)) with hV
    have hVge : (∑ i, f (z i) ^ 2) / n - ((∑ i, f (z i)) / n) ^ 2 ≤ V := le_max_right _ _
    have hV0 : 0 ≤ V := le_max_left _ _
    have hD0 : 0 ≤ D := le_trans (by positivity) ((by linarith [Real.sqrt_nonneg (2 * V * L / n)] : 7 * R * y / 3 ≤ D))
    have hsq : ∑ i, (f (z i) - m) ^ 2 = n * ((∑ i, f (z i) ^ 2) / n - ((∑ i, f (z i)) / n) ^ 2 + D ^ 2) := by
      have e : ∀ i, (f (z i) - m) ^ 2 = f (z i) ^ 2 - 2 * m * f (z i) + m ^ 2 := fun i => by ring
      simp_rw [e]
      rw [Finset.sum_add_distrib, Finset.sum_sub_distrib, ← Finset.mul_sum]
      simp only [Finset.sum_const, Finset.card_univ, Fintype.card_fin, nsmul_eq_mul]
      rw [hD]
      field_simp
      ring
    rw [hsq] at hc2
    have hc2 := lt_of_mul_lt_mul_left hc2 hn0.le
    have := combine hRpos hy0 hk1 hw2 hD0 hc1 (V := V) (by linarith)
    rw [show 2 * y * V = 2 * V * L / n by rw [hy]; ring] at this
    linarith

end Verif.Bernstein
