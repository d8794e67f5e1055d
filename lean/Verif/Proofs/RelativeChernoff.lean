import Verif.Proofs.Bernstein
import Mathlib.Analysis.SpecialFunctions.Trigonometric.DerivHyp
import Mathlib.Analysis.Convex.SpecificFunctions.Pow
import Mathlib.Analysis.Complex.ExponentialBounds

/-!
# Relative deviations of the mean of `exp g` for a bounded `g`
-/

namespace Verif.RelativeChernoff

open MeasureTheory Real

variable {T : Type*} [MeasurableSpace T]

section

variable (μ : Measure T) [IsProbabilityMeasure μ] {h : T → ℝ} (hh : Measurable h) {a : ℝ} (ha : 0 < a) (hb : ∀ x, |h x| ≤ a)

include hh ha hb

theorem integrable_exp : Integrable (fun x => exp (h x)) μ :=
  integrable_bdd (B := exp a) (by fun_prop) fun x => by
    rw [abs_of_pos (exp_pos _)]
    exact exp_le_exp.2 ((le_abs_self _).trans (hb x))

omit ha in
theorem exp_bounds (x : T) : exp (-a) ≤ exp (h x) ∧ exp (h x) ≤ exp a :=
  ⟨exp_le_exp.2 (abs_le.1 (hb x)).1, exp_le_exp.2 (abs_le.1 (hb x)).2⟩

theorem mean_bounds : exp (-a) ≤ ∫ x, exp (h x) ∂μ ∧ ∫ x, exp (h x) ∂μ ≤ exp a := by
  have hi := integrable_exp μ hh ha hb
  have h1 := integral_mono (integrable_const (exp (-a))) hi fun x => (exp_bounds hh hb x).1
  have h2 := integral_mono hi (integrable_const (exp a)) fun x => (exp_bounds hh hb x).2
  simp only [integral_const, probReal_univ, smul_eq_mul, one_mul] at h1 h2
  exact ⟨h1, h2⟩

theorem upper (n : ℕ) {w : ℝ} (hw : 0 ≤ w) :
    (Measure.pi fun _ : Fin n => μ).real
      {z | n * ((∫ x, exp (h x) ∂μ) * (1 + (sinh a * w + (exp (2 * a) - 1) * w ^ 2 / 6))) ≤ ∑ i, exp (h (z i))} ≤ exp (-(n * (w ^ 2 / 2))) := by
  obtain ⟨h1, h2⟩ := mean_bounds μ hh ha hb
  have hi := integrable_exp μ hh ha hb
  set E := ∫ x, exp (h x) ∂μ with hE
  have hE0 : 0 < E := (exp_pos _).trans_le h1
  have hy : exp a * exp (-a) = 1 := by rw [← exp_add, add_neg_cancel, exp_zero]
  have hy2 : exp (2 * a) = exp a ^ 2 := by rw [← exp_nat_mul]; norm_num
  have hy1 : 1 < exp a := one_lt_exp_iff.2 ha
  have hs : 0 < sinh a := sinh_pos_iff.2 ha
  have hv : ∫ x, (exp (h x) - E) ^ 2 ∂μ ≤ (sinh a * E) ^ 2 := by
    have hle : ∀ x, (exp (h x) - E) ^ 2 ≤ (2 * cosh a - 2 * E) * exp (h x) + (E ^ 2 - 1) := by
      intro x
      obtain ⟨b1, b2⟩ := exp_bounds hh hb x
      have hc : 2 * cosh a = exp a + exp (-a) := by rw [cosh_eq]; ring
      nlinarith [mul_nonneg (sub_nonneg.2 b1) (sub_nonneg.2 b2)]
    have h3 := integral_mono (μ := μ) (integrable_bdd (B := (exp a) ^ 2) (by fun_prop) fun x => ?_)
      ((hi.const_mul (2 * cosh a - 2 * E)).add (integrable_const (E ^ 2 - 1))) hle
    · refine h3.trans ?_
      have e : ∫ x, ((2 * cosh a - 2 * E) * exp (h x) + (E ^ 2 - 1)) ∂μ = (2 * cosh a - 2 * E) * E + (E ^ 2 - 1) := by
        rw [integral_add (hi.const_mul _) (integrable_const _), integral_const_mul]
        simp [hE]
      refine (le_of_eq e).trans ?_
      have := cosh_sq a
      nlinarith [sq_nonneg (cosh a * E - 1)]
    · rw [abs_of_nonneg (sq_nonneg _)]
      obtain ⟨b1, b2⟩ := exp_bounds hh hb x
      have := exp_pos (-a)
      refine sq_le_sq' ?_ ?_ <;> linarith
  have hR : ∀ x, |exp (h x) - E| ≤ (exp (2 * a) - 1) * E := by
    intro x
    obtain ⟨b1, b2⟩ := exp_bounds hh hb x
    rw [abs_le, hy2]
    set y := exp a
    set y' := exp (-a)
    have hy'0 : 0 < y' := exp_pos _
    constructor
    · rcases le_total 2 (y ^ 2) with h | h
      · nlinarith
      · have e1 : (2 - y ^ 2) * E ≤ (2 - y ^ 2) * y := mul_le_mul_of_nonneg_left h2 (by linarith)
        have e2 : (2 - y ^ 2) * y ≤ y' := by
          have : (2 - y ^ 2) * y * (y * y') ≤ 1 * y' := by
            nlinarith [mul_nonneg (sq_nonneg (y ^ 2 - 1)) hy'0.le]
          rw [hy] at this
          linarith
        nlinarith
    · have : y ≤ y ^ 2 * E := by
        have := mul_le_mul_of_nonneg_left h1 (sq_nonneg y)
        calc y = y * (y * y') := by rw [hy, mul_one]
          _ = y ^ 2 * y' := by ring
          _ ≤ _ := this
      linarith
  have hRpos : 0 < (exp (2 * a) - 1) * E := mul_pos (by rw [hy2]; nlinarith) hE0
  have := Bernstein.upper μ (f := fun x => exp (h x)) (by fun_prop) hE.symm hR (mul_pos hs hE0) hv hRpos n hw
  refine le_trans (measureReal_mono fun z hz => ?_) this
  simp only [Set.mem_ofPred_eq] at hz ⊢
  rw [Finset.sum_sub_distrib]
  simp only [Finset.sum_const, Finset.card_univ, Fintype.card_fin, nsmul_eq_mul]
  linarith

theorem lower (n : ℕ) {γ : ℝ} (hγ : 0 ≤ γ) :
    (Measure.pi fun _ : Fin n => μ).real {z | ∑ i, exp (h (z i)) ≤ n * ((∫ x, exp (h x) ∂μ) * (1 - γ))} ≤
      exp (-(n * (γ ^ 2 * exp (-(2 * a)) / 2))) := by
  obtain ⟨h1, h2⟩ := mean_bounds μ hh ha hb
  have hi := integrable_exp μ hh ha hb
  set E := ∫ x, exp (h x) ∂μ with hE
  have hy : exp a * exp (-a) = 1 := by rw [← exp_add, add_neg_cancel, exp_zero]
  have hy2 : exp (-(2 * a)) = exp (-a) ^ 2 := by rw [← exp_nat_mul]; congr 1; push_cast; ring
  set y := exp a
  set y' := exp (-a)
  have hy'0 : 0 < y' := exp_pos _
  set lam := γ * y' with hlam
  have hlam0 : 0 ≤ lam := by positivity
  set K := -lam + lam ^ 2 * y / 2 with hK
  have hc : ∫ x, exp (-(lam * exp (h x))) ∂μ ≤ exp (K * E) := by
    have hle : ∀ x, exp (-(lam * exp (h x))) ≤ 1 + K * exp (h x) := by
      intro x
      obtain ⟨b1, b2⟩ := exp_bounds hh hb x
      have h1 := Bernstein.exp_neg_le (x := lam * exp (h x)) (by positivity)
      have h2 : (lam * exp (h x)) ^ 2 ≤ lam ^ 2 * y * exp (h x) := by
        have := mul_le_mul_of_nonneg_left b2 (by positivity : 0 ≤ lam ^ 2 * exp (h x))
        nlinarith
      rw [hK]
      linarith
    calc ∫ x, exp (-(lam * exp (h x))) ∂μ ≤ ∫ x, (1 + K * exp (h x)) ∂μ := by
          refine integral_mono ?_ ((integrable_const 1).add (hi.const_mul K)) hle
          refine integrable_bdd (B := 1) (by fun_prop) fun x => ?_
          rw [abs_of_pos (exp_pos _)]
          exact exp_le_one_iff.2 (neg_nonpos.2 (by positivity))
      _ = 1 + K * E := by
          rw [integral_add (integrable_const 1) (hi.const_mul K), integral_const_mul]
          simp [hE]
      _ ≤ exp (K * E) := by linarith [add_one_le_exp (K * E)]
  have hch := Bernstein.chernoff μ (g := fun x => -(lam * exp (h x))) (by fun_prop) (B := lam * y) (fun x => by
    rw [abs_neg, abs_of_nonneg (by positivity)]
    exact mul_le_mul_of_nonneg_left (exp_bounds hh hb x).2 hlam0) n (t := -(lam * (n * (E * (1 - γ))))) hc
  refine le_trans (measureReal_mono fun z hz => ?_) (hch.trans (exp_le_exp.2 ?_))
  · simp only [Set.mem_ofPred_eq] at hz ⊢
    rw [Finset.sum_neg_distrib, ← Finset.mul_sum]
    exact neg_le_neg (mul_le_mul_of_nonneg_left hz hlam0)
  · have e : n * (K * E) - -(lam * (n * (E * (1 - γ)))) = -(n * (γ ^ 2 * y' / 2 * E)) := by
      rw [hK, hlam]
      linear_combination (n * (γ ^ 2 * y' / 2 * E)) * hy
    rw [e, hy2]
    refine neg_le_neg (mul_le_mul_of_nonneg_left ?_ (Nat.cast_nonneg n))
    have := mul_le_mul_of_nonneg_left h1 (by positivity : 0 ≤ γ ^ 2 * y' / 2)
    nlinarith

end

/-! ### The exponents of the code -/

theorem sinh_mul_le {θ c : ℝ} (hθ0 : 0 ≤ θ) (hθ1 : θ ≤ 1) (hc : 0 ≤ c) : sinh (θ * c) ≤ θ * sinh c := by
  have hmono : MonotoneOn (fun x : ℝ => θ * sinh x - sinh (θ * x)) (Set.Ici 0) := by
    have hd : ∀ x : ℝ, HasDerivAt (fun x : ℝ => θ * sinh x - sinh (θ * x)) (θ * cosh x - cosh (θ * x) * θ) x := fun x => by
      have h2 : HasDerivAt (fun x : ℝ => θ * x) θ x := by simpa using (hasDerivAt_id x).const_mul θ
      exact ((hasDerivAt_sinh x).const_mul θ).sub ((hasDerivAt_sinh (θ * x)).comp x h2)
    refine monotoneOn_of_deriv_nonneg (convex_Ici 0) (by fun_prop) (fun x _ => (hd x).differentiableAt.differentiableWithinAt) fun x hx => ?_
    rw [interior_Ici] at hx
    have hx0 : 0 < x := hx
    rw [(hd x).deriv]
    have : cosh (θ * x) ≤ cosh x := by
      rw [cosh_le_cosh, abs_of_nonneg (by positivity), abs_of_pos hx0]
      exact mul_le_of_le_one_left hx0.le hθ1
    nlinarith
  have := hmono Set.self_mem_Ici hc hc
  simp at this
  linarith

theorem exp_mul_sub_le {θ c : ℝ} (hθ0 : 0 ≤ θ) (hθ1 : θ ≤ 1) : exp (θ * c) - 1 ≤ θ * (exp c - 1) := by
  have := convexOn_exp.2 (Set.mem_univ c) (Set.mem_univ 0) hθ0 (by linarith : 0 ≤ 1 - θ) (by ring)
  simp only [smul_eq_mul, mul_zero, add_zero, exp_zero, mul_one] at this
  linarith

theorem one_add_rpow_ge {θ γ : ℝ} (hθ0 : 0 ≤ θ) (hθ1 : θ ≤ 1) (hγ0 : 0 ≤ γ) (hγ1 : γ ≤ 1) : 1 + 2 / 3 * (θ * γ) ≤ (1 + γ) ^ θ := by
  have h1 := (concaveOn_rpow hθ0 hθ1).2 (show (2 : ℝ) ∈ Set.Ici 0 by norm_num) (show (1 : ℝ) ∈ Set.Ici 0 by norm_num) hγ0
    (by linarith : 0 ≤ 1 - γ) (by ring)
  simp only [smul_eq_mul, one_rpow, mul_one] at h1
  have h2 : θ * (2 / 3) ≤ (2 : ℝ) ^ θ - 1 := by
    rw [rpow_def_of_pos (by norm_num)]
    have := add_one_le_exp (log 2 * θ)
    have := log_two_gt_d9
    nlinarith
  have e : γ * 2 + (1 - γ) = 1 + γ := by ring
  rw [e] at h1
  nlinarith [mul_le_mul_of_nonneg_left h2 hγ0]

/-- The relative deviation that the code allows for, `(1 + γ) ^ θ`, is more than what Bernstein's inequality asks for. -/
theorem deviation_le {θ c w γ : ℝ} (hθ0 : 0 ≤ θ) (hθ1 : θ ≤ 1) (hc : 0 ≤ c) (hw : 0 ≤ w) (hγ : exp c * w ≤ γ) (hγ1 : γ ≤ 1) :
    1 + (sinh (θ * c) * w + (exp (2 * (θ * c)) - 1) * w ^ 2 / 6) ≤ (1 + γ) ^ θ := by
  have hu := exp_pos c
  have h0 : 0 ≤ exp c * w := by positivity
  have hγ0 : 0 ≤ γ := h0.trans hγ
  refine le_trans ?_ (one_add_rpow_ge hθ0 hθ1 hγ0 hγ1)
  have h1 : sinh (θ * c) * w ≤ θ * (γ / 2) := by
    refine (mul_le_mul_of_nonneg_right (sinh_mul_le hθ0 hθ1 hc) hw).trans ?_
    rw [mul_assoc]
    refine mul_le_mul_of_nonneg_left ?_ hθ0
    rw [sinh_eq]
    have := mul_nonneg (exp_pos (-c)).le hw
    nlinarith
  have h2 : (exp (2 * (θ * c)) - 1) * w ^ 2 / 6 ≤ θ * (γ / 6) := by
    have e : 2 * (θ * c) = θ * (2 * c) := by ring
    have e2 : exp (2 * c) = exp c ^ 2 := by rw [← exp_nat_mul]; norm_num
    have h3 := mul_le_mul_of_nonneg_right (exp_mul_sub_le (c := 2 * c) hθ0 hθ1) (sq_nonneg w)
    rw [e]
    have h4 : (exp (2 * c) - 1) * w ^ 2 ≤ γ := by
      rw [e2]
      nlinarith [sq_nonneg w]
    nlinarith [mul_le_mul_of_nonneg_left h4 hθ0]
  linarith

end Verif.RelativeChernoff
