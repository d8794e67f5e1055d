import Verif.Proofs.Guarantee
import Verif.Props.SmallestNoise

/-!
# C69: `from_privacy_guarantee` returns noise that is private, and not more than needed

`Private C ε δ`: every mechanism satisfying `C` is `(ε, δ)`-differentially private, whichever of the two data sets comes first. `SampledLaplace b s q`
and the like (`Spec/SampledNoise.lean`) are the mechanisms that answer a query of sensitivity `s` on a Poisson sample of the records.
-/

namespace Verif.Props
open Verif Spec SmallestNoise InverseMonotone Mech MeasureTheory ProbabilityTheory

lemma amplified_pos {eps q : ℝ} (he : 0 < eps) (q0 : 0 < q) : 0 < amplifiedEps eps q := by
  unfold amplifiedEps
  have : 0 < (Real.exp eps - 1) / q := div_pos (by linarith [Real.add_one_lt_exp he.ne']) q0
  exact Real.log_pos (by linarith)

lemma amplified_exp {eps q : ℝ} (he : 0 < eps) (q0 : 0 < q) : 1 - q + q * Real.exp (amplifiedEps eps q) = Real.exp eps := by
  unfold amplifiedEps
  have : 0 < (Real.exp eps - 1) / q := div_pos (by linarith [Real.add_one_lt_exp he.ne']) q0
  rw [Real.exp_log (by linarith)]
  field_simp
  ring

/-! ### Laplace -/

/-- **C69, Laplace.** With the scale that is returned, the mechanism on a Poisson sample is `eps`-differentially private, and with any smaller
scale it is not. -/
theorem C69_laplace {eps s q : ℝ} (he : 0 < eps) {r : EReal} (h : laplaceGuarantee eps s q = .ok r) :
    ∃ b : ℝ, r = b ∧ 0 < b ∧ Private (SampledLaplace b s q) eps 0 ∧ ∀ b', 0 < b' → b' < b → ¬ Private (SampledLaplace b' s q) eps 0 := by
  unfold laplaceGuarantee at h
  rw [if_neg he.ne'] at h
  cases hm : mkLaplace (s / amplifiedEps eps q) s q .remove with
  | error e => rw [hm] at h; simp [Except.map] at h
  | ok m =>
    rw [hm] at h
    simp only [Except.map, Except.ok.injEq] at h
    obtain ⟨hf, e1, e2, e3, hs, hb⟩ := laplace_faithful hm
    have q0 : 0 < q := e2 ▸ hf.q0
    have q1 : q ≤ 1 := e2 ▸ hf.q1
    have ha := amplified_pos he q0
    have hse : s / (s / amplifiedEps eps q) = amplifiedEps eps q := by field_simp
    have hpr := laplace_prob 0 hb
    have hrem := remove_of_pure q0.le q1 (laplace_pure hb hs .remove) (ε := eps) (by rw [hse, amplified_exp he q0])
    refine ⟨_, h.symm, hb, fun Ω _ P Q hC => ?_, fun b' hb' hlt hp => ?_⟩
    · have := sampledLaplace_indist hb q0.le q1 hC eps 0
      exact ⟨this.1 hrem, this.2 (add_of_remove_sampled q0.le q1 he.le hrem)⟩
    · have hpr' := laplace_prob 0 hb'
      have h1 := sampledLaplace_worst hb' hs.le hp (Set.Iic (-s)) measurableSet_Iic
      simp only [upper, lower] at h1
      rw [mixShift_real q0.le q1, laplace_Iic hb' (by linarith)] at h1
      have e : ((laplace 0 b').map fun x => x + -s).real (Set.Iic (-s)) = 0.5 := by
        rw [measureReal_def, Measure.map_apply (by fun_prop) measurableSet_Iic]
        have : (fun x : ℝ => x + -s) ⁻¹' Set.Iic (-s) = Set.Iic 0 := by ext x; simp
        rw [this, ← measureReal_def, laplace_Iic hb' le_rfl]
        simp
      rw [e, add_zero, ← amplified_exp he q0] at h1
      have h2 : Real.exp (-s / b') * Real.exp (s / b') = 1 := by rw [← Real.exp_add]; simp [neg_div]
      have h3 : amplifiedEps eps q < s / b' := by
        rw [lt_div_iff₀ hb']
        rw [lt_div_iff₀ ha] at hlt
        linarith
      have h4 := Real.exp_lt_exp.2 h3
      have h5 := Real.exp_pos (-s / b')
      have h6 : q * Real.exp (amplifiedEps eps q) * Real.exp (-s / b') < q * 1 := by
        rw [← h2, mul_comm (Real.exp (-s / b')), mul_assoc]
        exact mul_lt_mul_of_pos_left (mul_lt_mul_of_pos_right h4 h5) q0
      norm_num at h1
      nlinarith

/-- It is returned for every positive epsilon, sensitivity and sampling probability up to one. -/
theorem C69_laplace_returns {eps s q : ℝ} (he : 0 < eps) (hs : 0 < s) (q0 : 0 < q) (q1 : q ≤ 1) :
    laplaceGuarantee eps s q = .ok ((s / Real.log (1 + (Real.exp eps - 1) / q) : ℝ) : EReal) := by
  unfold laplaceGuarantee
  rw [if_neg he.ne']
  obtain ⟨m, hm⟩ := mkLaplace_ok (b := s / amplifiedEps eps q) (s := s) (q := q) .remove (div_pos hs (amplified_pos he q0)) ⟨hs, q0, q1⟩
  rw [hm]
  rfl

example : ∃ b : ℝ, laplaceGuarantee 1 2 (1 / 10) = .ok (b : EReal) ∧ Private (SampledLaplace b 2 (1 / 10)) 1 0 := by
  have h := C69_laplace_returns (eps := 1) (s := 2) (q := 1 / 10) one_pos (by norm_num) (by norm_num) (by norm_num)
  obtain ⟨b, h1, -, h2, -⟩ := C69_laplace one_pos h
  exact ⟨b, h1 ▸ h, h2⟩

/-! ### Discrete Laplace -/

/-- **C69, discrete Laplace** (a larger parameter means less noise). -/
theorem C69_discrete_laplace {eps q a : ℝ} {s : ℤ} (he : 0 < eps) (h : discreteLaplaceGuarantee eps s q = .ok a) :
    0 < a ∧ Private (SampledInteger (discreteLaplace a) s q) eps 0 ∧
      ∀ a', a < a' → ¬ Private (SampledInteger (discreteLaplace a') s q) eps 0 := by
  unfold discreteLaplaceGuarantee at h
  by_cases c1 : s ≤ 0
  · rw [if_pos c1] at h; simp at h
  rw [if_neg c1] at h
  by_cases c2 : q ≤ 0
  · rw [if_pos c2] at h; simp at h
  rw [if_neg c2] at h
  cases hm : mkDiscreteLaplace (amplifiedEps eps q / s) s q .remove with
  | error e => rw [hm] at h; simp [Except.map] at h
  | ok m =>
    rw [hm] at h
    simp only [Except.map, Except.ok.injEq] at h
    subst h
    obtain ⟨hf, e1, e2, e3, hs, hb⟩ := discreteLaplace_faithful hm
    have q0 : 0 < q := e2 ▸ hf.q0
    have q1 : q ≤ 1 := e2 ▸ hf.q1
    have ha := amplified_pos he q0
    have hs0 : (0 : ℝ) < s := by exact_mod_cast hs
    have hse : s * (amplifiedEps eps q / s) = amplifiedEps eps q := by field_simp
    have hpr : IsProbabilityMeasure (discreteLaplace (amplifiedEps eps q / s)) := (discreteLaplace_logConcave hb).prob
    have hrem := remove_of_pure q0.le q1 (discreteLaplace_pure hb hs .remove) (ε := eps) (by rw [hse, amplified_exp he q0])
    refine ⟨hb, fun Ω _ P Q hC => ?_, fun a' hlt hp => ?_⟩
    · have := (discreteLaplace_logConcave hb).sampled_indist q0.le q1 hC eps 0
      exact ⟨this.1 hrem, this.2 (add_of_remove_sampled (μ := discreteLaplace (amplifiedEps eps q / s)) q0.le q1 he.le hrem)⟩
    · have ha' : 0 < a' := hb.trans hlt
      have hpr' : IsProbabilityMeasure (discreteLaplace a') := (discreteLaplace_logConcave ha').prob
      have h1 := sampledInteger_worst hs.le hp {-s} (measurableSet_singleton _)
      simp only [upper, lower] at h1
      rw [mixShift_real q0.le q1] at h1
      have e0 : ∀ k, (discreteLaplace a').real {k} = dlRho a' k := fun k => by
        rw [measureReal_def, dl_singleton, ENNReal.toReal_ofReal (dlRho_nonneg ha' k)]
      have e : ((discreteLaplace a').map fun x => x + -s).real {-s} = dlRho a' 0 := by
        rw [measureReal_def, Measure.map_apply (measurable_of_countable _) (measurableSet_singleton _)]
        have : (fun x : ℤ => x + -s) ⁻¹' {-s} = {0} := by ext x; simp
        rw [this, ← measureReal_def, e0]
      rw [e, e0, add_zero, ← amplified_exp he q0] at h1
      set c := (Real.exp a' - 1) / (Real.exp a' + 1) with hc
      have hc0 : 0 < c := div_pos (by linarith [Real.add_one_lt_exp ha'.ne']) (by positivity)
      have r1 : dlRho a' (-s) = c * Real.exp (-(a' * s)) := by
        unfold dlRho
        rw [← hc]
        congr 2
        push_cast
        rw [abs_neg, abs_of_pos hs0]
        ring
      have r2 : dlRho a' 0 = c := by unfold dlRho; rw [← hc]; simp
      rw [r1, r2] at h1
      have h2 : Real.exp (-(a' * s)) * Real.exp (a' * s) = 1 := by rw [← Real.exp_add]; simp
      have h3 : amplifiedEps eps q < a' * s := by
        rw [div_lt_iff₀ hs0] at hlt
        exact hlt
      have h4 := Real.exp_lt_exp.2 h3
      have h5 := Real.exp_pos (-(a' * s))
      have h6 : q * Real.exp (amplifiedEps eps q) * Real.exp (-(a' * s)) < q * 1 := by
        rw [← h2, mul_comm (Real.exp (-(a' * s))), mul_assoc]
        exact mul_lt_mul_of_pos_left (mul_lt_mul_of_pos_right h4 h5) q0
      nlinarith [mul_lt_mul_of_pos_left h6 hc0]

theorem C69_discrete_laplace_returns {eps q : ℝ} {s : ℤ} (he : 0 < eps) (hs : 0 < s) (q0 : 0 < q) (q1 : q ≤ 1) :
    discreteLaplaceGuarantee eps s q = .ok (Real.log (1 + (Real.exp eps - 1) / q) / s) := by
  have hs0 : (0 : ℝ) < s := by exact_mod_cast hs
  unfold discreteLaplaceGuarantee
  rw [if_neg (by omega), if_neg (not_le.2 q0)]
  obtain ⟨m, hm⟩ := mkDiscreteLaplace_ok (a := amplifiedEps eps q / s) (s := s) (q := q) .remove (div_pos (amplified_pos he q0) hs0) ⟨hs0, q0, q1⟩
  rw [hm]
  rfl

example : ∃ a, discreteLaplaceGuarantee 1 2 (1 / 10) = .ok a ∧ Private (SampledInteger (discreteLaplace a) 2 (1 / 10)) 1 0 := by
  have h := C69_discrete_laplace_returns (eps := 1) (s := 2) (q := 1 / 10) one_pos (by norm_num) (by norm_num) (by norm_num)
  exact ⟨_, h, (C69_discrete_laplace one_pos h).2.1⟩

/-! ### Gaussian -/

/-- **C69, Gaussian.** -/
theorem C69_gaussian {fuel : ℕ} {eps delta s q σ : ℝ} (he : 0 ≤ eps) (h : gaussianGuarantee fuel eps delta s q = .ok (some σ)) :
    0 < σ ∧ Private (SampledGaussian σ s q) eps delta := by
  obtain ⟨-, e0, hi⟩ := gaussianGuarantee_found h
  have he : 0 < eps := lt_of_le_of_ne he (Ne.symm e0)
  obtain ⟨v, h1, h2⟩ := inverseE_feasible hi
  obtain ⟨hσ, hs, q0, q1⟩ := gaussianDelta_params h1
  obtain ⟨d, h3, h4⟩ := gaussianDelta_isHs hσ hs q0 q1 he
  rw [h1, Except.ok.injEq] at h3
  subst h3
  have hrem := Indist.mono h4.1 h2
  refine ⟨hσ, fun Ω _ P Q hC => ?_⟩
  have := sampledGaussian_indist hσ hs q0.le q1 hC eps delta
  exact ⟨this.1 hrem, this.2 (add_of_remove_sampled q0.le q1 he.le hrem)⟩

/-- It is the smallest one up to the tolerance of the search. -/
theorem C69_gaussian_smallest {fuel : ℕ} {eps delta s q σ : ℝ} (he : 0 ≤ eps) (hd0 : 0 ≤ delta) (hd1 : delta ≤ 1)
    (h : gaussianGuarantee fuel eps delta s q = .ok (some σ)) {σ' : ℝ} (h0 : 0 < σ') (hlt : σ' < σ - 1e-7) :
    ¬ Private (SampledGaussian σ' s q) eps delta := by
  obtain ⟨d0, e0, hi⟩ := gaussianGuarantee_found h
  have he : 0 < eps := lt_of_le_of_ne he (Ne.symm e0)
  have hd0 : 0 < delta := lt_of_le_of_ne hd0 (Ne.symm d0)
  obtain ⟨v, h1, h2⟩ := inverseE_feasible hi
  obtain ⟨hσ, hs, q0, q1⟩ := gaussianDelta_params h1
  obtain ⟨y, -, -, h3, h4⟩ := inverseE_boundary (gaussianRange_good he hd0 hd1 hs) rfl hi
  intro hc
  have h3' : σ - 1e-7 ≤ y := h3
  have hy : σ' < y := hlt.trans_le h3'
  rcases h4 with h4 | ⟨w, h6, h7⟩
  · have : y = 0 := EReal.coe_eq_coe_iff.1 h4
    linarith
  · obtain ⟨d, h8, h9⟩ := gaussianDelta_isHs (h0.trans hy) hs q0 q1 he
    rw [h6, Except.ok.injEq] at h8
    subst h8
    have := h9.2 (sampledGaussian_mono h0 hy.le hs.le hc)
    linarith

/-- The search stops, does not raise and finds a standard deviation. -/
theorem C69_gaussian_finds {eps delta s q : ℝ} (he : 0 < eps) (hd0 : 0 < delta) (hd1 : delta ≤ 1) (hs : 0 < s) (q0 : 0 < q) (q1 : q ≤ 1) :
    ∃ σ N, ∀ fuel ≥ N, gaussianGuarantee fuel eps delta s q = .ok (some σ) := by
  obtain ⟨x, N, hN⟩ := upFrom_stops (func := gaussianDelta eps s q) (value := delta) (tol := 1e-7)
    (B := s * max 1 (1 / (2 * eps * delta))) (guess_pos he hd0 hd1 hs) (by norm_num)
    (fun x hx => by
      obtain ⟨d, hd, -⟩ := gaussianDelta_isHs hx hs q0 q1 he
      exact ⟨d, hd⟩)
    (fun x v hx hv => by
      have hx0 : 0 < x := lt_of_lt_of_le (by positivity) hx
      refine (gaussianDelta_le hx0 hs q0 q1 he hv).trans (gaussLaw_hs_small he hd0 ?_)
      rw [le_div_iff₀ hs]
      linarith)
  refine ⟨x, N, fun fuel hf => ?_⟩
  unfold gaussianGuarantee
  rw [if_neg hd0.ne', if_neg he.ne']
  unfold gaussianRange
  rw [hN fuel hf]

example : ∃ fuel σ, gaussianGuarantee fuel 1 1e-5 2 (1 / 10) = .ok (some σ) ∧ Private (SampledGaussian σ 2 (1 / 10)) 1 1e-5 ∧
    ∀ σ', 0 < σ' → σ' < σ - 1e-7 → ¬ Private (SampledGaussian σ' 2 (1 / 10)) 1 1e-5 := by
  obtain ⟨σ, N, hN⟩ := C69_gaussian_finds (eps := 1) (delta := 1e-5) (s := 2) (q := 1 / 10) one_pos (by norm_num) (by norm_num) (by norm_num)
    (by norm_num) (by norm_num)
  have h := hN N le_rfl
  exact ⟨N, σ, h, (C69_gaussian zero_le_one h).2, fun σ' h0 hlt => C69_gaussian_smallest zero_le_one (by norm_num) (by norm_num) h h0 hlt⟩

/-! ### Discrete Gaussian -/

lemma discreteGaussianGuarantee_found {fuel : ℕ} {eps delta q σ : ℝ} {s : ℤ} (h : discreteGaussianGuarantee fuel eps delta s q = .ok (some σ)) :
    delta ≠ 0 ∧ eps ≠ 0 ∧ inverseE fuel (discreteGaussianDelta eps s q) delta (gaussianRange eps delta s) false = .ok (.found σ) := by
  unfold discreteGaussianGuarantee at h
  by_cases hd : delta = 0
  · rw [if_pos hd] at h; simp at h
  rw [if_neg hd] at h
  by_cases he : eps = 0
  · rw [if_pos he] at h; simp at h
  rw [if_neg he] at h
  refine ⟨hd, he, ?_⟩
  cases hr : inverseE fuel (discreteGaussianDelta eps s q) delta (gaussianRange eps delta s) false with
  | error e => rw [hr] at h; simp at h
  | ok r => rw [hr] at h; cases r <;> simp at h; rw [h]

lemma discreteGaussianDelta_isHs {eps q σ v : ℝ} {s : ℤ} (he : 0 < eps) (h : discreteGaussianDelta eps s q σ = .ok v) :
    0 < σ ∧ 0 < s ∧ 0 < q ∧ q ≤ 1 ∧ IsProbabilityMeasure (discreteGaussian σ ⌈11.6 * σ⌉) ∧
      IsHs (upper (discreteGaussian σ ⌈11.6 * σ⌉) s q .remove) (lower (discreteGaussian σ ⌈11.6 * σ⌉) s q .remove) eps v := by
  unfold discreteGaussianDelta at h
  cases hm : mkDiscreteGaussian σ s none q .remove with
  | error e => rw [hm] at h; simp at h
  | ok m =>
    rw [hm] at h
    simp only at h
    obtain ⟨hf, e1, e2, e3, hs, hσ, -⟩ := discreteGaussian_faithful hm
    have q0 : 0 < q := e2 ▸ hf.q0
    have q1 : q ≤ 1 := e2 ▸ hf.q1
    obtain ⟨d, h1, h2⟩ := C31_discrete_gaussian_partial hm eps (by
      rcases q1.lt_or_eq with h | h
      · exact .inr (not_isClose_limit he q0 h)
      · exact .inl h)
    rw [h, Except.ok.injEq] at h1
    subst h1
    exact ⟨hσ, hs, q0, q1, by rw [discreteGaussian_eq]; exact hf.prob, h2⟩

/-- **C69, discrete Gaussian.** The noise is the discrete Gaussian truncated to `[-T, T]`, `T = ⌈11.6 σ⌉`, as in the mechanism that is returned. -/
theorem C69_discrete_gaussian {fuel : ℕ} {eps delta q σ : ℝ} {s : ℤ} (he : 0 ≤ eps)
    (h : discreteGaussianGuarantee fuel eps delta s q = .ok (some σ)) :
    0 < σ ∧ Private (SampledInteger (discreteGaussian σ ⌈11.6 * σ⌉) s q) eps delta := by
  obtain ⟨-, e0, hi⟩ := discreteGaussianGuarantee_found h
  have he : 0 < eps := lt_of_le_of_ne he (Ne.symm e0)
  obtain ⟨v, h1, h2⟩ := inverseE_feasible hi
  obtain ⟨hσ, hs, q0, q1, hpr, h4⟩ := discreteGaussianDelta_isHs he h1
  have hrem := Indist.mono h4.1 h2
  refine ⟨hσ, fun Ω _ P Q hC => ?_⟩
  have := (discreteGaussian_logConcave hpr).sampled_indist q0.le q1 hC eps delta
  exact ⟨this.1 hrem, this.2 (add_of_remove_sampled (μ := discreteGaussian σ ⌈11.6 * σ⌉) q0.le q1 he.le hrem)⟩

/-- Within the tolerance below the returned parameter there is one that is not private (or zero is within the tolerance). -/
theorem C69_discrete_gaussian_tight {fuel : ℕ} {eps delta q σ : ℝ} {s : ℤ} (he : 0 ≤ eps) (hd0 : 0 ≤ delta) (hd1 : delta ≤ 1)
    (h : discreteGaussianGuarantee fuel eps delta s q = .ok (some σ)) :
    ∃ y, y ≤ σ ∧ σ - 1e-7 ≤ y ∧ (y = 0 ∨ 0 < y ∧ ¬ Private (SampledInteger (discreteGaussian y ⌈11.6 * y⌉) s q) eps delta) := by
  obtain ⟨d0, e0, hi⟩ := discreteGaussianGuarantee_found h
  have he : 0 < eps := lt_of_le_of_ne he (Ne.symm e0)
  have hd0 : 0 < delta := lt_of_le_of_ne hd0 (Ne.symm d0)
  obtain ⟨v, h1, h2⟩ := inverseE_feasible hi
  obtain ⟨hσ, hs, -⟩ := discreteGaussianDelta_isHs he h1
  obtain ⟨y, -, h2, h3, h4⟩ := inverseE_boundary (gaussianRange_good he hd0 hd1 (by exact_mod_cast hs : (0 : ℝ) < s)) rfl hi
  refine ⟨y, h2, h3, ?_⟩
  rcases h4 with h4 | ⟨w, h6, h7⟩
  · exact .inl (EReal.coe_eq_coe_iff.1 h4)
  · obtain ⟨hy, -, q0, q1, -, h8⟩ := discreteGaussianDelta_isHs he h6
    refine .inr ⟨hy, fun hp => ?_⟩
    have := h8.2 (sampledInteger_worst hs.le hp)
    linarith

/-- The search raises if the range of the noise at the initial guess is shorter than the sensitivity. -/
theorem C69_discrete_gaussian_raises {fuel : ℕ} {eps delta q : ℝ} {s : ℤ} (he : 0 < eps) (hd0 : 0 < delta) (hd1 : delta ≤ 1) (hs : 0 < s)
    (hT : 2 * ⌈11.6 * (Real.sqrt (2 * Real.log (1.5 / delta)) * s / eps)⌉ < s) :
    discreteGaussianGuarantee fuel eps delta s q = .error .valueError := by
  have hg := guess_pos he hd0 hd1 (by exact_mod_cast hs : (0 : ℝ) < s)
  have hf : discreteGaussianDelta eps s q (Real.sqrt (2 * Real.log (1.5 / delta)) * s / eps) = .error .valueError := by
    unfold discreteGaussianDelta mkDiscreteGaussian
    rw [if_neg (not_le.2 hg)]
    simp only []
    rw [if_pos (show 2 * dgBound _ none < s from hT)]
  unfold discreteGaussianGuarantee
  rw [if_neg hd0.ne', if_neg he.ne']
  unfold inverseE infeasibleE gaussianRange
  simp only [Bool.false_eq_true, if_false]
  unfold guessLoopE
  rw [if_pos (EReal.coe_lt_top _), hf]
  rfl

/-- With a standard deviation that is large enough the mechanism is private, so there is always something to be found. -/
theorem C69_discrete_gaussian_exists {eps delta q : ℝ} {s : ℤ} (he : 0 < eps) (hd0 : 0 < delta) (hs : 0 < s) (q0 : 0 ≤ q) (q1 : q ≤ 1) :
    ∃ B, ∀ σ ≥ B, Private (SampledInteger (discreteGaussian σ ⌈11.6 * σ⌉) s q) eps delta := by
  refine ⟨max (max 1 (s : ℝ)) (max (12.6 * s / eps) (s / (11.6 * delta))), fun σ hσ Ω _ P Q hC => ?_⟩
  have h1 : 1 ≤ σ := (le_max_left _ _).trans ((le_max_left _ _).trans hσ)
  have hpr : IsProbabilityMeasure (discreteGaussian σ ⌈11.6 * σ⌉) := dg_prob σ (Int.ceil_nonneg (by norm_num; linarith))
  have hrem := sampled_of_unsampled q0 q1 (discreteGaussian_small he hd0 hs hσ)
  have := (discreteGaussian_logConcave hpr).sampled_indist q0 q1 hC eps delta
  exact ⟨this.1 hrem, this.2 (add_of_remove_sampled (μ := discreteGaussian σ ⌈11.6 * σ⌉) q0 q1 he.le hrem)⟩

/-- For sensitivities one and two the search stops, does not raise and finds a parameter. (For larger sensitivities, see
`C69_discrete_gaussian_raises`.) -/
theorem C69_discrete_gaussian_finds_partial {eps delta q : ℝ} {s : ℤ} (he : 0 < eps) (hd0 : 0 < delta) (hd1 : delta ≤ 1) (hs : 0 < s) (hs2 : s ≤ 2)
    (q0 : 0 < q) (q1 : q ≤ 1) : ∃ σ N, ∀ fuel ≥ N, discreteGaussianGuarantee fuel eps delta s q = .ok (some σ) := by
  have hs0 : (0 : ℝ) < s := by exact_mod_cast hs
  obtain ⟨B, hB⟩ := C69_discrete_gaussian_exists he hd0 hs q0.le q1
  obtain ⟨x, N, hN⟩ := upFrom_stops (func := discreteGaussianDelta eps s q) (value := delta) (tol := 1e-7) (B := B)
    (guess_pos he hd0 hd1 hs0) (by norm_num)
    (fun x hx => by
      have hT : s ≤ 2 * dgBound x none := by
        have : 0 < ⌈11.6 * x⌉ := Int.ceil_pos.2 (by norm_num; linarith)
        simp only [dgBound]
        omega
      obtain ⟨m, hm⟩ := mkDiscreteGaussian_ok (σ := x) (s := s) (bound := none) (q := q) .remove hx hT ⟨hs0, q0, q1⟩
      obtain ⟨d, h1, -⟩ := C31_discrete_gaussian_partial hm eps (by
        rcases q1.lt_or_eq with h | h
        · exact .inr (not_isClose_limit he q0 h)
        · exact .inl h)
      refine ⟨d, ?_⟩
      unfold discreteGaussianDelta
      rw [hm]
      exact h1)
    (fun x v hx hv => (discreteGaussianDelta_isHs he hv).2.2.2.2.2.2 (sampledInteger_worst hs.le (hB x hx)))
  refine ⟨x, N, fun fuel hf => ?_⟩
  unfold discreteGaussianGuarantee
  rw [if_neg hd0.ne', if_neg he.ne']
  unfold gaussianRange
  rw [hN fuel hf]

example : ∃ fuel σ, discreteGaussianGuarantee fuel 1 1e-5 1 (1 / 10) = .ok (some σ) ∧
    Private (SampledInteger (discreteGaussian σ ⌈11.6 * σ⌉) 1 (1 / 10)) 1 1e-5 := by
  obtain ⟨σ, N, hN⟩ := C69_discrete_gaussian_finds_partial (eps := 1) (delta := 1e-5) (s := 1) (q := 1 / 10) one_pos (by norm_num) (by norm_num)
    (by norm_num) (by norm_num) (by norm_num) (by norm_num)
  exact ⟨N, σ, hN N le_rfl, (C69_discrete_gaussian zero_le_one (hN N le_rfl)).2⟩

/-- So `from_privacy_guarantee` of the discrete Gaussian mechanism does not always return a mechanism: for the target `(1000, 1/2)` and
sensitivity 1000 it raises, although there is noise that meets the target. -/
theorem C69_discrete_gaussian_violated : (∀ fuel, discreteGaussianGuarantee fuel 1000 (1 / 2) 1000 1 = .error .valueError) ∧
    ∃ σ, 0 < σ ∧ Private (SampledInteger (discreteGaussian σ ⌈11.6 * σ⌉) 1000 1) 1000 (1 / 2) := by
  constructor
  · intro fuel
    refine C69_discrete_gaussian_raises (by norm_num) (by norm_num) (by norm_num) (by norm_num) ?_
    have h1 : Real.log (1.5 / (1 / 2)) ≤ 2 := by
      have := Real.log_le_sub_one_of_pos (x := 1.5 / (1 / 2)) (by norm_num)
      norm_num at this ⊢
      linarith
    have h2 : Real.sqrt (2 * Real.log (1.5 / (1 / 2))) ≤ 2 := by
      rw [Real.sqrt_le_left (by norm_num)]
      linarith
    have h3 : ⌈11.6 * (Real.sqrt (2 * Real.log (1.5 / (1 / 2))) * ((1000 : ℤ) : ℝ) / 1000)⌉ ≤ 24 := by
      rw [Int.ceil_le]
      push_cast
      rw [mul_div_assoc]
      norm_num at h2 ⊢
      linarith
    omega
  · obtain ⟨B, hB⟩ := C69_discrete_gaussian_exists (eps := 1000) (delta := 1 / 2) (q := 1) (s := 1000) (by norm_num) (by norm_num) (by norm_num)
      zero_le_one le_rfl
    exact ⟨max B 1, lt_of_lt_of_le one_pos (le_max_right _ _), hB _ (le_max_left _ _)⟩

end Verif.Props
