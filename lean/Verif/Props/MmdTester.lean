import Verif.Proofs.MmdTester
import Mathlib.Analysis.Complex.ExponentialBounds

/-!
# C67: the MMD tester
-/

namespace Verif.Props

open Spec Testers MeasureTheory

/-- **C67 (construction).** The constructor accepts exactly a positive `epsilon`, a nonnegative `delta` and one of the two kernels, and
raises `ValueError` otherwise. -/
theorem C67_init (d : ℕ) (kernel : Kernel) (bandwidth epsilon delta : ℝ) :
    mmdTester d kernel bandwidth epsilon delta =
      if 0 < epsilon ∧ 0 ≤ delta then
        match kernel with
        | .rbf => .ok ⟨epsilon, delta, fun x y => Real.exp (-bandwidth * ∑ i, (x i - y i) ^ 2)⟩
        | .laplacian => .ok ⟨epsilon, delta, fun x y => Real.exp (-bandwidth * ∑ i, |x i - y i|)⟩
        | .unspecified => .error .valueError
      else .error .valueError := by
  have hrbf : rbfKernel (d := d) bandwidth = fun x y => Real.exp (-bandwidth * ∑ i, (x i - y i) ^ 2) := by
    funext x y
    unfold rbfKernel
    rw [Real.sq_sqrt (Finset.sum_nonneg fun i _ => sq_nonneg _)]
  have hlap : laplacianKernel (d := d) bandwidth = fun x y => Real.exp (-bandwidth * ∑ i, |x i - y i|) := rfl
  have hv : Validation.approximateDp (some (.num epsilon)) (some (.num delta)) =
      if 0 < epsilon ∧ 0 ≤ delta then .ok () else .error .valueError := by
    have hpos : Validation.positive (some (.num epsilon)) = if 0 < epsilon then .ok () else .error .valueError := by
      unfold Validation.positive
      by_cases h1 : 0 < epsilon
      · have e1 : ¬PyFloat.falsy (some (.num epsilon)) := by
          show ¬((epsilon : EReal) = 0)
          exact_mod_cast h1.ne'
        have e2 : ¬PyFloat.le (.num epsilon) (.num 0) := by
          show ¬((epsilon : EReal) ≤ 0)
          exact_mod_cast not_le.2 h1
        rw [if_neg e1, if_pos h1]
        exact if_neg e2
      · rw [if_neg h1]
        by_cases h0 : epsilon = 0
        · exact if_pos (show (epsilon : EReal) = 0 by exact_mod_cast h0)
        · have e1 : ¬PyFloat.falsy (some (.num epsilon)) := by
            show ¬((epsilon : EReal) = 0)
            exact_mod_cast h0
          rw [if_neg e1]
          exact if_pos (show (epsilon : EReal) ≤ 0 by exact_mod_cast not_lt.1 h1)
    unfold Validation.approximateDp Validation.epsilonParameter
    rw [hpos]
    by_cases h1 : 0 < epsilon
    · rw [if_pos h1]
      by_cases h2 : 0 ≤ delta
      · rw [if_pos ⟨h1, h2⟩]
        exact if_neg (show ¬((delta : EReal) < 0) by exact_mod_cast not_lt.2 h2)
      · rw [if_neg (fun h => h2 h.2)]
        exact if_pos (show (delta : EReal) < 0 by exact_mod_cast not_le.1 h2)
    · rw [if_neg h1, if_neg (fun h => h1 h.1)]
      rfl
  unfold mmdTester
  rw [hv, hrbf, hlap]
  by_cases h : 0 < epsilon ∧ 0 ≤ delta
  · simp only [if_pos h]
    cases kernel <;> rfl
  · simp only [if_neg h]

/-- What the constructor guarantees. -/
theorem Aux.mmd_ok {d : ℕ} {kernel : Kernel} {bandwidth epsilon delta : ℝ} {t : MmdTester (Fin d → ℝ)}
    (ht : mmdTester d kernel bandwidth epsilon delta = .ok t) (hb : 0 ≤ bandwidth) :
    0 < epsilon ∧ 0 ≤ delta ∧ t.epsilon = epsilon ∧ t.delta = delta ∧ MmdTester.GoodKernel t.kernel := by
  have hc := C67_init d kernel bandwidth epsilon delta
  rw [ht] at hc
  by_cases h : 0 < epsilon ∧ 0 ≤ delta
  · refine ⟨h.1, h.2, ?_⟩
    unfold mmdTester at ht
    cases hv : Validation.approximateDp (some (.num epsilon)) (some (.num delta)) with
    | error e => rw [hv] at ht; cases ht
    | ok u =>
      rw [hv] at ht
      cases kernel with
      | unspecified => cases ht
      | rbf =>
        obtain rfl := Except.ok.inj ht
        exact ⟨rfl, rfl, MmdTester.rbf_good hb⟩
      | laplacian =>
        obtain rfl := Except.ok.inj ht
        exact ⟨rfl, rfl, MmdTester.laplacian_good hb⟩
  · rw [if_neg h] at hc
    cases hc

/-- The estimate: `ValueError` if one of the arrays has exactly one sample, `ZeroDivisionError` if one of them has none (or the failure
probability is zero), and a number otherwise. -/
theorem C67_returns {S : Type} (t : MmdTester S) (samples1 samples2 : List S) (fp : ℝ) :
    (samples1.length = 1 ∨ samples2.length = 1 → t.estimateLowerBound samples1 samples2 fp = .error .valueError) ∧
    (samples1.length ≠ 1 → samples2.length ≠ 1 → samples1 = [] ∨ samples2 = [] ∨ fp = 0 →
      t.estimateLowerBound samples1 samples2 fp = .error .zeroDivisionError) ∧
    (2 ≤ samples1.length → 2 ≤ samples2.length → fp ≠ 0 → ∃ b, t.estimateLowerBound samples1 samples2 fp = .ok b) := by
  have e1 : List.ofFn (fun i : Fin samples1.length => samples1[i]) = samples1 := by simp
  have e2 : List.ofFn (fun i : Fin samples2.length => samples2[i]) = samples2 := by simp
  refine ⟨fun h => ?_, fun h1 h2 h => ?_, fun h1 h2 h => ?_⟩
  · have := MmdTester.estimate_one t h (fun i => samples1[i], fun i => samples2[i]) fp
    simp only [e1, e2] at this
    exact this
  · have := MmdTester.estimate_eq t h1 h2 (fun i => samples1[i], fun i => samples2[i]) fp
    simp only [e1, e2] at this
    rw [this]
    unfold MmdTester.fromValues
    by_cases hn : min (samples1.length / 2) (samples2.length / 2) = 0
    · simp only [if_pos hn]
    · have hf : fp = 0 := by
        rcases h with h | h | h
        · exact absurd (by simp [h]) hn
        · exact absurd (by simp [h]) hn
        · exact h
      simp only [if_neg hn, if_pos hf]
  · have := MmdTester.estimate_eq t (N := samples1.length) (M := samples2.length) (by omega) (by omega)
      (fun i => samples1[i], fun i => samples2[i]) fp
    simp only [e1, e2] at this
    rw [this, MmdTester.fromValues_eq t (by omega) h]
    exact ⟨_, rfl⟩

/-- **C67 (discrepancy).** For an `(ε, δ)`-private pair, the squared discrepancy is at most the polynomial the tester inverts, which is at
most the square of the bound `(e^ε - 1) + (1 + e^ε) δ` promised in the class. -/
theorem C67_discrepancy {d : ℕ} {kernel : Kernel} {bandwidth epsilon delta : ℝ} {t : MmdTester (Fin d → ℝ)}
    (ht : mmdTester d kernel bandwidth epsilon delta = .ok t) (hb : 0 ≤ bandwidth) {P Q : Measure (Fin d → ℝ)} [IsProbabilityMeasure P]
    [IsProbabilityMeasure Q] (h : Indist P Q epsilon delta) (h' : Indist Q P epsilon delta) :
    mmdSq t.kernel P Q ≤ (Real.exp epsilon - 1) ^ 2 + 2 * (Real.exp epsilon - Real.exp (-epsilon)) * delta +
        (1 + Real.exp (-epsilon)) * delta ^ 2 ∧
      √(mmdSq t.kernel P Q) ≤ (Real.exp epsilon - 1) + (1 + Real.exp epsilon) * delta := by
  obtain ⟨he, hd, -, -, hk⟩ := Aux.mmd_ok ht hb
  have h1 : mmdSq t.kernel P Q ≤ mmdBound epsilon delta :=
    (Mmd.mmdSq_le he hd h h' hk.measurable hk.nonneg hk.le_one hk.symm).trans (Mmd.tau_le he hd)
  refine ⟨h1, ?_⟩
  have hu : 1 < Real.exp epsilon := Real.one_lt_exp_iff.2 he
  have hv : Real.exp (-epsilon) < 1 := Real.exp_lt_one_iff.2 (by linarith)
  have hv0 := Real.exp_pos (-epsilon)
  have huv : Real.exp epsilon * Real.exp (-epsilon) = 1 := by rw [← Real.exp_add, add_neg_cancel, Real.exp_zero]
  rw [Real.sqrt_le_iff]
  refine ⟨add_nonneg (by linarith) (mul_nonneg (by linarith) hd), h1.trans ?_⟩
  unfold mmdBound
  set u := Real.exp epsilon
  set v := Real.exp (-epsilon)
  have h2 : (u - v) * delta ≤ (u - 1) * (1 + u) * delta := by
    refine mul_le_mul_of_nonneg_right ?_ hd
    nlinarith [mul_nonneg (by linarith : 0 ≤ u - 1) (by linarith : 0 ≤ 1 - v)]
  have h3 : (1 + v) * delta ^ 2 ≤ (1 + u) ^ 2 * delta ^ 2 := mul_le_mul_of_nonneg_right (by nlinarith) (sq_nonneg _)
  nlinarith

/-- **C67, partial.** If the mechanism is `(ε, δ)`-private on the two datasets, then with `n1` and `n2` independent outputs the reported
lower bound exceeds `δ`, that is, the tester rejects, with probability at most
`fp + 2 (fp / 2) ^ (3 n / (3 n + 7 log (2 / fp)))`, where `n = min ⌊n1 / 2⌋ ⌊n2 / 2⌋`. The bound for large `n` is close to `2 fp`; the
property claims `fp`. (The code takes the larger of two bounds that each use up the failure probability, and uses the biased sample
variance in the second one.) -/
theorem C67_sound_partial {d : ℕ} {kernel : Kernel} {bandwidth epsilon delta : ℝ} {t : MmdTester (Fin d → ℝ)}
    (ht : mmdTester d kernel bandwidth epsilon delta = .ok t) (hb : 0 ≤ bandwidth) {P Q : Measure (Fin d → ℝ)} [IsProbabilityMeasure P]
    [IsProbabilityMeasure Q] (h : Indist P Q epsilon delta) (h' : Indist Q P epsilon delta) (n1 n2 n : ℕ) (hn : n = min (n1 / 2) (n2 / 2))
    {fp : ℝ} (hf0 : 0 < fp) (hf1 : fp ≤ 1) :
    (independentSamples P Q n1 n2).real
      {z | ∃ b, t.estimateLowerBound (List.ofFn z.1) (List.ofFn z.2) fp = .ok b ∧ t.rejectProperty b} ≤
        fp + 2 * (fp / 2) ^ (3 * n / (3 * n + 7 * Real.log (2 / fp))) := by
  obtain ⟨he, hd, e1, e2, hk⟩ := Aux.mmd_ok ht hb
  subst e1 e2 hn
  exact MmdTester.sound hk he hd h h' n1 n2 hf0 hf1

/-- With at most `1 + 10 log (2 / fp)` groups of samples the probability is at most the failure probability. -/
theorem C67_small_partial {d : ℕ} {kernel : Kernel} {bandwidth epsilon delta : ℝ} {t : MmdTester (Fin d → ℝ)}
    (ht : mmdTester d kernel bandwidth epsilon delta = .ok t) (hb : 0 ≤ bandwidth) {P Q : Measure (Fin d → ℝ)} [IsProbabilityMeasure P]
    [IsProbabilityMeasure Q] (h : Indist P Q epsilon delta) (h' : Indist Q P epsilon delta) (n1 n2 n : ℕ) (hn : n = min (n1 / 2) (n2 / 2))
    {fp : ℝ} (hf0 : 0 < fp) (hf1 : fp ≤ 1) (hsmall : n ≤ 1 + 10 * Real.log (2 / fp)) :
    (independentSamples P Q n1 n2).real
      {z | ∃ b, t.estimateLowerBound (List.ofFn z.1) (List.ofFn z.2) fp = .ok b ∧ t.rejectProperty b} ≤ fp := by
  obtain ⟨he, hd, e1, e2, hk⟩ := Aux.mmd_ok ht hb
  subst e1 e2 hn
  exact MmdTester.sound_small hk he hd h h' n1 n2 hf0 hf1 hsmall

/-- **C67 (power).** For any two distributions, except with probability `fp` the tester returns a bound `b` with
`MMD² - 2 √(8 log (1 / fp) / n) ≤ (e^ε - 1)² + 2 (e^ε - e^(-ε)) b + (1 + e^(-ε)) b²`. -/
theorem C67_power {d : ℕ} {kernel : Kernel} {bandwidth epsilon delta : ℝ} {t : MmdTester (Fin d → ℝ)}
    (ht : mmdTester d kernel bandwidth epsilon delta = .ok t) (hb : 0 ≤ bandwidth) (P Q : Measure (Fin d → ℝ)) [IsProbabilityMeasure P]
    [IsProbabilityMeasure Q] (n1 n2 n : ℕ) (hn1 : 2 ≤ n1) (hn2 : 2 ≤ n2) (hn : n = min (n1 / 2) (n2 / 2)) {fp : ℝ} (hf0 : 0 < fp)
    (hf1 : fp ≤ 1) :
    (independentSamples P Q n1 n2).real
      {z | ¬∃ b, t.estimateLowerBound (List.ofFn z.1) (List.ofFn z.2) fp = .ok b ∧
        mmdSq t.kernel P Q - 2 * √(8 * Real.log (1 / fp) / n) ≤
          (Real.exp epsilon - 1) ^ 2 + 2 * (Real.exp epsilon - Real.exp (-epsilon)) * b + (1 + Real.exp (-epsilon)) * b ^ 2} ≤ fp := by
  obtain ⟨he, hd, e1, e2, hk⟩ := Aux.mmd_ok ht hb
  subst e1 hn
  exact MmdTester.power P Q hk he hn1 hn2 hf0 hf1

section Example

/-- Randomized response on `{0, 1}`: the true answer with probability `2/3`. -/
noncomputable def Aux.rr (a b : ℝ) : Measure (Fin 1 → ℝ) :=
  ENNReal.ofReal (2 / 3) • Measure.dirac (fun _ => a) + ENNReal.ofReal (1 / 3) • Measure.dirac (fun _ => b)

theorem Aux.rr_prob (a b : ℝ) : IsProbabilityMeasure (Aux.rr a b) := by
  refine ⟨?_⟩
  unfold Aux.rr
  rw [Measure.add_apply, Measure.smul_apply, Measure.smul_apply, measure_univ, measure_univ, smul_eq_mul, smul_eq_mul, mul_one, mul_one,
    ← ENNReal.ofReal_add (by norm_num) (by norm_num)]
  norm_num

theorem Aux.rr_indist (a b : ℝ) : Indist (Aux.rr a b) (Aux.rr b a) (Real.log 2) 0 := by
  intro A hA
  have h : ∀ x y : ℝ, (Aux.rr x y).real A = 2 / 3 * (Measure.dirac (fun _ => x : Fin 1 → ℝ)).real A +
      1 / 3 * (Measure.dirac (fun _ => y : Fin 1 → ℝ)).real A := by
    intro x y
    unfold Aux.rr
    rw [Measure.real, Measure.add_apply, Measure.smul_apply, Measure.smul_apply, smul_eq_mul, smul_eq_mul,
      ENNReal.toReal_add (by finiteness) (by finiteness), ENNReal.toReal_mul, ENNReal.toReal_mul, ENNReal.toReal_ofReal (by norm_num),
      ENNReal.toReal_ofReal (by norm_num)]
    rfl
  rw [h, h, Real.exp_log (by norm_num)]
  have h1 : 0 ≤ (Measure.dirac (fun _ => b : Fin 1 → ℝ)).real A := measureReal_nonneg
  linarith

example : ∃ t, mmdTester 1 .laplacian 2 (Real.log 2) 0 = .ok t ∧
    (haveI := Aux.rr_prob 0 1; haveI := Aux.rr_prob 1 0;
      (independentSamples (Aux.rr 0 1) (Aux.rr 1 0) 40 30).real
        {z | ∃ b, t.estimateLowerBound (List.ofFn z.1) (List.ofFn z.2) 0.05 = .ok b ∧ t.rejectProperty b} ≤ 0.05) := by
  have := Aux.rr_prob 0 1
  have := Aux.rr_prob 1 0
  have ht := C67_init 1 .laplacian 2 (Real.log 2) 0
  rw [if_pos ⟨Real.log_pos (by norm_num), le_refl _⟩] at ht
  refine ⟨_, ht, C67_small_partial ht (by norm_num) (Aux.rr_indist 0 1) (Aux.rr_indist 1 0) 40 30 15 (by norm_num) (by norm_num)
    (by norm_num) ?_⟩
  have h1 : Real.log 8 ≤ Real.log (2 / 0.05) := Real.log_le_log (by norm_num) (by norm_num)
  have h2 : Real.log 8 = 3 * Real.log 2 := by
    rw [show (8 : ℝ) = 2 ^ 3 by norm_num, Real.log_pow]
    norm_num
  have := Real.log_two_gt_d9
  push_cast
  norm_num at *
  linarith

end Example

/-- **C67, violated by the code for negative bandwidths,** which the constructor accepts. For a mechanism whose output does not depend on
the data (a fair coin) and two samples of each, the tester for `ε = 1`, `δ = 0` rejects with probability at least `1/16`, although the
failure probability is `1/100`. -/
theorem C67_bandwidth_violated : ∃ t : MmdTester (Fin 1 → ℝ), mmdTester 1 .rbf (-10) 1 0 = .ok t ∧
    ∃ P : Measure (Fin 1 → ℝ), IsProbabilityMeasure P ∧
      1 / 16 ≤ (independentSamples P P 2 2).real
        {z | ∃ b, t.estimateLowerBound (List.ofFn z.1) (List.ofFn z.2) 0.01 = .ok b ∧ t.rejectProperty b} := by
  have ht : mmdTester 1 .rbf (-10) 1 0 = .ok ⟨1, 0, fun x y => Real.exp (-(-10) * ∑ i, (x i - y i) ^ 2)⟩ := by
    have := C67_init 1 .rbf (-10) 1 0
    rwa [if_pos ⟨by norm_num, le_refl _⟩] at this
  set t : MmdTester (Fin 1 → ℝ) := ⟨1, 0, fun x y => Real.exp (-(-10) * ∑ i, (x i - y i) ^ 2)⟩ with htdef
  refine ⟨t, ht, ENNReal.ofReal (1 / 2) • Measure.dirac (fun _ => 0) + ENNReal.ofReal (1 / 2) • Measure.dirac (fun _ => 1), ?_, ?_⟩
  · refine ⟨?_⟩
    rw [Measure.add_apply, Measure.smul_apply, Measure.smul_apply, measure_univ, measure_univ, smul_eq_mul, mul_one,
      ← ENNReal.ofReal_add (by norm_num) (by norm_num)]
    norm_num
  set P : Measure (Fin 1 → ℝ) := ENNReal.ofReal (1 / 2) • Measure.dirac (fun _ => 0) + ENNReal.ofReal (1 / 2) • Measure.dirac (fun _ => 1)
    with hP
  have hprob : IsProbabilityMeasure P := by
    refine ⟨?_⟩
    rw [hP, Measure.add_apply, Measure.smul_apply, Measure.smul_apply, measure_univ, measure_univ, smul_eq_mul, mul_one,
      ← ENNReal.ofReal_add (by norm_num) (by norm_num)]
    norm_num
  have h01 : (fun _ => 0 : Fin 1 → ℝ) ≠ fun _ => 1 := fun h => by simpa using congrFun h 0
  have hP0 : P {fun _ => 0} = ENNReal.ofReal (1 / 2) := by
    rw [hP, Measure.add_apply, Measure.smul_apply, Measure.smul_apply, Measure.dirac_apply' _ (MeasurableSet.singleton _),
      Measure.dirac_apply' _ (MeasurableSet.singleton _)]
    simp [h01.symm]
  have hP1 : P {fun _ => 1} = ENNReal.ofReal (1 / 2) := by
    rw [hP, Measure.add_apply, Measure.smul_apply, Measure.smul_apply, Measure.dirac_apply' _ (MeasurableSet.singleton _),
      Measure.dirac_apply' _ (MeasurableSet.singleton _)]
    simp [h01]
  let x0 : Fin 2 → Fin 1 → ℝ := ![fun _ => 0, fun _ => 1]
  have hpi : (Measure.pi fun _ : Fin 2 => P) {x0} = ENNReal.ofReal (1 / 4) := by
    rw [Measure.pi_singleton, Fin.prod_univ_two]
    simp only [x0, Matrix.cons_val_zero, Matrix.cons_val_one]
    rw [hP0, hP1, ← ENNReal.ofReal_mul (by norm_num)]
    norm_num
  have hpr : (independentSamples P P 2 2).real {(x0, x0)} = 1 / 16 := by
    unfold independentSamples
    rw [← Set.singleton_prod_singleton, Measure.real, Measure.prod_prod, hpi, ENNReal.toReal_mul, ENNReal.toReal_ofReal (by norm_num)]
    norm_num
  have : IsProbabilityMeasure (independentSamples P P 2 2) := by unfold independentSamples; infer_instance
  rw [← hpr]
  refine measureReal_mono ?_
  rintro z hz
  obtain rfl : z = (x0, x0) := hz
  refine ⟨_, by rw [MmdTester.estimate_eq t (by norm_num) (by norm_num), MmdTester.fromValues_eq t (by norm_num) (by norm_num)], ?_⟩
  refine lt_of_lt_of_le ?_ (le_max_left _ _)
  show (0 : ℝ) < _
  have hmean : (∑ i, t.quad (MmdTester.group (x0, x0) i)) / ((min (2 / 2) (2 / 2) : ℕ) : ℝ) = 2 * Real.exp 10 - 2 := by
    have : (∑ i : Fin (min (2 / 2) (2 / 2)), t.quad (MmdTester.group (x0, x0) i)) = 2 * Real.exp 10 - 2 := by
      show (∑ i : Fin 1, t.quad (MmdTester.group (x0, x0) i)) = _
      rw [Fin.sum_univ_one]
      simp [MmdTester.quad, MmdTester.pairwise, MmdTester.group, htdef, x0]
      ring
    rw [this]
    norm_num
  rw [hmean]
  have htol : MmdTester.tol0 (min (2 / 2) (2 / 2)) 0.01 ≤ 10 := by
    unfold MmdTester.tol0
    rw [Real.sqrt_le_iff]
    refine ⟨by norm_num, ?_⟩
    have h1 : Real.log (1 / 0.01) ≤ 10 := by
      rw [Real.log_le_iff_le_exp (by norm_num)]
      have := Real.add_one_le_exp (5 : ℝ)
      have e : Real.exp 10 = Real.exp 5 * Real.exp 5 := by rw [← Real.exp_add]; norm_num
      have e5 : (6 : ℝ) ≤ Real.exp 5 := by linarith
      have h25 : Real.exp 5 = Real.exp 1 ^ 5 := by rw [← Real.exp_nat_mul]; norm_num
      have hbig : (2.7 : ℝ) ^ 5 ≤ Real.exp 1 ^ 5 := pow_le_pow_left₀ (by norm_num) (by linarith [Real.exp_one_gt_d9]) 5
      norm_num at hbig ⊢
      nlinarith
    norm_num at h1 ⊢
    linarith
  have hbig : (100 : ℝ) ≤ Real.exp 10 := by
    have h10 : Real.exp 10 = Real.exp 1 ^ 10 := by rw [← Real.exp_nat_mul]; norm_num
    have : (2 : ℝ) ^ 10 ≤ Real.exp 1 ^ 10 := pow_le_pow_left₀ (by norm_num) (by linarith [Real.exp_one_gt_d9]) 10
    norm_num at this
    linarith
  unfold MmdTester.boundOf
  have hte : t.epsilon = 1 := rfl
  rw [hte]
  have hv0 := Real.exp_pos (-1 : ℝ)
  have hv1 : Real.exp (-1 : ℝ) < 1 := Real.exp_lt_one_iff.2 (by norm_num)
  have hu1 := Real.exp_one_gt_d9
  have hu2 := Real.exp_one_lt_d9
  set u := Real.exp 1
  set v := Real.exp (-1 : ℝ)
  refine div_pos ?_ (by linarith)
  rw [sub_pos, Real.lt_sqrt (by linarith)]
  refine lt_of_lt_of_le ?_ (le_max_right _ _)
  have h9 : (u - 1) ^ 2 < 4 := by nlinarith
  have : 0 < (1 + v) * (2 * Real.exp 10 - 2 - MmdTester.tol0 (min (2 / 2) (2 / 2)) 0.01 - (u - 1) ^ 2) :=
    mul_pos (by linarith) (by linarith)
  linarith

end Verif.Props
