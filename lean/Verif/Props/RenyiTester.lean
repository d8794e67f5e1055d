import Verif.Props.MmdTester
import Verif.Proofs.RenyiTester
import Verif.Proofs.PureRenyi
import Verif.Proofs.RenyiGauss
import Mathlib.Analysis.Complex.ExponentialBounds

/-!
# C68: the Rényi tester
-/

namespace Verif.Props

open Spec Testers MeasureTheory

open Classical in
theorem Aux.positive_num (x : ℝ) : Validation.positive (some (.num x)) = if 0 < x then .ok () else .error .valueError := by
  unfold Validation.positive
  by_cases h1 : 0 < x
  · have e1 : ¬PyFloat.falsy (some (.num x)) := by
      show ¬((x : EReal) = 0)
      exact_mod_cast h1.ne'
    rw [if_neg e1, if_pos h1]
    exact if_neg (show ¬((x : EReal) ≤ 0) by exact_mod_cast not_le.2 h1)
  · rw [if_neg h1]
    by_cases h0 : x = 0
    · exact if_pos (show (x : EReal) = 0 by exact_mod_cast h0)
    · have e1 : ¬PyFloat.falsy (some (.num x)) := by
        show ¬((x : EReal) = 0)
        exact_mod_cast h0
      rw [if_neg e1]
      exact if_pos (show (x : EReal) ≤ 0 by exact_mod_cast not_lt.1 h1)

open Classical in
theorem Aux.renyiDp_num (epsilon alpha : ℝ) : Validation.renyiDp (some (.num epsilon)) (some (.num alpha)) =
    if 0 < epsilon ∧ 1 < alpha then .ok () else .error .valueError := by
  have hα : (if PyFloat.falsy (some (.num alpha)) then .error .valueError
      else if PyFloat.le (.num alpha) (.num 1) then .error .valueError else .ok () : Except Err Unit) =
        if 1 < alpha then .ok () else .error .valueError := by
    by_cases h2 : 1 < alpha
    · have e1 : ¬PyFloat.falsy (some (.num alpha)) := by
        show ¬((alpha : EReal) = 0)
        have : alpha ≠ 0 := by linarith
        exact_mod_cast this
      rw [if_neg e1, if_pos h2]
      exact if_neg (show ¬((alpha : EReal) ≤ 1) by exact_mod_cast not_le.2 h2)
    · have e2 : PyFloat.le (.num alpha) (.num 1) := show (alpha : EReal) ≤ 1 by exact_mod_cast not_lt.1 h2
      rw [if_pos e2, ite_self, if_neg h2]
  unfold Validation.renyiDp Validation.epsilonParameter
  rw [Aux.positive_num]
  by_cases h1 : 0 < epsilon
  · simp only [h1, if_true, true_and]
    exact hα
  · simp only [h1, if_false, false_and]
    rfl

open Classical in
theorem Aux.trainingConfig_num (a b c d : ℝ) :
    Validation.trainingConfig (some (.num a)) (some (.num b)) (some (.num c)) (some (.num d)) =
      if 0 < a ∧ 0 < b ∧ 0 < c ∧ 0 < d then .ok () else .error .valueError := by
  unfold Validation.trainingConfig
  simp only [Aux.positive_num]
  by_cases h1 : 0 < a <;> by_cases h2 : 0 < b <;> by_cases h3 : 0 < c <;> by_cases h4 : 0 < d <;>
    simp only [h1, h2, h3, h4, if_true, if_false, and_true, and_false] <;> rfl

open Classical in
/-- **C68 (construction).** For Rényi differential privacy the constructor accepts exactly a positive `epsilon`, an order above one that is
also the one in the configuration, and positive training parameters; for pure differential privacy it asks the same except for the order,
which it does not check. Anything else is a `ValueError`. The threshold is `epsilon`, respectively `min(epsilon, 2 alpha epsilon²)`. -/
theorem C68_init {S : Type} (property : TestedProperty) (configAlpha learningRate epochs batchSize bound : ℝ)
    (network : List S → List S → S → ℝ) :
    renyiTester property configAlpha learningRate epochs batchSize bound network =
      if 0 < learningRate ∧ 0 < epochs ∧ 0 < batchSize ∧ 0 < bound then
        match property with
        | .renyiDp epsilon alpha =>
          if 0 < epsilon ∧ 1 < alpha ∧ configAlpha = alpha then .ok ⟨epsilon, alpha, bound, network⟩ else .error .valueError
        | .pureDp epsilon =>
          if 0 < epsilon then .ok ⟨min epsilon (2 * configAlpha * epsilon ^ 2), configAlpha, bound, network⟩ else .error .valueError
        | .approximateDp _ _ => .error .valueError
      else .error .valueError := by
  unfold renyiTester
  cases property with
  | renyiDp epsilon alpha =>
    simp only [Aux.renyiDp_num, Aux.trainingConfig_num]
    by_cases h : 0 < learningRate ∧ 0 < epochs ∧ 0 < batchSize ∧ 0 < bound <;> by_cases h1 : 0 < epsilon <;> by_cases h3 : 1 < alpha <;>
      by_cases h2 : configAlpha = alpha <;>
      simp only [h, h1, h2, h3, if_true, if_false, and_true, and_false, ne_eq, not_true_eq_false, not_false_eq_true] <;> rfl
  | pureDp epsilon =>
    simp only [Validation.pureDp, Validation.epsilonParameter, Aux.positive_num, Aux.trainingConfig_num]
    by_cases h : 0 < learningRate ∧ 0 < epochs ∧ 0 < batchSize ∧ 0 < bound <;> by_cases h1 : 0 < epsilon <;>
      simp only [h, h1, if_true, if_false, and_true] <;> rfl
  | approximateDp epsilon delta =>
    simp

/-- What the constructor guarantees for Rényi differential privacy. -/
theorem Aux.renyi_ok {S : Type} {epsilon alpha configAlpha learningRate epochs batchSize bound : ℝ} {network : List S → List S → S → ℝ}
    {t : RenyiTester S} (ht : renyiTester (.renyiDp epsilon alpha) configAlpha learningRate epochs batchSize bound network = .ok t) :
    1 < alpha ∧ 0 < bound ∧ t = ⟨epsilon, alpha, bound, network⟩ := by
  rw [C68_init] at ht
  split_ifs at ht with h
  simp only at ht
  split_ifs at ht with h1
  exact ⟨h1.2.1, h.2.2.2, (Except.ok.inj ht).symm⟩

/-- What the constructor guarantees for pure differential privacy. -/
theorem Aux.pure_ok {S : Type} {epsilon configAlpha learningRate epochs batchSize bound : ℝ} {network : List S → List S → S → ℝ}
    {t : RenyiTester S} (ht : renyiTester (.pureDp epsilon) configAlpha learningRate epochs batchSize bound network = .ok t) :
    0 < epsilon ∧ 0 < bound ∧ t = ⟨min epsilon (2 * configAlpha * epsilon ^ 2), configAlpha, bound, network⟩ := by
  rw [C68_init] at ht
  split_ifs at ht with h
  simp only at ht
  split_ifs at ht with h1
  exact ⟨h1, h.2.2.2, (Except.ok.inj ht).symm⟩

/-- **C68 (soundness).** Whatever the training makes of the training samples, if the Rényi divergence of order `alpha` between the two
distributions is at most `epsilon`, the tester rejects with probability at most the failure probability. -/
theorem C68_sound {S : Type} [MeasurableSpace S] {epsilon alpha configAlpha learningRate epochs batchSize bound : ℝ}
    {network : List S → List S → S → ℝ} {t : RenyiTester S}
    (ht : renyiTester (.renyiDp epsilon alpha) configAlpha learningRate epochs batchSize bound network = .ok t)
    (hm : ∀ a b : ℕ, Measurable fun z : ((Fin a → S) × (Fin b → S)) × S => network (List.ofFn z.1.1) (List.ofFn z.1.2) z.2)
    {P Q : Measure S} [IsProbabilityMeasure P] [IsProbabilityMeasure Q] (h : renyiDiv alpha P Q ≤ (epsilon : EReal)) (n1 n2 : ℕ) {fp : ℝ}
    (hf0 : 0 < fp) (hf1 : fp ≤ 1) :
    (independentSamples P Q n1 n2).real
      {z | ∃ b, t.estimateLowerBound (List.ofFn z.1) (List.ofFn z.2) fp = .ok b ∧ t.rejectProperty b} ≤ fp := by
  obtain ⟨h1, h2, rfl⟩ := Aux.renyi_ok ht
  exact RenyiTester.sound (t := ⟨epsilon, alpha, bound, network⟩) hm h1 h2 h n1 n2 hf0 hf1

/-- **C68 (lower bound).** For any two distributions, the returned value exceeds the Rényi divergence of order `alpha` between them with
probability at most the failure probability. -/
theorem C68_lower_bound {S : Type} [MeasurableSpace S] {epsilon alpha configAlpha learningRate epochs batchSize bound : ℝ}
    {network : List S → List S → S → ℝ} {t : RenyiTester S}
    (ht : renyiTester (.renyiDp epsilon alpha) configAlpha learningRate epochs batchSize bound network = .ok t)
    (hm : ∀ a b : ℕ, Measurable fun z : ((Fin a → S) × (Fin b → S)) × S => network (List.ofFn z.1.1) (List.ofFn z.1.2) z.2)
    (P Q : Measure S) [IsProbabilityMeasure P] [IsProbabilityMeasure Q] (n1 n2 : ℕ) {fp : ℝ} (hf0 : 0 < fp) (hf1 : fp ≤ 1) :
    (independentSamples P Q n1 n2).real
      {z | ∃ b, t.estimateLowerBound (List.ofFn z.1) (List.ofFn z.2) fp = .ok b ∧ PyFloat.lt (.num (renyiDiv alpha P Q)) b} ≤ fp := by
  obtain ⟨h1, h2, rfl⟩ := Aux.renyi_ok ht
  have hnn : ∀ r : ℝ, renyiDiv alpha P Q ≤ (r : EReal) → -1 ≤ r := fun r hr => by
    have := RenyiTester.value_le h1 hr (g := fun _ => 0) measurable_const one_pos (by simp)
    unfold renyiValue at this
    simp at this
    linarith
  have : IsProbabilityMeasure (independentSamples P Q n1 n2) := by unfold independentSamples; infer_instance
  induction hD : renyiDiv alpha P Q using EReal.rec with
  | bot =>
    have := hnn (-2) (by rw [hD]; exact bot_le)
    norm_num at this
  | coe r => exact RenyiTester.sound (t := ⟨epsilon, alpha, bound, network⟩) hm h1 h2 (le_of_eq hD) n1 n2 hf0 hf1
  | top =>
    refine le_trans (le_of_eq ?_) hf0.le
    rw [measureReal_eq_zero_iff]
    convert measure_empty (μ := independentSamples P Q n1 n2)
    rw [Set.eq_empty_iff_forall_notMem]
    rintro z ⟨b, -, hb⟩
    cases b with
    | nan => exact hb
    | num x => exact not_top_lt (a := x) hb

/-- **C68 (soundness for pure differential privacy).** With an order above one: if the mechanism is `epsilon`-differentially private on the
two datasets, the tester rejects with probability at most the failure probability. -/
theorem C68_sound_pure {S : Type} [MeasurableSpace S] {epsilon configAlpha learningRate epochs batchSize bound : ℝ}
    {network : List S → List S → S → ℝ} {t : RenyiTester S}
    (ht : renyiTester (.pureDp epsilon) configAlpha learningRate epochs batchSize bound network = .ok t) (hα : 1 < configAlpha)
    (hm : ∀ a b : ℕ, Measurable fun z : ((Fin a → S) × (Fin b → S)) × S => network (List.ofFn z.1.1) (List.ofFn z.1.2) z.2)
    {P Q : Measure S} [IsProbabilityMeasure P] [IsProbabilityMeasure Q] (h : Indist P Q epsilon 0) (h' : Indist Q P epsilon 0) (n1 n2 : ℕ)
    {fp : ℝ} (hf0 : 0 < fp) (hf1 : fp ≤ 1) :
    (independentSamples P Q n1 n2).real
      {z | ∃ b, t.estimateLowerBound (List.ofFn z.1) (List.ofFn z.2) fp = .ok b ∧ t.rejectProperty b} ≤ fp := by
  obtain ⟨h1, h2, rfl⟩ := Aux.pure_ok ht
  exact RenyiTester.sound (t := ⟨min epsilon (2 * configAlpha * epsilon ^ 2), configAlpha, bound, network⟩) hm hα h2 (PureRenyi.renyi_le h1 h h' hα) n1 n2 hf0 hf1

/-- **C68 (power).** For any two distributions, except with probability `fp` the returned value is at least the value `V` of the trained
function (whose supremum over all functions is the divergence), less `2 log(1 + γ) - (2α - 1)/(α - 1) log(1 - γ)`, if the number `γ` of the
code is below one. -/
theorem C68_power {S : Type} [MeasurableSpace S] {epsilon alpha configAlpha learningRate epochs batchSize bound : ℝ}
    {network : List S → List S → S → ℝ} {t : RenyiTester S}
    (ht : renyiTester (.renyiDp epsilon alpha) configAlpha learningRate epochs batchSize bound network = .ok t)
    (hm : ∀ a b : ℕ, Measurable fun z : ((Fin a → S) × (Fin b → S)) × S => network (List.ofFn z.1.1) (List.ofFn z.1.2) z.2)
    (P Q : Measure S) [IsProbabilityMeasure P] [IsProbabilityMeasure Q] (n1 n2 n : ℕ) (h12 : n1 / 2 = n2 / 2) (h1 : 2 ≤ n1)
    (hn : n = min (n1 - n1 / 2) (n2 - n2 / 2)) {fp γ : ℝ} (hf0 : 0 < fp) (hf1 : fp ≤ 1)
    (hγ : γ = max √(3 * Real.log (2 / fp) * Real.exp (2 * (alpha - 1) * bound) / n) √(2 * Real.log (2 / fp) * Real.exp (2 * alpha * bound) / n))
    (hγ1 : γ < 1) :
    (independentSamples P Q n1 n2).real
      {z | ¬∃ b : ℝ, t.estimateLowerBound (List.ofFn z.1) (List.ofFn z.2) fp = .ok (.num b) ∧
        renyiValue alpha (fun x => bound * Real.tanh (network ((List.ofFn z.1).take (n1 / 2)) ((List.ofFn z.2).take (n2 / 2)) x)) P Q +
          (2 * alpha - 1) / (alpha - 1) * Real.log (1 - γ) - 2 * Real.log (1 + γ) ≤ b} ≤ fp := by
  obtain ⟨h3, h4, rfl⟩ := Aux.renyi_ok ht
  exact RenyiTester.power (t := ⟨epsilon, alpha, bound, network⟩) hm h3 h4 P Q n1 n2 n h12 h1 hn hf0 hf1 hγ hγ1

/-- A Gaussian mechanism with sensitivity and standard deviation one, tested for `(2, 1)`-Rényi privacy with a network that depends on
the training samples. -/
example : ∃ t, renyiTester (S := ℝ) (.renyiDp 1 2) 2 0.01 10 100 1 (fun l1 l2 x => (l1.sum - l2.sum) * x) = .ok t ∧
    (independentSamples (ProbabilityTheory.gaussianReal 1 1) (ProbabilityTheory.gaussianReal 0 1) 4000 4000).real
      {z | ∃ b, t.estimateLowerBound (List.ofFn z.1) (List.ofFn z.2) 0.05 = .ok b ∧ t.rejectProperty b} ≤ 0.05 := by
  have ht := C68_init (S := ℝ) (.renyiDp 1 2) 2 0.01 10 100 1 (fun l1 l2 x => (l1.sum - l2.sum) * x)
  rw [if_pos ⟨by norm_num, by norm_num, by norm_num, by norm_num⟩] at ht
  simp only at ht
  rw [if_pos ⟨by norm_num, by norm_num, trivial⟩] at ht
  refine ⟨_, ht, C68_sound ht (fun a b => ?_) ?_ 4000 4000 (by norm_num) (by norm_num)⟩
  · simp only [List.sum_ofFn]
    fun_prop
  · rw [renyi_gaussian' (by norm_num) 1 one_ne_zero]
    norm_num

/-- Randomized response, tested for pure differential privacy. -/
example : ∃ t, renyiTester (S := Fin 1 → ℝ) (.pureDp (Real.log 2)) 2 0.01 10 100 1 (fun _ _ x => x 0) = .ok t ∧
    (haveI := Aux.rr_prob 0 1; haveI := Aux.rr_prob 1 0;
      (independentSamples (Aux.rr 0 1) (Aux.rr 1 0) 4000 4000).real
        {z | ∃ b, t.estimateLowerBound (List.ofFn z.1) (List.ofFn z.2) 0.05 = .ok b ∧ t.rejectProperty b} ≤ 0.05) := by
  have := Aux.rr_prob 0 1
  have := Aux.rr_prob 1 0
  have ht := C68_init (S := Fin 1 → ℝ) (.pureDp (Real.log 2)) 2 0.01 10 100 1 (fun _ _ x => x 0)
  rw [if_pos ⟨by norm_num, by norm_num, by norm_num, by norm_num⟩] at ht
  simp only at ht
  rw [if_pos (Real.log_pos (by norm_num))] at ht
  exact ⟨_, ht, C68_sound_pure ht (by norm_num) (fun a b => by fun_prop) (Aux.rr_indist 0 1) (Aux.rr_indist 1 0) 4000 4000 (by norm_num)
    (by norm_num)⟩

/-- The condition of the power theorem for order 2, bound 1 and 2000 test samples. -/
example : max √(3 * Real.log (2 / 0.05) * Real.exp (2 * (2 - 1) * 1) / (2000 : ℕ)) √(2 * Real.log (2 / 0.05) * Real.exp (2 * 2 * 1) / (2000 : ℕ)) <
    1 := by
  have h4 : Real.exp 4 = Real.exp 1 ^ 4 := by rw [← Real.exp_nat_mul]; norm_num
  have h2 : Real.exp 2 = Real.exp 1 ^ 2 := by rw [← Real.exp_nat_mul]; norm_num
  have u4 : Real.exp 1 ^ 4 ≤ 2.7183 ^ 4 := pow_le_pow_left₀ (Real.exp_pos 1).le (by linarith [Real.exp_one_lt_d9]) 4
  have u2 : Real.exp 1 ^ 2 ≤ 2.7183 ^ 2 := pow_le_pow_left₀ (Real.exp_pos 1).le (by linarith [Real.exp_one_lt_d9]) 2
  have hL0 : 0 ≤ Real.log (2 / 0.05) := Real.log_nonneg (by norm_num)
  have hL : Real.log (2 / 0.05) ≤ 4 := by
    rw [Real.log_le_iff_le_exp (by norm_num), h4]
    have : (2.718 : ℝ) ^ 4 ≤ Real.exp 1 ^ 4 := pow_le_pow_left₀ (by norm_num) (by linarith [Real.exp_one_gt_d9]) 4
    norm_num at this ⊢
    linarith
  have hb : ∀ k E : ℝ, 0 ≤ k → k ≤ 3 → 0 ≤ E → E ≤ 60 → √(k * Real.log (2 / 0.05) * E / (2000 : ℕ)) < 1 := by
    intro k E hk0 hk hE0 hE
    rw [Real.sqrt_lt' one_pos, div_lt_iff₀ (by norm_num)]
    have h1 := mul_le_mul (mul_le_mul hk hL hL0 (by norm_num)) hE hE0 (by norm_num)
    refine h1.trans_lt ?_
    norm_num
  refine max_lt (hb 3 _ (by norm_num) le_rfl (Real.exp_pos _).le ?_) (hb 2 _ (by norm_num) (by norm_num) (Real.exp_pos _).le ?_)
  · rw [show (2 * (2 - 1) * 1 : ℝ) = 2 by norm_num, h2]
    norm_num at u2
    linarith
  · rw [show (2 * 2 * 1 : ℝ) = 4 by norm_num, h4]
    norm_num at u4
    linarith

/-- **C68, violated by the code for orders below zero,** which the constructor accepts when testing pure differential privacy. With order
`-1` the threshold for `epsilon = 1` is `-2`, and the tester always rejects a mechanism with a constant output, for which the
estimate is zero. -/
theorem C68_alpha_violated {S : Type} [MeasurableSpace S] [MeasurableSingletonClass S] (s : S) (network : List S → List S → S → ℝ) :
    ∃ t, renyiTester (.pureDp 1) (-1) 0.01 10 100 1 network = .ok t ∧
      (independentSamples (Measure.dirac s) (Measure.dirac s) 200 200).real
        {z | ∃ b, t.estimateLowerBound (List.ofFn z.1) (List.ofFn z.2) 0.1 = .ok b ∧ t.rejectProperty b} = 1 := by
  have ht := C68_init (S := S) (.pureDp 1) (-1) 0.01 10 100 1 network
  rw [if_pos ⟨by norm_num, by norm_num, by norm_num, by norm_num⟩] at ht
  simp only at ht
  rw [if_pos (by norm_num)] at ht
  refine ⟨_, ht, ?_⟩
  set t : RenyiTester S := ⟨min 1 (2 * -1 * 1 ^ 2), -1, 1, network⟩
  have hp : IsProbabilityMeasure (independentSamples (Measure.dirac s) (Measure.dirac s) 200 200) := by
    unfold independentSamples; infer_instance
  have hpr : (independentSamples (Measure.dirac s) (Measure.dirac s) 200 200).real {((fun _ => s), fun _ => s)} = 1 := by
    unfold independentSamples
    rw [← Set.singleton_prod_singleton, Measure.real, Measure.prod_prod, Measure.pi_singleton]
    simp
  refine le_antisymm measureReal_le_one (hpr.symm.le.trans (measureReal_mono ?_))
  rintro z hz
  obtain rfl : z = ((fun _ => s), fun _ => s) := hz
  have hL0 : 0 ≤ Real.log (2 / 0.1) := Real.log_nonneg (by norm_num)
  have hL : Real.log (2 / 0.1) ≤ 3 := by
    rw [Real.log_le_iff_le_exp (by norm_num)]
    have h3 : Real.exp 3 = Real.exp 1 ^ 3 := by rw [← Real.exp_nat_mul]; norm_num
    have : (2.718 : ℝ) ^ 3 ≤ Real.exp 1 ^ 3 := pow_le_pow_left₀ (by norm_num) (by linarith [Real.exp_one_gt_d9]) 3
    norm_num at this ⊢
    linarith
  have hγ : RenyiTester.gamma (min 100 100) 0.1 t.bound t.alpha ≤ 1 / 3 := by
    have hb : ∀ c : ℝ, c ≤ 0 → ∀ k : ℝ, 0 ≤ k → k ≤ 3 → √(k * Real.log (2 / 0.1) * Real.exp c / ((min 100 100 : ℕ) : ℝ)) ≤ 1 / 3 := by
      intro c hc k hk0 hk
      rw [Real.sqrt_le_iff]
      refine ⟨by norm_num, ?_⟩
      have h1 : k * Real.log (2 / 0.1) * Real.exp c ≤ 9 := by
        have h2 := mul_le_mul hk hL hL0 (by norm_num)
        have := mul_le_mul h2 (Real.exp_le_one_iff.2 hc) (Real.exp_pos c).le (by norm_num)
        linarith
      rw [div_le_iff₀ (by norm_num)]
      refine h1.trans ?_
      norm_num
    refine max_le (hb _ ?_ 3 (by norm_num) le_rfl) (hb _ ?_ 2 (by norm_num) (by norm_num)) <;> norm_num [t]
  have hγ0 : 0 ≤ RenyiTester.gamma (min 100 100) 0.1 t.bound t.alpha := le_trans (Real.sqrt_nonneg _) (le_max_left _ _)
  have e := RenyiTester.estimate_eq t (a := 100) (N := 100) (b := 100) (M := 100) (by norm_num) (by norm_num)
    ((fun _ => s), fun _ => s) (fp := 0.1) (by norm_num) (by norm_num) (by norm_num [t])
  rw [if_pos ⟨rfl, by norm_num⟩, if_pos (by linarith)] at e
  refine ⟨_, e, ?_⟩
  set γ := RenyiTester.gamma (min 100 100) 0.1 t.bound t.alpha
  have hest : ∀ g : S → ℝ, RenyiTester.estimate t.alpha g (N := 100) (M := 100) ((fun _ => s), fun _ => s) = 0 := by
    intro g
    have hmean : ∀ c : ℝ, RenyiTester.mean c g (N := 100) (fun _ => s) = Real.exp (c * g s) := fun c => by
      unfold RenyiTester.mean
      simp
    unfold RenyiTester.estimate
    rw [hmean, hmean, Real.log_exp, Real.log_exp]
    norm_num [t]
    ring
  have hlog : Real.log ((1 + γ) / (1 - γ)) ≤ 1 := by
    rw [Real.log_le_iff_le_exp (div_pos (by linarith) (by linarith))]
    refine le_trans ?_ (by linarith [Real.exp_one_gt_d9] : (2 : ℝ) ≤ Real.exp 1)
    rw [div_le_iff₀ (by linarith)]
    linarith
  show ((min 1 (2 * -1 * 1 ^ 2) : ℝ) : EReal) < _
  rw [EReal.coe_lt_coe_iff]
  have h2 := hest (t.output (List.ofFn (RenyiTester.parts (a := 100) (N := 100) (b := 100) (M := 100) ((fun _ => s), fun _ => s)).1.1)
    (List.ofFn (RenyiTester.parts (a := 100) (N := 100) (b := 100) (M := 100) ((fun _ => s), fun _ => s)).1.2))
  refine lt_of_lt_of_le ?_ (le_of_eq (congrArg (fun v => v - Real.log ((1 + γ) / (1 - γ))) h2.symm))
  norm_num
  linarith

end Verif.Props
