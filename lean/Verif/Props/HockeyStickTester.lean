import Verif.Proofs.HockeyStickTester
import Mathlib.Analysis.Complex.ExponentialBounds

/-!
# C56 and C65: the hockey-stick tester
-/

namespace Verif.Props

open Spec Testers MeasureTheory

/-- **C56 (conversion).** On examples with label 0 and a sample of `P` with probability `1 / (1 + e^ε)`, and otherwise label 1 and a sample
of `Q`, two distributions satisfy `P S ≤ e^ε Q S + δ` for all events exactly if no classifier has an accuracy that the tester converts to
a number above `δ`. -/
theorem C56_conversion {S : Type*} [MeasurableSpace S] {P Q : Measure S} [IsProbabilityMeasure P] [IsProbabilityMeasure Q]
    (epsilon delta : ℝ) :
    Indist P Q epsilon delta ↔ ∀ h : S → Bool, Measurable h →
      (labelled P Q (1 / (1 + Real.exp epsilon))).real {e | h e.1 = e.2} * (1 + Real.exp epsilon) - Real.exp epsilon ≤ delta := by
  have hu := Real.exp_pos epsilon
  have hc0 : 0 ≤ 1 / (1 + Real.exp epsilon) := by positivity
  have hc1 : 0 ≤ 1 - 1 / (1 + Real.exp epsilon) := by
    rw [sub_nonneg, div_le_one (by positivity)]
    linarith
  have key : ∀ h : S → Bool, Measurable h →
      (labelled P Q (1 / (1 + Real.exp epsilon))).real {e | h e.1 = e.2} * (1 + Real.exp epsilon) - Real.exp epsilon =
        P.real {s | h s = false} - Real.exp epsilon * Q.real {s | h s = false} := by
    intro h hh
    have hE : MeasurableSet {e : S × Bool | h e.1 = e.2} := measurableSet_eq_fun (hh.comp measurable_fst) measurable_snd
    have hm : ∀ v : Bool, Measurable fun s : S => (s, v) := fun v => measurable_id.prodMk measurable_const
    have hA : MeasurableSet {s | h s = false} := hh (MeasurableSet.singleton false)
    have hq : Q.real {s | h s = true} = 1 - Q.real {s | h s = false} := by
      have e : {s | h s = true} = {s | h s = false}ᶜ := by ext s; simp
      rw [e, probReal_compl_eq_one_sub hA]
    have e1 : (labelled P Q (1 / (1 + Real.exp epsilon))).real {e | h e.1 = e.2} =
        1 / (1 + Real.exp epsilon) * P.real {s | h s = false} + (1 - 1 / (1 + Real.exp epsilon)) * Q.real {s | h s = true} := by
      unfold labelled
      rw [Measure.real, Measure.add_apply, Measure.smul_apply, Measure.smul_apply, Measure.map_apply (hm _) hE,
        Measure.map_apply (hm _) hE, smul_eq_mul, smul_eq_mul, ENNReal.toReal_add (by finiteness) (by finiteness),
        ENNReal.toReal_mul, ENNReal.toReal_mul, ENNReal.toReal_ofReal hc0, ENNReal.toReal_ofReal hc1]
      rfl
    rw [e1, hq]
    field_simp
    ring
  constructor
  · intro hi h hh
    rw [key h hh]
    have := hi {s | h s = false} (hh (MeasurableSet.singleton false))
    linarith
  · intro hall A hA
    classical
    have hm : Measurable fun s => decide (s ∉ A) := by
      refine measurable_to_bool ?_
      have : (fun s => decide (s ∉ A)) ⁻¹' {true} = Aᶜ := by ext s; simp
      rw [this]
      exact hA.compl
    have := hall _ hm
    rw [key _ hm] at this
    have e : {s | decide (s ∉ A) = false} = A := by ext s; simp
    rw [e] at this
    linarith

/-- **C65, partial.** With `n` independent samples of each distribution, and whatever way the classifier is trained, the
returned lower bound reaches `δ + (1 + e^ε) (c - ⌊c N⌋ / N)` with probability at most the failure probability. Here `N` is the number of
test samples and `c = 1 / (1 + e^ε)`; the additional term, which comes from rounding the number of examples with label 0, is less than
`(1 + e^ε) / N` and should not be there. -/
theorem C65_sound_partial {S : Type} [MeasurableSpace S] (t : HockeyStickTester S) (ht : t.MeasurableTraining) {P Q : Measure S}
    [IsProbabilityMeasure P] [IsProbabilityMeasure Q] {delta : ℝ} (h : Indist P Q t.epsilon delta) (n N : ℕ) (hN : N = n - n / 2) {fp : ℝ}
    (hf0 : 0 < fp) (hf1 : fp ≤ 1) :
    (independentSamples P Q n n).real
      {z | ∃ b, t.estimateLowerBound (List.ofFn z.1) (List.ofFn z.2) fp = .ok b ∧
        delta + (1 + Real.exp t.epsilon) * (1 / (Real.exp t.epsilon + 1) - ⌊1 / (Real.exp t.epsilon + 1) * N⌋₊ / N) ≤ b} ≤ fp := by
  subst hN
  exact t.sound ht h n hf0 hf1

/-- If the number of examples with label 0 is not rounded, the tester rejects a mechanism satisfying the guarantee with probability at
most the failure probability. -/
theorem C65_reject_partial {S : Type} [MeasurableSpace S] (t : HockeyStickTester S) (ht : t.MeasurableTraining) {P Q : Measure S}
    [IsProbabilityMeasure P] [IsProbabilityMeasure Q] (h : Indist P Q t.epsilon t.delta) (n m : ℕ)
    (hm : ((n - n / 2 : ℕ) : ℝ) = m * (Real.exp t.epsilon + 1)) {fp : ℝ} (hf0 : 0 < fp) (hf1 : fp ≤ 1) :
    (independentSamples P Q n n).real
      {z | ∃ b, t.estimateLowerBound (List.ofFn z.1) (List.ofFn z.2) fp = .ok b ∧ t.rejectProperty b} ≤ fp := by
  have hs := t.sound ht h n hf0 hf1
  have hu : 0 < Real.exp t.epsilon + 1 := by positivity
  have e : t.cutoff * ((n - n / 2 : ℕ) : ℝ) = m := by
    unfold HockeyStickTester.cutoff
    rw [hm]
    field_simp
  rw [e, Nat.floor_natCast, hm] at hs
  have : IsProbabilityMeasure (independentSamples P Q n n) := by unfold independentSamples; infer_instance
  refine (measureReal_mono ?_).trans hs
  rintro z ⟨b, hb, hr⟩
  refine ⟨b, hb, le_trans (le_of_eq ?_) (le_of_lt hr)⟩
  rcases Nat.eq_zero_or_pos m with rfl | hpos
  · -- no test samples: the tester raises
    exfalso
    rw [Nat.cast_zero, zero_mul] at hm
    have hn : n = 0 := by
      have : n - n / 2 = 0 := by exact_mod_cast hm
      omega
    subst hn
    simp [HockeyStickTester.estimateLowerBound, Testers.split, HockeyStickTester.divergenceOnSamples, HockeyStickTester.inputs] at hb
  · have hm0 : (m : ℝ) ≠ 0 := by exact_mod_cast hpos.ne'
    unfold HockeyStickTester.cutoff
    field_simp
    ring

example : (independentSamples (Measure.dirac (0 : ℝ)) (Measure.dirac 0) 400 400).real
    {z | ∃ b, (HockeyStickTester.mk 0 0.1 fun _ _ s => decide (s < (3 : ℝ))).estimateLowerBound (List.ofFn z.1) (List.ofFn z.2) 0.05 = .ok b ∧
      (HockeyStickTester.mk 0 0.1 fun _ _ s => decide (s < (3 : ℝ))).rejectProperty b} ≤ 0.05 := by
  refine C65_reject_partial (HockeyStickTester.mk 0 0.1 fun _ _ s => decide (s < (3 : ℝ))) (fun a b => ?_) (fun A _ => ?_) 400 100
    (by norm_num) (by norm_num) (by norm_num)
  · refine measurable_to_bool ?_
    have : (fun z : ((Fin a → ℝ) × (Fin b → ℝ)) × ℝ => decide (z.2 < (3 : ℝ))) ⁻¹' {true} = {z | z.2 < 3} := by ext z; simp
    rw [this]
    exact measurableSet_lt measurable_snd measurable_const
  · simp only [Real.exp_zero]
    linarith

/-- **C65, violated by the code for different numbers of samples.** The label proportions are right only if both sample
arrays have the same length. For 2000 and 200 samples of any two distributions, in particular of the same one, a classifier that always
answers 0 makes the tester for `ε = 0`, `δ = 1/2` reject, at failure probability 0.05, on all samples. -/
theorem C65_sizes_violated {S : Type} (samples1 samples2 : List S) (h1 : samples1.length = 2000) (h2 : samples2.length = 200) :
    ∃ b, (HockeyStickTester.mk 0 0.5 fun _ _ (_ : S) => false).estimateLowerBound samples1 samples2 0.05 = .ok b ∧
      (HockeyStickTester.mk 0 0.5 fun _ _ (_ : S) => false).rejectProperty b := by
  set t : HockeyStickTester S := HockeyStickTester.mk 0 0.5 fun _ _ _ => false with ht
  have e1 : Testers.split samples1 = .ok (samples1.take 1000, samples1.drop 1000) := by
    unfold Testers.split; simp [h1]
  have e2 : Testers.split samples2 = .ok (samples2.take 100, samples2.drop 100) := by
    unfold Testers.split; simp [h2]
  have hc : t.cutoff = 1 / 2 := by
    unfold HockeyStickTester.cutoff
    rw [ht]
    norm_num
  have l1 : (samples1.drop 1000).length = 1000 := by rw [List.length_drop, h1]
  have l2 : (samples2.drop 100).length = 100 := by rw [List.length_drop, h2]
  have f1 : ⌊t.cutoff * ((samples1.drop 1000).length : ℝ)⌋₊ = 500 := by
    rw [hc, l1, show (1 / 2 * ((1000 : ℕ) : ℝ)) = ((500 : ℕ) : ℝ) by norm_num, Nat.floor_natCast]
  have f2 : ⌊t.cutoff * ((samples2.drop 100).length : ℝ)⌋₊ = 50 := by
    rw [hc, l2, show (1 / 2 * ((100 : ℕ) : ℝ)) = ((50 : ℕ) : ℝ) by norm_num, Nat.floor_natCast]
  have hlen : (t.inputs (samples1.drop 1000) (samples2.drop 100)).length = 550 := by
    unfold HockeyStickTester.inputs
    rw [f1, f2, List.length_append, List.length_map, List.length_map, List.length_take, l1, List.length_drop, l2]
    norm_num
  have hacc : HockeyStickTester.accuracy (fun _ => false) (t.inputs (samples1.drop 1000) (samples2.drop 100)) = 500 / 550 := by
    unfold HockeyStickTester.accuracy
    rw [hlen]
    unfold HockeyStickTester.inputs
    rw [f1, f2, List.countP_append, List.countP_map, List.countP_map]
    have c1 : ((samples1.drop 1000).take 500).countP ((fun e : S × Bool => decide (false = e.2)) ∘ fun s => (s, false)) = 500 := by
      rw [List.countP_eq_length.2 (fun s _ => by simp), List.length_take, l1]
      rfl
    have c2 : ((samples2.drop 100).drop 50).countP ((fun e : S × Bool => decide (false = e.2)) ∘ fun s => (s, true)) = 0 := by
      rw [List.countP_eq_zero]
      simp
    rw [c1, c2]
    norm_num
  refine ⟨(500 / 550 - HockeyStickTester.confidenceBound 1 100 (1 - 0.05)) * (1 + 1) - 1, ?_, ?_⟩
  · unfold HockeyStickTester.estimateLowerBound
    rw [e1, e2]
    show t.divergenceOnSamples (fun _ => false) (samples1.drop 1000) (samples2.drop 100) 0.05 = _
    unfold HockeyStickTester.divergenceOnSamples
    dsimp only
    rw [hlen, if_neg (by norm_num), if_neg (by norm_num), hacc, l1, l2]
    have : t.epsilon = 0 := rfl
    rw [this, Real.exp_zero]
    norm_num
  · show _ > (0.5 : ℝ)
    unfold HockeyStickTester.confidenceBound
    have hlog : Real.log (1 / (1 - (1 - 0.05 : ℝ))) ≤ 3.466 := by
      have h32 : Real.log (1 / (1 - (1 - 0.05 : ℝ))) ≤ Real.log ((2 : ℝ) ^ 5) := Real.log_le_log (by norm_num) (by norm_num)
      rw [Real.log_pow] at h32
      have := Real.log_two_lt_d9
      push_cast at h32
      linarith
    have hs : √(Real.log (1 / (1 - (1 - 0.05 : ℝ))) / 2 / (100 : ℕ)) ≤ 0.132 := by
      rw [Real.sqrt_le_left (by norm_num)]
      push_cast
      linarith
    linarith

/-- **C65, violated by the code for very few samples.** With two samples of each distribution the rounding leaves one
test example, always with label 1. A classifier that always answers 1 makes the tester for `ε = 1`, `δ = 0.1` reject on all samples,
although the failure probability is 0.9. -/
theorem C65_rounding_violated {S : Type} (samples1 samples2 : List S) (h1 : samples1.length = 2) (h2 : samples2.length = 2) :
    ∃ b, (HockeyStickTester.mk 1 0.1 fun _ _ (_ : S) => true).estimateLowerBound samples1 samples2 0.9 = .ok b ∧
      (HockeyStickTester.mk 1 0.1 fun _ _ (_ : S) => true).rejectProperty b := by
  set t : HockeyStickTester S := HockeyStickTester.mk 1 0.1 fun _ _ _ => true with ht
  have e1 : Testers.split samples1 = .ok (samples1.take 1, samples1.drop 1) := by
    unfold Testers.split; simp [h1]
  have e2 : Testers.split samples2 = .ok (samples2.take 1, samples2.drop 1) := by
    unfold Testers.split; simp [h2]
  have he := Real.exp_one_gt_d9
  have he' := Real.exp_one_lt_d9
  have l1 : (samples1.drop 1).length = 1 := by rw [List.length_drop, h1]
  have l2 : (samples2.drop 1).length = 1 := by rw [List.length_drop, h2]
  have hcut : ⌊t.cutoff * ((1 : ℕ) : ℝ)⌋₊ = 0 := by
    rw [Nat.floor_eq_zero, Nat.cast_one, mul_one]
    unfold HockeyStickTester.cutoff
    have : t.epsilon = 1 := rfl
    rw [this, div_lt_one (by linarith)]
    linarith
  have hlen : (t.inputs (samples1.drop 1) (samples2.drop 1)).length = 1 :=
    HockeyStickTester.inputs_length t _ _ l1 l2
  have hacc : HockeyStickTester.accuracy (fun _ => true) (t.inputs (samples1.drop 1) (samples2.drop 1)) = 1 := by
    unfold HockeyStickTester.accuracy
    rw [hlen]
    unfold HockeyStickTester.inputs
    rw [l1, l2, hcut, List.countP_append, List.countP_map, List.countP_map, List.take_zero, List.drop_zero]
    have c2 : (samples2.drop 1).countP ((fun e : S × Bool => decide (true = e.2)) ∘ fun s => (s, true)) = 1 := by
      rw [List.countP_eq_length.2 (fun s _ => by simp), l2]
    rw [c2]
    simp
  refine ⟨(1 - HockeyStickTester.confidenceBound 1 1 (1 - 0.9)) * (1 + Real.exp 1) - Real.exp 1, ?_, ?_⟩
  · unfold HockeyStickTester.estimateLowerBound
    rw [e1, e2]
    show t.divergenceOnSamples (fun _ => true) (samples1.drop 1) (samples2.drop 1) 0.9 = _
    unfold HockeyStickTester.divergenceOnSamples
    dsimp only
    rw [hlen, if_neg (by norm_num), if_neg (by norm_num), hacc, l1, l2]
    rfl
  · show _ > (0.1 : ℝ)
    unfold HockeyStickTester.confidenceBound
    have hlog : Real.log (1 / (1 - (1 - 0.9 : ℝ))) ≤ 1 / 9 := by
      have := Real.log_le_sub_one_of_pos (x := 1 / (1 - (1 - 0.9 : ℝ))) (by norm_num)
      refine this.trans (by norm_num)
    have hs : √(Real.log (1 / (1 - (1 - 0.9 : ℝ))) / 2 / (1 : ℕ)) ≤ 0.236 := by
      rw [Real.sqrt_le_left (by norm_num)]
      push_cast
      linarith
    nlinarith

end Verif.Props
