import Verif.Proofs.RdpAccountant
import Verif.Spec.EventMeaning

/-!
# C42: effective noise multiplier of nested Gaussian events
-/

namespace Verif.Props
open Verif Verif.Spec

/-- `1/z²` for a Gaussian event with noise multiplier `z`. -/
noncomputable def precision : DpEvent → ℝ
  | .gaussian (.float x) => 1 / x ^ 2
  | _ => 0

theorem scale_pos {x : ℝ} (hx : 0 < x) {m : ℤ} (hm : 1 ≤ m) :
    0 < x * (m : ℝ) ^ (-(1 / 2) : ℝ) ∧
    1 / (x * (m : ℝ) ^ (-(1 / 2) : ℝ)) ^ 2 = m * (1 / x ^ 2) := by
  have hm0 : (0 : ℝ) < m := by exact_mod_cast (by omega : 0 < m)
  refine ⟨by positivity, ?_⟩
  have : ((m : ℝ) ^ (-(1 / 2) : ℝ)) ^ 2 = (m : ℝ)⁻¹ := by
    rw [← Real.rpow_natCast, ← Real.rpow_mul hm0.le, ← Real.rpow_neg_one]
    norm_num
  rw [mul_pow, this]
  field_simp

mutual
theorem effNoise_spec : ∀ (e : DpEvent), FloatGaussians e →
    ∃ z : ℝ, 0 < z ∧ effNoise e = .ok (.num (.float z)) ∧ 1 / z ^ 2 = ((expand e).map precision).sum
  | .gaussian (.float x), h => ⟨x, h, by simp [effNoise], by simp [expand, precision]⟩
  | .gaussian (.int _), h => by simp [FloatGaussians] at h
  | .gaussian .inf, h => by simp [FloatGaussians] at h
  | .selfComposed e m, h => by
      rw [FloatGaussians] at h
      obtain ⟨z, hz, he, hs⟩ := effNoise_spec e h.2
      obtain ⟨hp, heq⟩ := scale_pos hz h.1
      refine ⟨_, hp, ?_, ?_⟩
      · simp [effNoise, he, PyNum.isFloat, EffNoise.scale, show ¬ m = 0 by omega, show ¬ m < 0 by omega]
      · rw [heq, hs, expand, RdpAccountant.sum_repeatList, nsmul_eq_mul]
        congr 1
        have : ((m.toNat : ℤ) : ℝ) = m := by rw [Int.toNat_of_nonneg (by omega)]
        exact_mod_cast this.symm
  | .composed es, h => by
      rw [FloatGaussians] at h
      obtain ⟨z, hz, he, hs⟩ := effNoiseLoop_spec es h.2 0 le_rfl (Or.inr h.1)
      exact ⟨z, hz, by simpa [effNoise] using he, by simpa [expand] using hs⟩
  | .noOp, h | .nonPrivate, h | .unsupported, h | .randomizedResponse _ _, h | .laplace _, h
  | .poissonSampled _ _, h | .sampledWithReplacement _ _ _, h | .sampledWithoutReplacement _ _ _, h
  | .singleEpochTreeAggregation _ _, h | .repeatAndSelect _ _ _, h | .mixtureOfGaussians _ _ _, h => by
      simp [FloatGaussians] at h
theorem effNoiseLoop_spec : ∀ (es : List DpEvent), FloatGaussiansL es → ∀ acc : ℝ, 0 ≤ acc → (0 < acc ∨ es ≠ []) →
    ∃ z : ℝ, 0 < z ∧ effNoiseLoop es acc = .ok (.num (.float z)) ∧
      1 / z ^ 2 = acc + ((expandList es).map precision).sum
  | [], _, acc, _, hne => by
      have h0 : 0 < acc := by simpa using hne
      refine ⟨acc ^ (-(1 / 2) : ℝ), by positivity, ?_, ?_⟩
      · simp [effNoiseLoop, EffNoise.invSqrt, h0.ne', Except.map]
      · rw [← Real.rpow_natCast, ← Real.rpow_mul h0.le]
        norm_num [Real.rpow_neg_one, expandList]
  | e :: es, h, acc, hacc, _ => by
      rw [FloatGaussiansL] at h
      obtain ⟨z, hz, he, hs⟩ := effNoise_spec e h.1
      have hv : EffNoise.invSq (.float z) = .ok (1 / z ^ 2) := by
        simp [EffNoise.invSq, hz.ne', zpow_neg, zpow_ofNat]
      have hpos : 0 < 1 / z ^ 2 := by positivity
      obtain ⟨w, hw, hl, hsum⟩ := effNoiseLoop_spec es h.2 (acc + 1 / z ^ 2) (by positivity) (Or.inl (by positivity))
      refine ⟨w, hw, ?_, ?_⟩
      · simp [effNoiseLoop, he, PyNum.isFloat]
        rw [hv]
        simpa using hl
      · rw [hsum, hs, expandList, List.map_append, List.sum_append]; ring
end

/-- **C42 (partial).** For any nesting of Gaussian events with positive float noise multipliers, positive counts and
non-empty compositions, the effective noise multiplier `z` satisfies `1/z² = Σ 1/zᵢ²` over all Gaussian applications the
event stands for.  Missing: int noise multipliers (for which the claim is false, see below) and infinite ones. -/
theorem C42_effective_noise_partial (e : DpEvent) (he : FloatGaussians e) :
    ∃ z : ℝ, 0 < z ∧ effNoise e = .ok (.num (.float z)) ∧ 1 / z ^ 2 = ((expand e).map precision).sum :=
  effNoise_spec e he

example : FloatGaussians (.selfComposed (.composed [.gaussian (.float 2), .selfComposed (.gaussian (.float 1)) 3]) 2) ∧
    ((expand (.selfComposed (.composed [.gaussian (.float 2), .selfComposed (.gaussian (.float 1)) 3]) 2)).map
      precision).sum = 13 / 2 := by
  constructor
  · simp [FloatGaussians, FloatGaussiansL]
  · simp [expand, expandList, repeatList, precision]; norm_num

/-- **C42, disagreement.** With an int noise multiplier the count is ignored (`rdp_privacy_accountant.py:577-578`:
`isinstance(sigma, float)` is false): a million compositions get the noise multiplier of one. -/
theorem C42_int_count_ignored (z m : ℤ) : effNoise (.selfComposed (.gaussian (.int z)) m) = .ok (.num (.int z)) := by
  simp [effNoise, PyNum.isFloat]

/-- **C42, disagreement.** With an int noise multiplier in a composition, all events after it are ignored, even
non-private ones: the sampled event is accepted with the noise of the first int Gaussian. -/
theorem C42_int_rest_ignored (z : ℤ) (es : List DpEvent) :
    effNoise (.composed (.gaussian (.int z) :: es)) = .ok (.num (.int z)) := by
  simp [effNoise, effNoiseLoop, PyNum.isFloat]

/-- Consequence on the public API: a Poisson-sampled composition of an int-noise Gaussian and a `NonPrivate` event is
"supported" and accounted exactly like the Gaussian alone. -/
theorem C42_nonprivate_hidden_by_int {n : ℕ} (F : RdpFns n) (s : Arr n) (q : PyNum) (z c : ℤ) :
    RdpAccountant.maybeCompose F .addOrRemoveOne (.poissonSampled q (.composed [.gaussian (.int z), .nonPrivate])) c true s
      = RdpAccountant.maybeCompose F .addOrRemoveOne (.poissonSampled q (.gaussian (.int z))) c true s := by
  simp [RdpAccountant.maybeCompose, effNoise, effNoiseLoop, PyNum.isFloat]

end Verif.Props
