import Verif.Spec.Mechanisms
import Verif.Proofs.RenyiGauss
import Verif.Proofs.PldCtor

/-! # Rényi divergence of finitely supported measures -/

namespace Verif.Spec
open MeasureTheory

variable {O : Type*} [MeasurableSpace O] [MeasurableSingletonClass O]

lemma lintegral_finMeasure (S : Finset O) (p : O → ℝ) (h : O → ENNReal) :
    ∫⁻ o, h o ∂finMeasure S p = ∑ o ∈ S, ENNReal.ofReal (p o) * h o := by
  unfold finMeasure
  rw [lintegral_finsetSum_measure]
  refine Finset.sum_congr rfl fun o _ => ?_
  rw [lintegral_smul_measure, lintegral_dirac, smul_eq_mul]

instance (S : Finset O) (p : O → ℝ) : IsFiniteMeasure (finMeasure S p) := by
  constructor
  rw [← setLIntegral_one, Measure.restrict_univ, lintegral_finMeasure]
  exact ENNReal.sum_lt_top.2 fun o _ => by simp

lemma finMeasure_withDensity [Countable O] (S : Finset O) (f g : O → ℝ) (hg : ∀ o ∈ S, 0 < g o) :
    finMeasure S f = (finMeasure S g).withDensity fun o => ENNReal.ofReal (f o / g o) := by
  ext s hs
  rw [withDensity_apply _ hs, ← setLIntegral_one, ← lintegral_indicator hs, ← lintegral_indicator hs, lintegral_finMeasure,
    lintegral_finMeasure]
  refine Finset.sum_congr rfl fun o ho => ?_
  by_cases h : o ∈ s
  · rw [Set.indicator_of_mem h, Set.indicator_of_mem h, ← ENNReal.ofReal_mul (hg o ho).le, mul_div_cancel₀ _ (hg o ho).ne',
      mul_one]
  · rw [Set.indicator_of_notMem h, Set.indicator_of_notMem h]; simp

lemma finMeasure_ac [Countable O] (S : Finset O) (f g : O → ℝ) (hg : ∀ o ∈ S, 0 < g o) : finMeasure S f ≪ finMeasure S g := by
  rw [finMeasure_withDensity S f g hg]
  exact withDensity_absolutelyContinuous _ _

/-- `D_α = log (∑ f (f/g)^(α-1)) / (α-1)`, written with `g (f/g)^α`. -/
lemma renyi_finMeasure [Countable O] {α : ℝ} (hα : 1 < α) (S : Finset O) (f g : O → ℝ) (hf : ∀ o ∈ S, 0 ≤ f o)
    (hg : ∀ o ∈ S, 0 < g o) (hpos : 0 < ∑ o ∈ S, g o * (f o / g o) ^ α) :
    renyiDiv α (finMeasure S f) (finMeasure S g) = ((Real.log (∑ o ∈ S, g o * (f o / g o) ^ α) / (α - 1) : ℝ) : EReal) := by
  refine renyiDiv_eq hα (finMeasure_ac S f g hg) ?_
  rw [mul_div_cancel₀ _ (by linarith), Real.exp_log hpos]
  rw [finMeasure_withDensity S f g hg, renyiMoment_withDensity _ _ (measurable_of_countable _), lintegral_finMeasure,
    ENNReal.ofReal_sum_of_nonneg fun o ho => mul_nonneg (hg o ho).le (Real.rpow_nonneg (div_nonneg (hf o ho) (hg o ho).le) _)]
  refine Finset.sum_congr rfl fun o ho => ?_
  rw [ENNReal.ofReal_mul (hg o ho).le, ENNReal.ofReal_rpow_of_nonneg (div_nonneg (hf o ho) (hg o ho).le) (by linarith)]

lemma finMeasure_singleton (S : Finset O) (p : O → ℝ) {o : O} (ho : o ∈ S) : finMeasure S p {o} = ENNReal.ofReal (p o) := by
  classical
  rw [← setLIntegral_one, ← lintegral_indicator (measurableSet_singleton o), lintegral_finMeasure]
  rw [Finset.sum_eq_single o]
  · simp
  · intro b _ hb
    simp [hb]
  · intro h; exact absurd ho h

/-- Not absolutely continuous: some outcome has no mass under the second measure only. -/
lemma renyi_finMeasure_top {α : ℝ} (hα : 1 < α) (S : Finset O) (f g : O → ℝ) {o : O} (ho : o ∈ S) (hf : 0 < f o) (hg : g o = 0) :
    renyiDiv α (finMeasure S f) (finMeasure S g) = ⊤ := by
  unfold renyiDiv
  rw [if_neg hα.ne', if_neg]
  intro h
  have h0 : finMeasure S g {o} = 0 := by rw [finMeasure_singleton S g ho, hg]; simp
  have h1 := h h0
  rw [finMeasure_singleton S f ho] at h1
  exact absurd (ENNReal.ofReal_eq_zero.1 h1) (not_le.2 hf)

end Verif.Spec
