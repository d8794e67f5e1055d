import Verif.Proofs.SignedSelect
import Verif.Spec.Privacy
import Mathlib.Analysis.Convex.SpecificFunctions.Basic

/-! # Proofs: Renyi divergence of repeat-and-select with a Poisson number of runs -/

namespace Verif.Spec
open MeasureTheory ProbabilityTheory
open scoped ENNReal

lemma poisson_nonneg {μ : ℝ} (hμ : 0 ≤ μ) (k : ℕ) : 0 ≤ poisson μ k := by unfold poisson; positivity

lemma poisson_hasSum (μ : ℝ) : HasSum (poisson μ) 1 := by
  have h := (NormedSpace.expSeries_div_hasSum_exp (𝔸 := ℝ) μ).mul_left (Real.exp (-μ))
  rw [← Real.exp_eq_exp_ℝ, ← Real.exp_add, neg_add_cancel, Real.exp_zero] at h
  exact h.congr_fun' fun k => by unfold poisson; ring

lemma poisson_term (μ : ℝ) (k : ℕ) : ((k : ℝ) + 1) * poisson μ (k + 1) = μ * Real.exp (-μ) * (μ ^ k / k.factorial) := by
  unfold poisson
  rw [Nat.factorial_succ, pow_succ]
  have : (k.factorial : ℝ) ≠ 0 := by positivity
  have h2 : (k : ℝ) + 1 ≠ 0 := by positivity
  push_cast
  field_simp

lemma poisson_pgf_hasSum (μ x : ℝ) : HasSum (fun k : ℕ => ((k : ℝ) + 1) * poisson μ (k + 1) * x ^ k) (μ * Real.exp (μ * (x - 1))) := by
  have h := (NormedSpace.expSeries_div_hasSum_exp (𝔸 := ℝ) (μ * x)).mul_left (μ * Real.exp (-μ))
  rw [← Real.exp_eq_exp_ℝ, mul_assoc μ, ← Real.exp_add, show -μ + μ * x = μ * (x - 1) by ring] at h
  exact h.congr_fun' fun k => by rw [poisson_term, mul_pow]; ring

lemma poisson_pgf {μ x : ℝ} (hμ : 0 ≤ μ) (hx : 0 ≤ x) : pgf' (poisson μ) x = ENNReal.ofReal (μ * Real.exp (μ * (x - 1))) := by
  have hs := poisson_pgf_hasSum μ x
  unfold pgf'
  rw [← hs.tsum_eq, ENNReal.ofReal_tsum_of_nonneg (fun k => mul_nonneg (mul_nonneg (by positivity) (poisson_nonneg hμ _)) (pow_nonneg hx _)) hs.summable]
  refine tsum_congr fun k => ?_
  rw [← ENNReal.ofReal_mul (poisson_nonneg hμ _)]
  congr 1
  ring

/-- `avg_pow` for arguments of any sign. -/
lemma avg_pow_real (a b : ℝ) (k : ℕ) : ∫ t, ((k : ℝ) + 1) * (a + t * (b - a)) ^ k ∂unif = ∑ i ∈ Finset.range (k + 1), a ^ i * b ^ (k - i) := by
  have hc : Continuous fun t : ℝ => ((k : ℝ) + 1) * (a + t * (b - a)) ^ k := by fun_prop
  unfold unif
  rw [← intervalIntegral.integral_of_le zero_le_one]
  by_cases hab : a = b
  · subst hab
    simp only [sub_self, mul_zero, add_zero, intervalIntegral.integral_const, sub_zero, one_smul]
    have : ∀ i ∈ Finset.range (k + 1), a ^ i * a ^ (k - i) = a ^ k := by
      intro i hi
      rw [← pow_add]
      congr 1
      have := Finset.mem_range.1 hi
      omega
    rw [Finset.sum_congr rfl this, Finset.sum_const, Finset.card_range, nsmul_eq_mul]
    push_cast
    ring
  · have hba : b - a ≠ 0 := sub_ne_zero.2 (Ne.symm hab)
    have hd : ∀ t ∈ Set.uIcc (0 : ℝ) 1, HasDerivAt (fun t => (a + t * (b - a)) ^ (k + 1) / (b - a)) (((k : ℝ) + 1) * (a + t * (b - a)) ^ k) t := by
      intro t _
      have h1 : HasDerivAt (fun t => a + t * (b - a)) (b - a) t := by
        simpa using ((hasDerivAt_id t).mul_const (b - a)).const_add a
      have h2 := (h1.pow (k + 1)).div_const (b - a)
      rw [mul_div_cancel_right₀ _ hba, Nat.add_sub_cancel] at h2
      push_cast at h2
      exact h2
    rw [intervalIntegral.integral_eq_sub_of_hasDerivAt hd (hc.intervalIntegrable _ _)]
    have hg := (Commute.all b a).geom_sum₂_mul (k + 1)
    simp only [one_mul, zero_mul, add_zero, add_sub_cancel]
    rw [← sub_div, div_eq_iff hba, ← hg]
    congr 1
    rw [← Finset.sum_range_reflect]
    refine Finset.sum_congr rfl fun i hi => ?_
    have := Finset.mem_range.1 hi
    rw [show k + 1 - 1 - i = k - i by omega, show k + 1 - 1 - (k - i) = i by omega, mul_comm]

variable {Y : Type*} [MeasurableSpace Y] {score : Y → ℝ} {Q : Measure Y} {g : Y → ℝ}

lemma wBest_eq_sum (y : Y) : ∀ k, wBest score Q g k y = ∑ i ∈ Finset.range (k + 1), wLt score Q g y ^ i * wLe score Q g y ^ (k - i)
  | 0 => by simp [wBest]
  | k + 1 => by
    rw [wBest, wBest_eq_sum y k, Finset.sum_range_succ _ (k + 1), Nat.sub_self, pow_zero, mul_one, add_comm, Finset.mul_sum]
    congr 1
    refine Finset.sum_congr rfl fun i hi => ?_
    rw [show k + 1 - i = (k - i) + 1 by have := Finset.mem_range.1 hi; omega, pow_succ]
    ring

/-- `∫ μ exp (μ (x - 1))` over the ranks of an output. -/
noncomputable def poisW (μ : ℝ) (score : Y → ℝ) (Q : Measure Y) (g : Y → ℝ) (y : Y) : ℝ :=
  ∫ t, μ * Real.exp (μ * (wLt score Q g y + t * (wLe score Q g y - wLt score Q g y) - 1)) ∂unif

lemma poisW_hasSum {μ : ℝ} (hμ : 0 ≤ μ) (y : Y) : HasSum (fun k => poisson μ (k + 1) * wBest score Q g k y) (poisW μ score Q g y) := by
  set a := wLt score Q g y with ha
  set b := wLe score Q g y with hb
  have hcont : ∀ k : ℕ, Continuous fun t : ℝ => ((k : ℝ) + 1) * poisson μ (k + 1) * (a + t * (b - a)) ^ k := fun k => by fun_prop
  have hint : ∀ k : ℕ, Integrable (fun t : ℝ => ((k : ℝ) + 1) * poisson μ (k + 1) * (a + t * (b - a)) ^ k) unif :=
    fun k => (hcont k).integrableOn_Ioc
  have hbd : ∀ k : ℕ, ∫ t, ‖((k : ℝ) + 1) * poisson μ (k + 1) * (a + t * (b - a)) ^ k‖ ∂unif ≤ ((k : ℝ) + 1) * poisson μ (k + 1) * (|a| + |b|) ^ k := by
    intro k
    have h1 : ∀ᵐ t ∂unif, ‖((k : ℝ) + 1) * poisson μ (k + 1) * (a + t * (b - a)) ^ k‖ ≤ ((k : ℝ) + 1) * poisson μ (k + 1) * (|a| + |b|) ^ k := by
      unfold unif
      refine (ae_restrict_iff' measurableSet_Ioc).2 (Filter.Eventually.of_forall fun t ht => ?_)
      have hp := poisson_nonneg hμ (k + 1)
      rw [Real.norm_eq_abs, abs_mul, abs_of_nonneg (by positivity : 0 ≤ ((k : ℝ) + 1) * poisson μ (k + 1)), abs_pow]
      have : |a + t * (b - a)| ≤ |a| + |b| := by
        have e : a + t * (b - a) = (1 - t) * a + t * b := by ring
        rw [e]
        refine (abs_add_le _ _).trans ?_
        rw [abs_mul, abs_mul, abs_of_nonneg (by linarith [ht.2] : 0 ≤ 1 - t), abs_of_nonneg ht.1.le]
        nlinarith [ht.1, ht.2, abs_nonneg a, abs_nonneg b]
      gcongr
    calc ∫ t, ‖((k : ℝ) + 1) * poisson μ (k + 1) * (a + t * (b - a)) ^ k‖ ∂unif
        ≤ ∫ _, ((k : ℝ) + 1) * poisson μ (k + 1) * (|a| + |b|) ^ k ∂unif := integral_mono_ae (hint k).norm (integrable_const _) h1
      _ = _ := by simp
  have hsum := hasSum_integral_of_summable_integral_norm hint
    (Summable.of_nonneg_of_le (fun k => integral_nonneg fun _ => norm_nonneg _) hbd (poisson_pgf_hasSum μ (|a| + |b|)).summable)
  have e1 : ∀ t : ℝ, ∑' k : ℕ, ((k : ℝ) + 1) * poisson μ (k + 1) * (a + t * (b - a)) ^ k = μ * Real.exp (μ * (a + t * (b - a) - 1)) :=
    fun t => (poisson_pgf_hasSum μ (a + t * (b - a))).tsum_eq
  simp only [e1] at hsum
  refine hsum.congr_fun' fun k => ?_
  rw [wBest_eq_sum, ← ha, ← hb, ← avg_pow_real, ← integral_const_mul]
  refine integral_congr_ae (Filter.Eventually.of_forall fun t => ?_)
  simp only
  ring

lemma measurable_poisW (μ : ℝ) (hs : Measurable score) [SFinite Q] (hgm : Measurable g) : Measurable (poisW μ score Q g) := by
  have h : Measurable fun p : Y × ℝ => μ * Real.exp (μ * (wLt score Q g p.1 + p.2 * (wLe score Q g p.1 - wLt score Q g p.1) - 1)) := by
    have h1 : Measurable fun p : Y × ℝ => wLt score Q g p.1 := (measurable_wLt hs hgm).comp measurable_fst
    have h2 : Measurable fun p : Y × ℝ => wLe score Q g p.1 := (measurable_wLe hs hgm).comp measurable_fst
    fun_prop
  exact (h.stronglyMeasurable.integral_prod_right' (ν := unif)).measurable

/-- The signed total weight of all numbers of runs. -/
lemma poisW_integral {μ : ℝ} (hμ : 0 ≤ μ) (hs : Measurable score) [IsFiniteMeasure Q] (hgm : Measurable g) (hg : Integrable g Q) (h1 : ∫ y, g y ∂Q = 1) :
    ∫ y, poisW μ score Q g y * g y ∂Q = 1 - Real.exp (-μ) := by
  set G := ∫ z, |g z| ∂Q with hG
  have hG0 : 0 ≤ G := integral_nonneg fun _ => abs_nonneg _
  have hint : ∀ k : ℕ, Integrable (fun y => poisson μ (k + 1) * (wBest score Q g k y * g y)) Q := fun k => (integrable_wBest hs hgm hg k).const_mul _
  have hbd : ∀ k : ℕ, ∫ y, ‖poisson μ (k + 1) * (wBest score Q g k y * g y)‖ ∂Q ≤ ((k : ℝ) + 1) * poisson μ (k + 1) * G ^ k * G := by
    intro k
    have hp := poisson_nonneg hμ (k + 1)
    calc ∫ y, ‖poisson μ (k + 1) * (wBest score Q g k y * g y)‖ ∂Q
        ≤ ∫ y, ((k : ℝ) + 1) * poisson μ (k + 1) * G ^ k * |g y| ∂Q := by
          refine integral_mono (hint k).norm (hg.abs.const_mul _) fun y => ?_
          simp only [Real.norm_eq_abs, abs_mul, abs_of_nonneg hp]
          have := abs_wBest_le (score := score) hg y k
          rw [← hG] at this
          calc poisson μ (k + 1) * (|wBest score Q g k y| * |g y|) ≤ poisson μ (k + 1) * (((k : ℝ) + 1) * G ^ k * |g y|) := by gcongr
            _ = _ := by ring
      _ = _ := by rw [integral_const_mul]
  have hsum := hasSum_integral_of_summable_integral_norm hint
    (Summable.of_nonneg_of_le (fun k => integral_nonneg fun _ => norm_nonneg _) hbd ((poisson_pgf_hasSum μ G).summable.mul_right G))
  have e1 : ∀ y, ∑' k : ℕ, poisson μ (k + 1) * (wBest score Q g k y * g y) = poisW μ score Q g y * g y := by
    intro y
    have := (poisW_hasSum (score := score) (Q := Q) (g := g) hμ y).mul_right (g y)
    rw [← this.tsum_eq]
    exact tsum_congr fun k => by ring
  simp only [e1] at hsum
  have e2 : ∀ k : ℕ, ∫ y, poisson μ (k + 1) * (wBest score Q g k y * g y) ∂Q = poisson μ (k + 1) := by
    intro k
    have := wBest_integral hs hgm hg k Set.univ MeasurableSet.univ (fun _ _ _ _ => Set.mem_univ _)
    rw [setIntegral_univ, setIntegral_univ, h1, one_pow] at this
    rw [integral_const_mul, this, mul_one]
  simp only [e2] at hsum
  have h2 := (hasSum_nat_add_iff' (f := poisson μ) 1).2 (poisson_hasSum μ)
  simp only [Finset.range_one, Finset.sum_singleton] at h2
  rw [show poisson μ 0 = Real.exp (-μ) by simp [poisson]] at h2
  exact hsum.unique h2

end Verif.Spec
