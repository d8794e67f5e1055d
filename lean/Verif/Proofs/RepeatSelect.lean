import Verif.Spec.RepeatSelect
import Verif.Proofs.RenyiMono
import Mathlib.MeasureTheory.Integral.IntervalIntegral.FundThmCalculus
import Mathlib.Analysis.SpecialFunctions.Integrals.Basic
import Mathlib.Algebra.Order.Ring.GeomSum

/-! # Proofs: the output distribution of repeat-and-select -/

namespace Verif.Spec
open MeasureTheory ProbabilityTheory
open scoped ENNReal

variable {Y : Type*} [MeasurableSpace Y] {score : Y → ℝ}

lemma measurable_pick (hs : Measurable score) : Measurable (pick score) := by
  unfold pick
  exact Measurable.ite (measurableSet_lt (hs.comp measurable_fst) (hs.comp measurable_snd)) measurable_snd measurable_fst

lemma bestLaw_prob (hs : Measurable score) (P : Measure Y) [IsProbabilityMeasure P] : ∀ k, IsProbabilityMeasure (bestLaw score P k)
  | 0 => by unfold bestLaw; infer_instance
  | k + 1 => by
    have := bestLaw_prob hs P k
    unfold bestLaw
    exact Measure.isProbabilityMeasure_map (measurable_pick hs).aemeasurable

/-- Probability of a worse run. -/
noncomputable def below (score : Y → ℝ) (P : Measure Y) (y : Y) : ℝ≥0∞ := P {z | score z < score y}

/-- Probability of a run that is not better. -/
noncomputable def upTo (score : Y → ℝ) (P : Measure Y) (y : Y) : ℝ≥0∞ := P {z | score z ≤ score y}

lemma bestLaw_lt (hs : Measurable score) (P : Measure Y) [IsProbabilityMeasure P] (c : ℝ) :
    ∀ k, bestLaw score P k {z | score z < c} = P {z | score z < c} ^ (k + 1)
  | 0 => by simp [bestLaw]
  | k + 1 => by
    have := bestLaw_prob hs P k
    have hm : MeasurableSet {z | score z < c} := measurableSet_lt hs measurable_const
    unfold bestLaw
    rw [Measure.map_apply (measurable_pick hs) hm]
    have : pick score ⁻¹' {z | score z < c} = {z | score z < c} ×ˢ {z | score z < c} := by
      ext ⟨x, y⟩
      simp only [Set.mem_preimage, Set.mem_setOf_eq, Set.mem_prod, pick]
      split_ifs with h
      · exact ⟨fun h' => ⟨by linarith, h'⟩, fun h' => h'.2⟩
      · exact ⟨fun h' => ⟨h', by linarith⟩, fun h' => h'.1⟩
    rw [this, Measure.prod_prod, bestLaw_lt hs P c k, pow_succ (P {z | score z < c}) (k + 1)]

/-- Density of the best of `k + 1` runs. -/
noncomputable def bestDens (score : Y → ℝ) (P : Measure Y) : ℕ → Y → ℝ≥0∞
  | 0, _ => 1
  | k + 1, y => below score P y ^ (k + 1) + upTo score P y * bestDens score P k y

lemma measurable_below (hs : Measurable score) (P : Measure Y) [IsProbabilityMeasure P] : Measurable (below score P) := by
  have hm : MeasurableSet {p : Y × Y | score p.2 < score p.1} := measurableSet_lt (hs.comp measurable_snd) (hs.comp measurable_fst)
  exact measurable_measure_prodMk_left hm

lemma measurable_upTo (hs : Measurable score) (P : Measure Y) [IsProbabilityMeasure P] : Measurable (upTo score P) := by
  have hm : MeasurableSet {p : Y × Y | score p.2 ≤ score p.1} := measurableSet_le (hs.comp measurable_snd) (hs.comp measurable_fst)
  exact measurable_measure_prodMk_left hm

lemma measurable_bestDens (hs : Measurable score) (P : Measure Y) [IsProbabilityMeasure P] : ∀ k, Measurable (bestDens score P k)
  | 0 => measurable_const
  | k + 1 => ((measurable_below hs P).pow_const _).add ((measurable_upTo hs P).mul (measurable_bestDens hs P k))

lemma bestLaw_lintegral (hs : Measurable score) (P : Measure Y) [IsProbabilityMeasure P] :
    ∀ (k : ℕ) (f : Y → ℝ≥0∞), Measurable f → ∫⁻ y, f y ∂bestLaw score P k = ∫⁻ y, f y * bestDens score P k y ∂P
  | 0, f, _ => by simp [bestLaw, bestDens]
  | k + 1, f, hf => by
    have := bestLaw_prob hs P k
    unfold bestLaw
    have hm : MeasurableSet {p : Y × Y | score p.1 < score p.2} := measurableSet_lt (hs.comp measurable_fst) (hs.comp measurable_snd)
    have hm' : MeasurableSet {p : Y × Y | score p.1 < score p.2}ᶜ := hm.compl
    have hsplit : ∀ p : Y × Y, f (pick score p) = ({p : Y × Y | score p.1 < score p.2}.indicator (fun p => f p.2) p) +
        ({p : Y × Y | score p.1 < score p.2}ᶜ.indicator (fun p => f p.1) p) := by
      intro p
      unfold pick
      by_cases h : score p.1 < score p.2 <;> simp [Set.indicator, h]
    rw [lintegral_map hf (measurable_pick hs)]
    simp only [hsplit]
    have hmi : Measurable ({p : Y × Y | score p.1 < score p.2}.indicator fun p => f p.2) := (hf.comp measurable_snd).indicator hm
    rw [lintegral_add_left hmi]
    have h1 : ∫⁻ p, {p : Y × Y | score p.1 < score p.2}.indicator (fun p => f p.2) p ∂(bestLaw score P k).prod P =
        ∫⁻ y, f y * below score P y ^ (k + 1) ∂P := by
      rw [lintegral_prod_symm _ hmi.aemeasurable]
      refine lintegral_congr fun y => ?_
      have e : ∀ x, {p : Y × Y | score p.1 < score p.2}.indicator (fun p => f p.2) (x, y) = {z | score z < score y}.indicator (fun _ => f y) x := by
        intro x
        by_cases h : score x < score y <;> simp [Set.indicator, h]
      simp only [e]
      rw [lintegral_indicator_const (measurableSet_lt hs measurable_const), bestLaw_lt hs]
      rfl
    have h2 : ∫⁻ p, {p : Y × Y | score p.1 < score p.2}ᶜ.indicator (fun p => f p.1) p ∂(bestLaw score P k).prod P =
        ∫⁻ y, f y * (upTo score P y * bestDens score P k y) ∂P := by
      have hmi' : Measurable ({p : Y × Y | score p.1 < score p.2}ᶜ.indicator fun p => f p.1) := (hf.comp measurable_fst).indicator hm'
      rw [lintegral_prod _ hmi'.aemeasurable]
      have e : ∀ x y, {p : Y × Y | score p.1 < score p.2}ᶜ.indicator (fun p => f p.1) (x, y) = {z | score z ≤ score x}.indicator (fun _ => f x) y := by
        intro x y
        by_cases h : score x < score y
        · simp [Set.indicator, h]
        · simp [Set.indicator, h, not_lt.1 h]
      simp only [e]
      have e2 : ∀ x, ∫⁻ y, {z | score z ≤ score x}.indicator (fun _ => f x) y ∂P = f x * upTo score P x := by
        intro x
        rw [lintegral_indicator_const (measurableSet_le hs measurable_const)]
        rfl
      simp only [e2]
      refine (bestLaw_lintegral hs P k (fun x => f x * upTo score P x) (hf.mul (measurable_upTo hs P))).trans ?_
      refine lintegral_congr fun y => ?_
      ring
    have hmb : Measurable fun y => f y * below score P y ^ (k + 1) := hf.mul ((measurable_below hs P).pow_const _)
    rw [h1, h2, ← lintegral_add_left hmb]
    refine lintegral_congr fun y => ?_
    show _ = f y * (below score P y ^ (k + 1) + upTo score P y * bestDens score P k y)
    ring

/-- Density of the output of repeat-and-select. -/
noncomputable def selDens (p : ℕ → ℝ) (score : Y → ℝ) (P : Measure Y) (y : Y) : ℝ≥0∞ :=
  ∑' k, ENNReal.ofReal (p (k + 1)) * bestDens score P k y

lemma measurable_selDens (p : ℕ → ℝ) (hs : Measurable score) (P : Measure Y) [IsProbabilityMeasure P] : Measurable (selDens p score P) :=
  Measurable.ennreal_tsum fun k => (measurable_bestDens hs P k).const_mul _

lemma repeatSelect_lintegral (p : ℕ → ℝ) (hs : Measurable score) (P : Measure Y) [IsProbabilityMeasure P] (f : Unit ⊕ Y → ℝ≥0∞) (hf : Measurable f) :
    ∫⁻ y, f y ∂repeatSelect p score P = ENNReal.ofReal (p 0) * f (Sum.inl ()) + ∫⁻ y, f (Sum.inr y) * selDens p score P y ∂P := by
  unfold repeatSelect selDens
  rw [lintegral_add_measure, lintegral_smul_measure, lintegral_dirac' _ hf, lintegral_sum_measure, smul_eq_mul]
  congr 1
  have hfi : Measurable fun y => f (Sum.inr y) := hf.comp measurable_inr
  have e : ∀ k, ∫⁻ y, f y ∂(ENNReal.ofReal (p (k + 1)) • (bestLaw score P k).map Sum.inr) =
      ∫⁻ y, f (Sum.inr y) * (ENNReal.ofReal (p (k + 1)) * bestDens score P k y) ∂P := by
    intro k
    have hmm : Measurable fun y => f (Sum.inr y) * bestDens score P k y := hfi.mul (measurable_bestDens hs P k)
    rw [lintegral_smul_measure, lintegral_map hf measurable_inr, bestLaw_lintegral hs P k _ hfi, smul_eq_mul, ← lintegral_const_mul _ hmm]
    refine lintegral_congr fun y => ?_
    ring
  simp only [e]
  have hmm : ∀ k, Measurable fun y => f (Sum.inr y) * (ENNReal.ofReal (p (k + 1)) * bestDens score P k y) :=
    fun k => hfi.mul ((measurable_bestDens hs P k).const_mul _)
  rw [← lintegral_tsum fun k => (hmm k).aemeasurable]
  refine lintegral_congr fun y => ?_
  rw [ENNReal.tsum_mul_left]

/-! ### The density as an average of the derivative of the generating function -/

/-- `∑ k, (k + 1) p (k + 1) x ^ k`. -/
noncomputable def pgf' (p : ℕ → ℝ) (x : ℝ) : ℝ≥0∞ := ∑' k : ℕ, ENNReal.ofReal (p (k + 1)) * ENNReal.ofReal ((k + 1) * x ^ k)

/-- The uniform distribution on `[0, 1]`. -/
noncomputable def unif : Measure ℝ := volume.restrict (Set.Ioc 0 1)

instance : IsProbabilityMeasure unif := ⟨by simp [unif]⟩

lemma bestDens_real (P : Measure Y) [IsProbabilityMeasure P] (y : Y) : ∀ k, bestDens score P k y =
    ENNReal.ofReal (∑ i ∈ Finset.range (k + 1), (below score P y).toReal ^ i * (upTo score P y).toReal ^ (k - i))
  | 0 => by simp [bestDens]
  | k + 1 => by
    have hb : below score P y ≠ ⊤ := measure_ne_top _ _
    have hu : upTo score P y ≠ ⊤ := measure_ne_top _ _
    rw [bestDens, bestDens_real P y k, Finset.sum_range_succ _ (k + 1), Nat.sub_self, pow_zero, mul_one,
      ENNReal.ofReal_add (by positivity) (by positivity), ENNReal.ofReal_pow (by positivity), ENNReal.ofReal_toReal hb, add_comm]
    congr 1
    have e : upTo score P y = ENNReal.ofReal (upTo score P y).toReal := (ENNReal.ofReal_toReal hu).symm
    refine (congrArg (· * ENNReal.ofReal _) e).trans ?_
    rw [← ENNReal.ofReal_mul (by positivity), Finset.mul_sum]
    congr 1
    refine Finset.sum_congr rfl fun i hi => ?_
    rw [show k + 1 - i = (k - i) + 1 by have := Finset.mem_range.1 hi; omega, pow_succ]
    ring

lemma avg_pow {a b : ℝ} (h0 : 0 ≤ a) (hab : a ≤ b) (k : ℕ) :
    ∫⁻ t, ENNReal.ofReal ((k + 1) * (a + t * (b - a)) ^ k) ∂unif = ENNReal.ofReal (∑ i ∈ Finset.range (k + 1), a ^ i * b ^ (k - i)) := by
  have hc : Continuous fun t : ℝ => ((k : ℝ) + 1) * (a + t * (b - a)) ^ k := by fun_prop
  have hnn : ∀ t ∈ Set.Ioc (0 : ℝ) 1, 0 ≤ ((k : ℝ) + 1) * (a + t * (b - a)) ^ k := by
    intro t ht
    have : 0 ≤ a + t * (b - a) := add_nonneg h0 (mul_nonneg ht.1.le (by linarith))
    positivity
  unfold unif
  rw [← ofReal_integral_eq_lintegral_ofReal (hc.integrableOn_Ioc) ((ae_restrict_iff' measurableSet_Ioc).2 (Filter.Eventually.of_forall hnn)),
    ← intervalIntegral.integral_of_le zero_le_one]
  congr 1
  rcases hab.eq_or_lt with rfl | hlt
  · simp only [sub_self, mul_zero, add_zero, intervalIntegral.integral_const, sub_zero, one_smul]
    have : ∀ i ∈ Finset.range (k + 1), a ^ i * a ^ (k - i) = a ^ k := by
      intro i hi
      rw [← pow_add]
      congr 1
      have := Finset.mem_range.1 hi
      omega
    rw [Finset.sum_congr rfl this, Finset.sum_const, Finset.card_range, nsmul_eq_mul]
    push_cast
    ring
  · have hd : ∀ t ∈ Set.uIcc (0 : ℝ) 1, HasDerivAt (fun t => (a + t * (b - a)) ^ (k + 1) / (b - a)) (((k : ℝ) + 1) * (a + t * (b - a)) ^ k) t := by
      intro t _
      have h1 : HasDerivAt (fun t => a + t * (b - a)) (b - a) t := by
        simpa using ((hasDerivAt_id t).mul_const (b - a)).const_add a
      have h2 := (h1.pow (k + 1)).div_const (b - a)
      have : b - a ≠ 0 := by linarith
      rw [mul_div_cancel_right₀ _ this, Nat.add_sub_cancel] at h2
      push_cast at h2
      exact h2
    rw [intervalIntegral.integral_eq_sub_of_hasDerivAt hd (hc.intervalIntegrable _ _)]
    have hg := (Commute.all b a).geom_sum₂_mul (k + 1)
    have : b - a ≠ 0 := by linarith
    simp only [one_mul, zero_mul, add_zero, add_sub_cancel]
    rw [← sub_div, div_eq_iff this, ← hg]
    congr 1
    rw [← Finset.sum_range_reflect]
    refine Finset.sum_congr rfl fun i hi => ?_
    have := Finset.mem_range.1 hi
    rw [show k + 1 - 1 - i = k - i by omega, show k + 1 - 1 - (k - i) = i by omega, mul_comm]

lemma selDens_eq (p : ℕ → ℝ) (P : Measure Y) [IsProbabilityMeasure P] (y : Y) : selDens p score P y =
    ∫⁻ t, pgf' p ((below score P y).toReal + t * ((upTo score P y).toReal - (below score P y).toReal)) ∂unif := by
  unfold selDens pgf'
  have hab : (below score P y).toReal ≤ (upTo score P y).toReal :=
    ENNReal.toReal_mono (measure_ne_top _ _) (measure_mono fun z (hz : score z < score y) => (hz.le : score z ≤ score y))
  rw [lintegral_tsum fun k => by fun_prop]
  refine tsum_congr fun k => ?_
  rw [lintegral_const_mul _ (by fun_prop), avg_pow ENNReal.toReal_nonneg hab, bestDens_real]

end Verif.Spec

namespace Verif.Spec
open MeasureTheory ProbabilityTheory
open scoped ENNReal

variable {Y : Type*} [MeasurableSpace Y] {score : Y → ℝ}

/-- Probability of a worse run, where runs of equal score count with weight `t`. -/
noncomputable def rankAt (score : Y → ℝ) (P : Measure Y) (y : Y) (t : ℝ) : ℝ :=
  (below score P y).toReal + t * ((upTo score P y).toReal - (below score P y).toReal)

lemma measurable_pgf' (p : ℕ → ℝ) : Measurable (pgf' p) := Measurable.ennreal_tsum fun k => by fun_prop

/-- A bound on the derivative of the generating function at corresponding arguments is one on the loss of repeat-and-select. -/
lemma repeatSelect_holder {p : ℕ → ℝ} (hp : p 0 = 0) (hs : Measurable score) {P Q : Measure Y} [IsProbabilityMeasure P] [IsProbabilityMeasure Q]
    {α : ℝ} (hα : 1 < α) {C K : ℝ≥0∞} (h : HolderBound α C P Q)
    (hK : ∀ y, ∀ t ∈ Set.Ioc (0 : ℝ) 1, pgf' p (rankAt score P y t) ≤ K * pgf' p (rankAt score Q y t) ^ ((α - 1) / α)) :
    HolderBound α (K * C) (repeatSelect p score P) (repeatSelect p score Q) := by
  intro f hf
  have h0 : 0 < α - 1 := by linarith
  have h1 : 0 < α := by linarith
  set θ := (α - 1) / α with hθ
  have hθ0 : 0 < θ := by positivity
  have hθ1 : θ ≤ 1 := by rw [hθ, div_le_one h1]; linarith
  have hinv : α / (α - 1) = 1 / θ := by rw [hθ, one_div_div]
  have hfp : Measurable fun y => f y ^ (α / (α - 1)) := hf.pow_const _
  have hfi : Measurable fun y => f (Sum.inr y) := hf.comp measurable_inr
  rw [repeatSelect_lintegral p hs P f hf, repeatSelect_lintegral p hs Q _ hfp, hp]
  simp only [ENNReal.ofReal_zero, zero_mul, zero_add]
  have hd : ∀ y, selDens p score P y ≤ K * selDens p score Q y ^ θ := by
    intro y
    rw [selDens_eq, selDens_eq]
    have hm : Measurable fun t => pgf' p (rankAt score Q y t) := (measurable_pgf' p).comp (by unfold rankAt; fun_prop)
    calc ∫⁻ t, pgf' p (rankAt score P y t) ∂unif ≤ ∫⁻ t, K * pgf' p (rankAt score Q y t) ^ θ ∂unif := by
          unfold unif
          exact setLIntegral_mono' measurableSet_Ioc fun t ht => hK y t ht
      _ = K * ∫⁻ t, pgf' p (rankAt score Q y t) ^ θ ∂unif := lintegral_const_mul _ (hm.pow_const _)
      _ ≤ K * (∫⁻ t, pgf' p (rankAt score Q y t) ∂unif) ^ θ := by
          gcongr
          exact lintegral_rpow_le _ hθ0 hθ1 hm
  have hsQ := measurable_selDens p hs Q
  have hmQ : Measurable fun y => f (Sum.inr y) ^ (1 / θ) * selDens p score Q y := (hfi.pow_const _).mul hsQ
  calc ∫⁻ y, f (Sum.inr y) * selDens p score P y ∂P ≤ ∫⁻ y, f (Sum.inr y) * (K * selDens p score Q y ^ θ) ∂P :=
        lintegral_mono fun y => by gcongr; exact hd y
    _ ≤ C * (∫⁻ y, (f (Sum.inr y) * (K * selDens p score Q y ^ θ)) ^ (α / (α - 1)) ∂Q) ^ ((α - 1) / α) :=
        h _ (hfi.mul ((hsQ.pow_const θ).const_mul K))
    _ = K * C * (∫⁻ y, f (Sum.inr y) ^ (α / (α - 1)) * selDens p score Q y ∂Q) ^ ((α - 1) / α) := by
        rw [hinv, ← hθ]
        have e : ∀ y, (f (Sum.inr y) * (K * selDens p score Q y ^ θ)) ^ (1 / θ) = K ^ (1 / θ) * (f (Sum.inr y) ^ (1 / θ) * selDens p score Q y) := by
          intro y
          rw [ENNReal.mul_rpow_of_nonneg _ _ (by positivity), ENNReal.mul_rpow_of_nonneg _ _ (by positivity), ← ENNReal.rpow_mul,
            mul_one_div_cancel hθ0.ne', ENNReal.rpow_one]
          ring
        simp only [e]
        rw [lintegral_const_mul _ hmQ, ENNReal.mul_rpow_of_nonneg _ _ hθ0.le, ← ENNReal.rpow_mul, one_div_mul_cancel hθ0.ne', ENNReal.rpow_one]
        ring

/-- The average of a weight between `1 - g` and one. -/
lemma rankAt_lintegral (hs : Measurable score) (y : Y) {t g : ℝ} (ht : t ∈ Set.Ioc (0 : ℝ) 1)
    (h0 : 0 ≤ g) (h1 : g ≤ 1) : ∃ φ : Y → ℝ, Measurable φ ∧ (∀ z, 0 ≤ φ z) ∧ (∀ z, φ z ≤ 1) ∧
      ∀ (P : Measure Y) [IsProbabilityMeasure P], ∫⁻ z, ENNReal.ofReal (φ z) ∂P = ENNReal.ofReal (1 - g * rankAt score P y t) := by
  have hm1 : MeasurableSet {z | score z < score y} := measurableSet_lt hs measurable_const
  have hm2 : MeasurableSet {z | score z ≤ score y} := measurableSet_le hs measurable_const
  set φ : Y → ℝ := fun z => 1 - g * ((1 - t) * {z | score z < score y}.indicator 1 z + t * {z | score z ≤ score y}.indicator 1 z) with hφ
  have hi1 : Measurable ({z | score z < score y}.indicator (1 : Y → ℝ)) := measurable_one.indicator hm1
  have hi2 : Measurable ({z | score z ≤ score y}.indicator (1 : Y → ℝ)) := measurable_one.indicator hm2
  have hb1 : ∀ z, 0 ≤ {z | score z < score y}.indicator (1 : Y → ℝ) z ∧ {z | score z < score y}.indicator (1 : Y → ℝ) z ≤ 1 := fun z => by
    by_cases h : score z < score y <;> simp [Set.indicator, h]
  have hb2 : ∀ z, 0 ≤ {z | score z ≤ score y}.indicator (1 : Y → ℝ) z ∧ {z | score z ≤ score y}.indicator (1 : Y → ℝ) z ≤ 1 := fun z => by
    by_cases h : score z ≤ score y <;> simp [Set.indicator, h]
  have hw : ∀ z, 0 ≤ (1 - t) * {z | score z < score y}.indicator (1 : Y → ℝ) z + t * {z | score z ≤ score y}.indicator (1 : Y → ℝ) z ∧
      (1 - t) * {z | score z < score y}.indicator (1 : Y → ℝ) z + t * {z | score z ≤ score y}.indicator (1 : Y → ℝ) z ≤ 1 := fun z => by
    have a1 := hb1 z
    have a2 := hb2 z
    constructor
    · exact add_nonneg (mul_nonneg (by linarith [ht.2]) a1.1) (mul_nonneg ht.1.le a2.1)
    · nlinarith [ht.1, ht.2]
  have hpos : ∀ z, 0 ≤ φ z := fun z => by
    have := hw z
    simp only [hφ]
    nlinarith
  have hle : ∀ z, φ z ≤ 1 := fun z => by
    have := hw z
    simp only [hφ]
    nlinarith
  have hmeas : Measurable φ := by
    simp only [hφ]
    exact measurable_const.sub (((hi1.const_mul _).add (hi2.const_mul _)).const_mul _)
  refine ⟨φ, hmeas, hpos, hle, fun P _ => ?_⟩
  have hint : Integrable φ P := integrable_of_bdd hmeas (B := 1) fun z => by rw [abs_of_nonneg (hpos z)]; exact hle z
  rw [← ofReal_integral_eq_lintegral_ofReal hint (Filter.Eventually.of_forall hpos)]
  congr 1
  have i1 : Integrable ({z | score z < score y}.indicator (1 : Y → ℝ)) P := (integrable_const (1 : ℝ)).indicator hm1
  have i2 : Integrable ({z | score z ≤ score y}.indicator (1 : Y → ℝ)) P := (integrable_const (1 : ℝ)).indicator hm2
  simp only [hφ]
  have i3 : Integrable (fun z => g * ((1 - t) * {z | score z < score y}.indicator (1 : Y → ℝ) z + t * {z | score z ≤ score y}.indicator (1 : Y → ℝ) z)) P :=
    ((i1.const_mul _).add (i2.const_mul _)).const_mul _
  rw [integral_sub (integrable_const _) i3, integral_const_mul,
    integral_add (i1.const_mul _) (i2.const_mul _), integral_const_mul, integral_const_mul, integral_indicator_one hm1, integral_indicator_one hm2]
  simp only [integral_const, probReal_univ, one_smul]
  unfold rankAt below upTo
  simp only [measureReal_def]
  ring

end Verif.Spec
