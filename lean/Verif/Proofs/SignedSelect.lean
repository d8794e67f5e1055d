import Verif.Proofs.TnbRenyi
import Mathlib.MeasureTheory.Integral.Prod
import Mathlib.MeasureTheory.Integral.DominatedConvergence

/-! # Proofs: an identity for the best of several runs that holds for signed weights -/

namespace Verif.Spec
open MeasureTheory ProbabilityTheory

variable {Y : Type*} [MeasurableSpace Y] {score : Y → ℝ} {Q : Measure Y} {g : Y → ℝ}

/-- Weight of the runs that are worse. -/
noncomputable def wLt (score : Y → ℝ) (Q : Measure Y) (g : Y → ℝ) (y : Y) : ℝ := ∫ z in {z | score z < score y}, g z ∂Q

/-- Weight of the runs that are not better. -/
noncomputable def wLe (score : Y → ℝ) (Q : Measure Y) (g : Y → ℝ) (y : Y) : ℝ := ∫ z in {z | score z ≤ score y}, g z ∂Q

/-- Signed density of the best of `k + 1` runs. -/
noncomputable def wBest (score : Y → ℝ) (Q : Measure Y) (g : Y → ℝ) : ℕ → Y → ℝ
  | 0, _ => 1
  | k + 1, y => wLt score Q g y ^ (k + 1) + wLe score Q g y * wBest score Q g k y

lemma abs_setIntegral_le (hg : Integrable g Q) (S : Set Y) : |∫ z in S, g z ∂Q| ≤ ∫ z, |g z| ∂Q :=
  (abs_integral_le_integral_abs).trans (setIntegral_le_integral hg.abs (Filter.Eventually.of_forall fun _ => abs_nonneg _))

lemma measurable_wLt (hs : Measurable score) [SFinite Q] (hgm : Measurable g) : Measurable (wLt score Q g) := by
  have hm : MeasurableSet {p : Y × Y | score p.2 < score p.1} := measurableSet_lt (hs.comp measurable_snd) (hs.comp measurable_fst)
  have h : Measurable ({p : Y × Y | score p.2 < score p.1}.indicator fun p => g p.2) := (hgm.comp measurable_snd).indicator hm
  have := (h.stronglyMeasurable.integral_prod_right' (ν := Q)).measurable
  convert this using 1
  funext y
  unfold wLt
  rw [← integral_indicator (measurableSet_lt hs measurable_const)]
  rfl

lemma measurable_wLe (hs : Measurable score) [SFinite Q] (hgm : Measurable g) : Measurable (wLe score Q g) := by
  have hm : MeasurableSet {p : Y × Y | score p.2 ≤ score p.1} := measurableSet_le (hs.comp measurable_snd) (hs.comp measurable_fst)
  have h : Measurable ({p : Y × Y | score p.2 ≤ score p.1}.indicator fun p => g p.2) := (hgm.comp measurable_snd).indicator hm
  have := (h.stronglyMeasurable.integral_prod_right' (ν := Q)).measurable
  convert this using 1
  funext y
  unfold wLe
  rw [← integral_indicator (measurableSet_le hs measurable_const)]
  rfl

lemma measurable_wBest (hs : Measurable score) [SFinite Q] (hgm : Measurable g) : ∀ k, Measurable (wBest score Q g k)
  | 0 => measurable_const
  | k + 1 => ((measurable_wLt hs hgm).pow_const _).add ((measurable_wLe hs hgm).mul (measurable_wBest hs hgm k))

lemma abs_wBest_le (hg : Integrable g Q) (y : Y) : ∀ k, |wBest score Q g k y| ≤ (k + 1) * (∫ z, |g z| ∂Q) ^ k
  | 0 => by simp [wBest]
  | k + 1 => by
    have hG : 0 ≤ ∫ z, |g z| ∂Q := integral_nonneg fun _ => abs_nonneg _
    have h1 : |wLt score Q g y| ≤ ∫ z, |g z| ∂Q := abs_setIntegral_le hg _
    have h2 : |wLe score Q g y| ≤ ∫ z, |g z| ∂Q := abs_setIntegral_le hg _
    have ih := abs_wBest_le hg y k
    unfold wBest
    calc |wLt score Q g y ^ (k + 1) + wLe score Q g y * wBest score Q g k y|
        ≤ |wLt score Q g y| ^ (k + 1) + |wLe score Q g y| * |wBest score Q g k y| := by
          refine (abs_add_le _ _).trans ?_
          rw [abs_pow, abs_mul]
      _ ≤ (∫ z, |g z| ∂Q) ^ (k + 1) + (∫ z, |g z| ∂Q) * ((k + 1) * (∫ z, |g z| ∂Q) ^ k) := by gcongr
      _ = _ := by push_cast; ring

lemma integrable_wBest (hs : Measurable score) [SFinite Q] (hgm : Measurable g) (hg : Integrable g Q) (k : ℕ) :
    Integrable (fun y => wBest score Q g k y * g y) Q :=
  hg.bdd_mul (c := (k + 1) * (∫ z, |g z| ∂Q) ^ k) (measurable_wBest hs hgm k).aestronglyMeasurable
    (Filter.Eventually.of_forall fun y => abs_wBest_le hg y k)

/-- The weight of "the best of `k + 1` runs is in `D`" is the power of the weight of `D`, for `D` closed under worse runs. -/
theorem wBest_integral (hs : Measurable score) [IsFiniteMeasure Q] (hgm : Measurable g) (hg : Integrable g Q) :
    ∀ (k : ℕ) (D : Set Y), MeasurableSet D → (∀ y z, score z ≤ score y → y ∈ D → z ∈ D) →
      ∫ y in D, wBest score Q g k y * g y ∂Q = (∫ y in D, g y ∂Q) ^ (k + 1)
  | 0, D, _, _ => by simp [wBest]
  | k + 1, D, hD, hlow => by
    have ih := wBest_integral hs hgm hg k
    set h := wBest score Q g k with hh
    have hhg : Integrable (fun y => h y * g y) Q := integrable_wBest hs hgm hg k
    set S1 : Set (Y × Y) := {p | p.1 ∈ D ∧ score p.2 < score p.1} with hS1
    set S2 : Set (Y × Y) := {p | p.2 ∈ D ∧ score p.1 ≤ score p.2} with hS2
    have mS1 : MeasurableSet S1 := (measurable_fst hD).inter (measurableSet_lt (hs.comp measurable_snd) (hs.comp measurable_fst))
    have mS2 : MeasurableSet S2 := (measurable_snd hD).inter (measurableSet_le (hs.comp measurable_fst) (hs.comp measurable_snd))
    have hprod : Integrable (fun p : Y × Y => g p.1 * (h p.2 * g p.2)) (Q.prod Q) := hg.mul_prod hhg
    have i1 : Integrable (S1.indicator fun p : Y × Y => g p.1 * (h p.2 * g p.2)) (Q.prod Q) := hprod.indicator mS1
    have i2 : Integrable (S2.indicator fun p : Y × Y => g p.1 * (h p.2 * g p.2)) (Q.prod Q) := hprod.indicator mS2
    have e1 : ∫ p, S1.indicator (fun p : Y × Y => g p.1 * (h p.2 * g p.2)) p ∂(Q.prod Q) = ∫ y in D, wLt score Q g y ^ (k + 1) * g y ∂Q := by
      rw [integral_prod _ i1, ← integral_indicator hD]
      refine integral_congr_ae (Filter.Eventually.of_forall fun y => ?_)
      by_cases hy : y ∈ D
      · have e : ∀ z, S1.indicator (fun p : Y × Y => g p.1 * (h p.2 * g p.2)) (y, z) = g y * {z | score z < score y}.indicator (fun z => h z * g z) z := by
          intro z
          by_cases hz : score z < score y <;> simp [Set.indicator, hS1, hy, hz]
        simp only [e, Set.indicator_of_mem hy]
        rw [integral_const_mul, integral_indicator (measurableSet_lt hs measurable_const),
          ih {z | score z < score y} (measurableSet_lt hs measurable_const) (fun a b hba ha => lt_of_le_of_lt hba ha), mul_comm]
        rfl
      · have e : ∀ z, S1.indicator (fun p : Y × Y => g p.1 * (h p.2 * g p.2)) (y, z) = 0 := by
          intro z
          simp [Set.indicator, hS1, hy]
        simp only [e, Set.indicator_of_notMem hy, integral_zero]
    have e2 : ∫ p, S2.indicator (fun p : Y × Y => g p.1 * (h p.2 * g p.2)) p ∂(Q.prod Q) = ∫ y in D, wLe score Q g y * h y * g y ∂Q := by
      rw [integral_prod_symm _ i2, ← integral_indicator hD]
      refine integral_congr_ae (Filter.Eventually.of_forall fun y => ?_)
      by_cases hy : y ∈ D
      · have e : ∀ z, S2.indicator (fun p : Y × Y => g p.1 * (h p.2 * g p.2)) (z, y) = (h y * g y) * {z | score z ≤ score y}.indicator g z := by
          intro z
          by_cases hz : score z ≤ score y
          · simp [Set.indicator, hS2, hy, hz]; ring
          · simp [Set.indicator, hS2, hy, hz]
        simp only [e, Set.indicator_of_mem hy]
        rw [integral_const_mul, integral_indicator (measurableSet_le hs measurable_const)]
        show _ = wLe score Q g y * h y * g y
        unfold wLe
        ring
      · have e : ∀ z, S2.indicator (fun p : Y × Y => g p.1 * (h p.2 * g p.2)) (z, y) = 0 := by
          intro z
          simp [Set.indicator, hS2, hy]
        simp only [e, Set.indicator_of_notMem hy, integral_zero]
    have hsum : ∀ p, S1.indicator (fun p : Y × Y => g p.1 * (h p.2 * g p.2)) p + S2.indicator (fun p : Y × Y => g p.1 * (h p.2 * g p.2)) p =
        (D ×ˢ D).indicator (fun p : Y × Y => g p.1 * (h p.2 * g p.2)) p := by
      rintro ⟨y, z⟩
      rcases lt_or_ge (score z) (score y) with hz | hz
      · have a2 : (y, z) ∉ S2 := fun hc => absurd hc.2 (not_le.2 hz)
        rw [Set.indicator_of_notMem a2, add_zero]
        by_cases hy : y ∈ D
        · rw [Set.indicator_of_mem (show (y, z) ∈ S1 from ⟨hy, hz⟩), Set.indicator_of_mem (show (y, z) ∈ D ×ˢ D from ⟨hy, hlow y z hz.le hy⟩)]
        · rw [Set.indicator_of_notMem (show (y, z) ∉ S1 from fun hc => hy hc.1), Set.indicator_of_notMem (show (y, z) ∉ D ×ˢ D from fun hc => hy hc.1)]
      · have a1 : (y, z) ∉ S1 := fun hc => absurd hc.2 (not_lt.2 hz)
        rw [Set.indicator_of_notMem a1, zero_add]
        by_cases hy : z ∈ D
        · rw [Set.indicator_of_mem (show (y, z) ∈ S2 from ⟨hy, hz⟩), Set.indicator_of_mem (show (y, z) ∈ D ×ˢ D from ⟨hlow z y hz hy, hy⟩)]
        · rw [Set.indicator_of_notMem (show (y, z) ∉ S2 from fun hc => hy hc.1), Set.indicator_of_notMem (show (y, z) ∉ D ×ˢ D from fun hc => hy hc.2)]
    have hA : Integrable (fun y => wLt score Q g y ^ (k + 1) * g y) Q :=
      hg.bdd_mul (c := (∫ z, |g z| ∂Q) ^ (k + 1)) ((measurable_wLt hs hgm).pow_const _).aestronglyMeasurable
        (Filter.Eventually.of_forall fun y => by
          rw [Real.norm_eq_abs, abs_pow]
          exact pow_le_pow_left₀ (abs_nonneg _) (abs_setIntegral_le hg _) _)
    have hB : Integrable (fun y => wLe score Q g y * h y * g y) Q := by
      have : Integrable (fun y => wLe score Q g y * (h y * g y)) Q :=
        hhg.bdd_mul (c := ∫ z, |g z| ∂Q) (measurable_wLe hs hgm).aestronglyMeasurable (Filter.Eventually.of_forall fun y => abs_setIntegral_le hg _)
      simpa only [mul_assoc] using this
    have hl : ∀ y, wBest score Q g (k + 1) y * g y = wLt score Q g y ^ (k + 1) * g y + wLe score Q g y * h y * g y := by
      intro y
      show (wLt score Q g y ^ (k + 1) + wLe score Q g y * h y) * g y = _
      ring
    simp only [hl]
    rw [integral_add hA.integrableOn hB.integrableOn, ← e1, ← e2, ← integral_add i1 i2]
    simp only [hsum]
    rw [integral_indicator (hD.prod hD), setIntegral_prod_mul g (fun z => h z * g z), ih D hD hlow]
    ring

end Verif.Spec
