import Verif.Proofs.Svt
import Mathlib.MeasureTheory.Measure.Prod

/-! # The event that breaks the privacy of `SVT3` -/

namespace Verif.Svt
open MeasureTheory Verif.Spec

/-- Below zero, a shift multiplies the probability of Laplace noise. -/
lemma laplace_shift {A : Set ℝ} (hA : MeasurableSet A) (h0 : ∀ x ∈ A, x ≤ 0) {u : ℝ} (hu : 0 ≤ u) :
    laplace 0 1 ((fun x => x + u) ⁻¹' A) = ENNReal.ofReal (Real.exp (-u)) * laplace 0 1 A := by
  unfold laplace
  rw [withDensity_apply _ ((by fun_prop : Measurable fun x : ℝ => x + u) hA), withDensity_apply _ hA,
    ← lintegral_const_mul _ (by fun_prop), ← lintegral_indicator ((by fun_prop : Measurable fun x : ℝ => x + u) hA),
    ← lintegral_indicator hA]
  refine Eq.trans ?_ (lintegral_add_right_eq_self _ u)
  refine lintegral_congr fun x => ?_
  by_cases hx : x + u ∈ A
  · rw [Set.indicator_of_mem (show x ∈ (fun x => x + u) ⁻¹' A from hx), Set.indicator_of_mem hx, ← ENNReal.ofReal_mul (Real.exp_pos _).le]
    congr 1
    have h1 := h0 _ hx
    have : Real.exp (-|x - 0| / 1) = Real.exp (-u) * Real.exp (-|x + u - 0| / 1) := by
      rw [← Real.exp_add, sub_zero, sub_zero, abs_of_nonpos h1, abs_of_nonpos (by linarith)]
      congr 1
      ring
    rw [this]
    ring
  · rw [Set.indicator_of_notMem (show x ∉ (fun x => x + u) ⁻¹' A from hx), Set.indicator_of_notMem hx]

/-- All queries but the last are below the threshold, the last is not, and its noisy value is not positive. -/
def breakSet {m : ℕ} (t ts qs : ℝ) (q : Fin (m + 1) → ℝ) : Set (ℝ × (Fin (m + 1) → ℝ)) :=
  {d | (∀ i : Fin m, ¬ passes t ts qs q d i.castSucc) ∧ passes t ts qs q d (Fin.last m) ∧ q (Fin.last m) + qs * d.2 (Fin.last m) ≤ 0}

/-- The answers of these draws. -/
def breakOut (m : ℕ) : Set (Fin (m + 1) → SvtOut) :=
  {r | (∀ i : Fin m, r i.castSucc = .below) ∧ ∃ x ≤ 0, r (Fin.last m) = .value x}

lemma measurable_breakSet {m : ℕ} (t ts qs : ℝ) (q : Fin (m + 1) → ℝ) : MeasurableSet (breakSet t ts qs q) := by
  have h1 : ∀ i : Fin (m + 1), MeasurableSet {d : ℝ × (Fin (m + 1) → ℝ) | passes t ts qs q d i} := by
    intro i
    unfold passes
    exact measurableSet_le (by fun_prop) (by fun_prop)
  have h2 : MeasurableSet {d : ℝ × (Fin (m + 1) → ℝ) | q (Fin.last m) + qs * d.2 (Fin.last m) ≤ 0} :=
    measurableSet_le (by fun_prop) (by fun_prop)
  have e : breakSet t ts qs q = (⋂ i : Fin m, {d | passes t ts qs q d i.castSucc}ᶜ) ∩ ({d | passes t ts qs q d (Fin.last m)} ∩
      {d | q (Fin.last m) + qs * d.2 (Fin.last m) ≤ 0}) := by
    ext d
    simp [breakSet]
  rw [e]
  exact (MeasurableSet.iInter fun i => (h1 _).compl).inter ((h1 _).inter h2)

lemma row_breakOut {m : ℕ} {c : ℤ} (hc : 1 ≤ c) (t ts qs : ℝ) (q : Fin (m + 1) → ℝ) (d : ℝ × (Fin (m + 1) → ℝ)) :
    (rowSpec c (fun i => t + ts * d.1 ≤ q i + qs * d.2 i) fun i => queryOutput .svt3 (q i + qs * d.2 i) (t + ts * d.1)) ∈ breakOut m ↔
      d ∈ breakSet t ts qs q := by
  classical
  have hout : ∀ x y : ℝ, queryOutput .svt3 x y = if y ≤ x then .value x else .below := fun _ _ => rfl
  constructor
  · rintro ⟨h1, x, hx, h2⟩
    refine ⟨fun i hi => ?_, ?_⟩
    · have := h1 i
      unfold rowSpec at this
      simp only [hout] at this
      rw [if_pos (show t + ts * d.1 ≤ q i.castSucc + qs * d.2 i.castSucc from hi)] at this
      split_ifs at this
    · unfold rowSpec at h2
      simp only [hout] at h2
      split_ifs at h2 with k1 k2
      injection h2 with h2
      exact ⟨k2, by rw [h2]; exact hx⟩
  · rintro ⟨h1, h2, h3⟩
    have hz : ∀ i : Fin (m + 1), countBelow (fun i => t + ts * d.1 ≤ q i + qs * d.2 i) i.val = 0 := by
      intro i
      unfold countBelow
      rw [Finset.card_eq_zero, Finset.filter_eq_empty_iff]
      rintro j - ⟨k1, k2⟩
      have hj : j.val < m := by have := i.isLt; omega
      exact h1 ⟨j.val, hj⟩ k2
    refine ⟨fun i => ?_, _, h3, ?_⟩
    · unfold rowSpec
      rw [hz, if_pos (by omega)]
      simp only [hout]
      exact if_neg (h1 i)
    · unfold rowSpec
      rw [hz, if_pos (by omega)]
      simp only [hout]
      exact if_pos h2

lemma svtProb_break {cfg : SvtConfig} {m : ℕ} (hk : cfg.numQueries = m + 1) (hc : 1 ≤ cfg.maxAnswered) {data : List ℝ} {n : ℕ}
    {q : Fin (m + 1) → ℝ} (hq : queryValues cfg data = .ok (fun i => q (Fin.cast hk i))) (ht : 0 ≤ thresholdScale cfg .svt3)
    (hs : 0 ≤ queryScale cfg .svt3) (s : Fin n) :
    svtProb .svt3 cfg data n s ((fun r i => r (Fin.cast hk.symm i)) ⁻¹' breakOut m) =
      (svtDraw (m + 1)).real (breakSet cfg.threshold (thresholdScale cfg .svt3) (queryScale cfg .svt3) q) := by
  obtain ⟨e, M, m', ty, k, t, c⟩ := cfg
  obtain rfl : k = m + 1 := hk
  have hm := measurable_breakSet t (thresholdScale ⟨e, M, m', ty, m + 1, t, c⟩ .svt3) (queryScale ⟨e, M, m', ty, m + 1, t, c⟩ .svt3) q
  have hp := measurePreserving_eval (fun _ : Fin n => svtDraw (m + 1)) s
  unfold svtProb
  rw [measureReal_def, measureReal_def, ← hp.measure_preimage hm.nullMeasurableSet]
  congr 2
  ext draws
  simp only [call_eq hq ht hs]
  have key := row_breakOut hc t (thresholdScale ⟨e, M, m', ty, m + 1, t, c⟩ .svt3) (queryScale ⟨e, M, m', ty, m + 1, t, c⟩ .svt3) q (draws s)
  constructor
  · rintro ⟨out, h1, h2⟩
    injection h1 with h1
    rw [← h1] at h2
    exact key.1 h2
  · intro h
    exact ⟨_, rfl, key.2 h⟩

/-- The draws of one query. -/
def slice {m : ℕ} (τ qs : ℝ) (q : Fin (m + 1) → ℝ) : Fin (m + 1) → Set ℝ :=
  Fin.lastCases {y | τ ≤ q (Fin.last m) + qs * y ∧ q (Fin.last m) + qs * y ≤ 0} fun i => {y | q i.castSucc + qs * y < τ}

lemma measure_breakSet {m : ℕ} (t ts qs : ℝ) (q : Fin (m + 1) → ℝ) : svtDraw (m + 1) (breakSet t ts qs q) =
    ∫⁻ z, (∏ i : Fin m, laplace 0 1 {y | q i.castSucc + qs * y < t + ts * z}) *
      laplace 0 1 {y | t + ts * z ≤ q (Fin.last m) + qs * y ∧ q (Fin.last m) + qs * y ≤ 0} ∂(laplace 0 1) := by
  unfold svtDraw
  rw [Measure.prod_apply (measurable_breakSet t ts qs q)]
  refine lintegral_congr fun z => ?_
  have e : Prod.mk z ⁻¹' breakSet t ts qs q = Set.pi Set.univ (slice (t + ts * z) qs q) := by
    ext y
    simp only [Set.mem_preimage, Set.mem_pi, Set.mem_univ, true_implies]
    constructor
    · rintro ⟨h1, h2⟩ i
      induction i using Fin.lastCases with
      | last => simp only [slice, Fin.lastCases_last]; exact h2
      | cast i => simp only [slice, Fin.lastCases_castSucc]; exact not_le.1 (h1 i)
    · intro h
      refine ⟨fun i => ?_, ?_⟩
      · have := h i.castSucc
        simp only [slice, Fin.lastCases_castSucc] at this
        exact not_le.2 this
      · have := h (Fin.last m)
        simp only [slice, Fin.lastCases_last] at this
        exact this
  rw [e, Measure.pi_pi, Fin.prod_univ_castSucc]
  simp only [slice, Fin.lastCases_last, Fin.lastCases_castSucc]

/-- Queries on the two data sets: all zero but the last, and all one but the last. -/
noncomputable def lastOne (m : ℕ) (i : Fin (m + 1)) : ℝ := if i.val < m then 0 else 1
noncomputable def lastZero (m : ℕ) (i : Fin (m + 1)) : ℝ := if i.val < m then 1 else 0

lemma breakSet_ratio (m : ℕ) (t ts : ℝ) {b : ℝ} (hb : 0 < b) : (svtDraw (m + 2)).real (breakSet t ts b (lastOne (m + 1))) =
    Real.exp (m / b) * (svtDraw (m + 2)).real (breakSet t ts b (lastZero (m + 1))) := by
  have hu : 0 ≤ 1 / b := by positivity
  have key : svtDraw (m + 2) (breakSet t ts b (lastOne (m + 1))) =
      ENNReal.ofReal (Real.exp (m / b)) * svtDraw (m + 2) (breakSet t ts b (lastZero (m + 1))) := by
    rw [measure_breakSet, measure_breakSet, ← lintegral_const_mul' _ _ ENNReal.ofReal_ne_top]
    refine lintegral_congr fun z => ?_
    simp only [lastOne, lastZero, Fin.val_castSucc, Fin.is_lt, if_true, Fin.val_last, lt_irrefl, if_false, zero_add, Finset.prod_const,
      Finset.card_univ, Fintype.card_fin]
    generalize t + ts * z = τ
    rcases le_or_gt τ 0 with h | h
    · have e1 : laplace 0 1 {y | 1 + b * y < τ} = ENNReal.ofReal (Real.exp (-(1 / b))) * laplace 0 1 {y | b * y < τ} := by
        rw [← laplace_shift (A := {y | b * y < τ}) (measurableSet_lt (by fun_prop) (by fun_prop)) (fun x hx => ?_) hu]
        · congr 1
          ext y
          simp only [Set.mem_ofPred_eq, Set.mem_preimage]
          rw [show b * (y + 1 / b) = 1 + b * y by field_simp; ring]
        · simp only [Set.mem_ofPred_eq] at hx
          by_contra hc
          nlinarith [mul_pos hb (not_le.1 hc)]
      have e2 : laplace 0 1 {y | τ ≤ 1 + b * y ∧ 1 + b * y ≤ 0} =
          ENNReal.ofReal (Real.exp (-(1 / b))) * laplace 0 1 {y | τ ≤ b * y ∧ b * y ≤ 0} := by
        rw [← laplace_shift (A := {y | τ ≤ b * y ∧ b * y ≤ 0})
          (by measurability) (fun x hx => ?_) hu]
        · congr 1
          ext y
          simp only [Set.mem_ofPred_eq, Set.mem_preimage]
          rw [show b * (y + 1 / b) = 1 + b * y by field_simp; ring]
        · simp only [Set.mem_ofPred_eq] at hx
          by_contra hc
          nlinarith [mul_pos hb (not_le.1 hc)]
      rw [e1, e2, mul_pow, ← ENNReal.ofReal_pow (Real.exp_pos _).le, ← Real.exp_nat_mul]
      have e3 : ENNReal.ofReal (Real.exp (-(1 / b))) = ENNReal.ofReal (Real.exp (m / b)) * ENNReal.ofReal (Real.exp (((m + 1 : ℕ) : ℝ) * -(1 / b))) := by
        rw [← ENNReal.ofReal_mul (Real.exp_pos _).le, ← Real.exp_add]
        congr 2
        push_cast
        ring
      conv_lhs => rw [e3]
      ring
    · have e1 : {y : ℝ | τ ≤ 1 + b * y ∧ 1 + b * y ≤ 0} = ∅ := by
        ext y; simp only [Set.mem_ofPred_eq, Set.mem_empty_iff_false, iff_false]; rintro ⟨h1, h2⟩; linarith
      have e2 : {y : ℝ | τ ≤ b * y ∧ b * y ≤ 0} = ∅ := by
        ext y; simp only [Set.mem_ofPred_eq, Set.mem_empty_iff_false, iff_false]; rintro ⟨h1, h2⟩; linarith
      rw [e1, e2]
      simp
  rw [measureReal_def, key, ENNReal.toReal_mul, ENNReal.toReal_ofReal (Real.exp_pos _).le, ← measureReal_def]

lemma breakSet_pos (m : ℕ) (t : ℝ) {ts b : ℝ} (hts : 0 < ts) (hb : 0 < b) : 0 < (svtDraw (m + 1)).real (breakSet t ts b (lastZero m)) := by
  have hsub : (Set.Ioo ((-2 - t) / ts) ((-1 - t) / ts)) ×ˢ (Set.pi Set.univ (Fin.lastCases (Set.Ioo (-1 / b) 0) fun _ => Set.Iio (-3 / b)) : Set (Fin (m + 1) → ℝ)) ⊆
      breakSet t ts b (lastZero m) := by
    rintro ⟨z, y⟩ ⟨⟨h1, h2⟩, h3⟩
    simp only [] at h1 h2
    rw [div_lt_iff₀ hts] at h1
    rw [lt_div_iff₀ hts] at h2
    refine ⟨fun i => ?_, ?_⟩
    · have := h3 i.castSucc (Set.mem_univ _)
      simp only [Fin.lastCases_castSucc, Set.mem_Iio] at this
      rw [lt_div_iff₀ hb] at this
      simp only [passes, lastZero, Fin.val_castSucc, Fin.is_lt, if_true, not_le]
      nlinarith
    · have := h3 (Fin.last m) (Set.mem_univ _)
      simp only [Fin.lastCases_last, Set.mem_Ioo] at this
      obtain ⟨k1, k2⟩ := this
      rw [div_lt_iff₀ hb] at k1
      simp only [passes, lastZero, Fin.val_last, lt_irrefl, if_false, zero_add]
      exact ⟨by nlinarith, by nlinarith⟩
  refine lt_of_lt_of_le ?_ (measureReal_mono hsub)
  rw [measureReal_def, ENNReal.toReal_pos_iff]
  refine ⟨?_, measure_lt_top _ _⟩
  unfold svtDraw
  rw [Measure.prod_prod, Measure.pi_pi, Fin.prod_univ_castSucc]
  simp only [Fin.lastCases_last, Fin.lastCases_castSucc, Finset.prod_const]
  refine pos_iff_ne_zero.2 (mul_ne_zero (laplace_pos ?_) (mul_ne_zero (pow_ne_zero _ (laplace_pos ?_)) (laplace_pos ?_)))
  · rw [Real.volume_Ioo, Ne, ENNReal.ofReal_eq_zero, not_le, ← sub_div]
    exact div_pos (by linarith) hts
  · rw [Real.volume_Iio]; exact ENNReal.top_ne_zero
  · rw [Real.volume_Ioo, Ne, ENNReal.ofReal_eq_zero, not_le]
    have : 0 < 1 / b := by positivity
    rw [neg_div]; linarith

end Verif.Svt
