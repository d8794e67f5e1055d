import Verif.Spec.NoisyMax
import Mathlib.MeasureTheory.Integral.IntegralEqImproper
import Mathlib.MeasureTheory.Integral.Prod

/-! # Noisy max -/

namespace Verif.NoisyMax
open MeasureTheory Verif.Spec Filter Topology

/-! ### argmax -/

lemma foldl_argmax {k : ℕ} (a : Fin (k + 1) → ℝ) (m : ℕ) (hm : m ≤ k + 1) : ∀ r,
    ((List.finRange (k + 1)).take m).foldl (fun best i => by classical exact if a best < a i then i else best) 0 = r →
    (r = 0 ∨ r.val < m) ∧ (∀ j : Fin (k + 1), j.val < m → a j ≤ a r) ∧ (∀ j : Fin (k + 1), j < r → a j < a r) := by
  classical
  induction m with
  | zero =>
    intro r hr
    simp only [List.take_zero, List.foldl_nil] at hr
    subst hr
    exact ⟨Or.inl rfl, fun j h => absurd h (by omega), fun j h => absurd h (by simp)⟩
  | succ m ih =>
    intro r hr
    have hlt : m < k + 1 := by omega
    rw [List.take_succ_eq_append_getElem (by simpa using hlt), List.foldl_append] at hr
    obtain ⟨h1, h2, h3⟩ := ih (by omega) _ rfl
    set b := ((List.finRange (k + 1)).take m).foldl (fun best i => if a best < a i then i else best) 0 with hb
    simp only [List.getElem_finRange, List.foldl_cons, List.foldl_nil, Fin.cast_mk] at hr
    by_cases hc : a b < a ⟨m, hlt⟩
    · rw [if_pos hc] at hr
      subst hr
      refine ⟨Or.inr (Nat.lt_succ_self m), fun j hj => ?_, fun j hj => ?_⟩
      · rcases Nat.lt_succ_iff_lt_or_eq.1 hj with h | h
        · exact (h2 j h).trans hc.le
        · exact le_of_eq (congrArg a (Fin.ext h))
      · exact lt_of_le_of_lt (h2 j hj) hc
    · rw [if_neg hc] at hr
      subst hr
      refine ⟨h1.imp id fun h => by omega, fun j hj => ?_, h3⟩
      rcases Nat.lt_succ_iff_lt_or_eq.1 hj with h | h
      · exact h2 j h
      · have : j = ⟨m, hlt⟩ := Fin.ext h
        rw [this]; exact not_lt.1 hc

lemma argmax_spec {k : ℕ} (a : Fin (k + 1) → ℝ) :
    (∀ j, a j ≤ a (argmax a)) ∧ ∀ j < argmax a, a j < a (argmax a) := by
  classical
  have := foldl_argmax a (k + 1) le_rfl (argmax a) (by
    unfold argmax
    rw [List.take_of_length_le (by simp)])
  exact ⟨fun j => this.2.1 j j.isLt, this.2.2⟩

lemma argmax_eq_iff {k : ℕ} (a : Fin (k + 1) → ℝ) (i : Fin (k + 1)) :
    argmax a = i ↔ ∀ j, if j < i then a j < a i else a j ≤ a i := by
  obtain ⟨h1, h2⟩ := argmax_spec a
  constructor
  · rintro rfl j
    by_cases hj : j < argmax a
    · rw [if_pos hj]; exact h2 j hj
    · rw [if_neg hj]; exact h1 j
  · intro h
    rcases lt_trichotomy (argmax a) i with hl | he | hg
    · have := h (argmax a)
      rw [if_pos hl] at this
      exact absurd (h1 i) (not_le.2 this)
    · exact he
    · have := h (argmax a)
      rw [if_neg (not_lt.2 hg.le)] at this
      exact absurd (h2 i hg) (not_lt.2 this)

/-! ### Integrals -/

/-- The integrand of the distribution function and of the final integral. -/
noncomputable def gint (w x : ℝ) : ℝ := Real.exp (-x) * Real.exp (-(w * Real.exp (-x)))

lemma gint_deriv {w : ℝ} (hw : 0 < w) (x : ℝ) : HasDerivAt (fun x => Real.exp (-(w * Real.exp (-x))) / w) (gint w x) x := by
  have h1 : HasDerivAt (fun x : ℝ => Real.exp (-x)) (Real.exp (-x) * -1) x := (hasDerivAt_neg x).exp
  have h2 := ((h1.const_mul w).neg.exp).div_const w
  refine h2.congr_deriv ?_
  unfold gint
  simp only [Pi.neg_apply]
  field_simp

lemma gint_nonneg (w x : ℝ) : 0 ≤ gint w x := by unfold gint; positivity

lemma gint_top (w : ℝ) : Tendsto (fun x : ℝ => Real.exp (-(w * Real.exp (-x))) / w) atTop (𝓝 (1 / w)) := by
  have h : Tendsto (fun x : ℝ => Real.exp (-x)) atTop (𝓝 0) := Real.tendsto_exp_neg_atTop_nhds_zero
  have h2 := (Real.continuous_exp.tendsto _).comp (h.const_mul w).neg
  rw [mul_zero, neg_zero, Real.exp_zero] at h2
  exact h2.div_const w

lemma gint_bot {w : ℝ} (hw : 0 < w) : Tendsto (fun x : ℝ => Real.exp (-(w * Real.exp (-x))) / w) atBot (𝓝 0) := by
  have h : Tendsto (fun x : ℝ => Real.exp (-x)) atBot atTop := Real.tendsto_exp_atTop.comp tendsto_neg_atBot_atTop
  have h2 := (Real.tendsto_exp_neg_atTop_nhds_zero.comp (h.const_mul_atTop hw)).div_const w
  rw [zero_div] at h2
  exact h2

lemma gint_cont (w : ℝ) : Continuous (gint w) := by unfold gint; fun_prop

lemma gint_Iic {w : ℝ} (hw : 0 < w) (a : ℝ) : IntegrableOn (gint w) (Set.Iic a) := by
  have h : IntegrableOn (fun x => gint w (-x)) (Set.Ioi (-a)) := by
    have := integrableOn_Ioi_deriv_of_nonpos' (a := -a) (l := 0) (g := fun x => Real.exp (-(w * Real.exp (- -x))) / w) (g' := fun x => -gint w (-x))
      (fun x _ => by
        have := (gint_deriv hw (-x)).comp x (hasDerivAt_neg x)
        simp only [mul_neg, mul_one] at this
        exact this) (fun x _ => neg_nonpos.2 (gint_nonneg _ _)) ((gint_bot hw).comp tendsto_neg_atTop_atBot)
    simpa using this.neg
  have hp := (Measure.measurePreserving_neg (volume : Measure ℝ)).integrableOn_comp_preimage (Homeomorph.neg ℝ).measurableEmbedding
    (f := gint w) (s := Set.Iio a)
  rw [integrableOn_Iic_iff_integrableOn_Iio, ← hp]
  have e : Neg.neg ⁻¹' Set.Iio a = Set.Ioi (-a) := by ext x; simp [neg_lt]
  rw [e]
  exact h

lemma gint_integrable {w : ℝ} (hw : 0 < w) : Integrable (gint w) := by
  rw [← integrableOn_univ, ← Set.Iic_union_Ioi (a := (0 : ℝ))]
  exact (gint_Iic hw 0).union (integrableOn_Ioi_deriv_of_nonneg' (fun x _ => gint_deriv hw x) (fun x _ => gint_nonneg _ _) (gint_top w))

lemma gint_integral {w : ℝ} (hw : 0 < w) : ∫ x, gint w x = 1 / w := by
  rw [integral_of_hasDerivAt_of_tendsto (gint_deriv hw) (gint_integrable hw) (gint_bot hw) (gint_top w), sub_zero]

lemma gint_integral_Iic {w : ℝ} (hw : 0 < w) (a : ℝ) : ∫ x in Set.Iic a, gint w x = Real.exp (-(w * Real.exp (-a))) / w := by
  rw [integral_Iic_of_hasDerivAt_of_tendsto' (fun x _ => gint_deriv hw x) (gint_Iic hw a) (gint_bot hw), sub_zero]

lemma gumbel_eq : gumbel = volume.withDensity fun x => ENNReal.ofReal (gint 1 x) := by
  unfold gumbel gint
  simp only [one_mul]

instance : IsProbabilityMeasure gumbel := by
  refine ⟨?_⟩
  rw [gumbel_eq, withDensity_apply _ MeasurableSet.univ, setLIntegral_univ,
    ← ofReal_integral_eq_lintegral_ofReal (gint_integrable one_pos) (Eventually.of_forall (gint_nonneg 1)), gint_integral one_pos]
  simp

lemma gumbel_Iic (a : ℝ) : gumbel (Set.Iic a) = ENNReal.ofReal (Real.exp (-Real.exp (-a))) := by
  rw [gumbel_eq, withDensity_apply _ measurableSet_Iic,
    ← ofReal_integral_eq_lintegral_ofReal (gint_Iic one_pos a) (Eventually.of_forall (gint_nonneg 1)), gint_integral_Iic one_pos]
  simp

lemma gumbel_Iio (a : ℝ) : gumbel (Set.Iio a) = ENNReal.ofReal (Real.exp (-Real.exp (-a))) := by
  have h : NullSingletonClass gumbel := by unfold gumbel; infer_instance
  rw [← gumbel_Iic, measure_congr Iio_ae_eq_Iic]

/-! ### The law of the index of the largest entry -/

lemma argmax_law {k : ℕ} (c : Fin (k + 1) → ℝ) {b : ℝ} (hb : 0 < b) (i : Fin (k + 1)) :
    (Measure.pi fun _ : Fin (k + 1) => gumbel) {g | argmax (fun j => c j + b * g j) = i} =
      ENNReal.ofReal (Real.exp (c i / b) / ∑ j, Real.exp (c j / b)) := by
  classical
  set T : Fin k → ℝ → Set ℝ := fun j x => if i.succAbove j < i then Set.Iio (x + (c i - c (i.succAbove j)) / b) else Set.Iic (x + (c i - c (i.succAbove j)) / b) with hT
  have hset : {g : Fin (k + 1) → ℝ | argmax (fun j => c j + b * g j) = i} =
      (MeasurableEquiv.piFinSuccAbove (fun _ => ℝ) i) ⁻¹' {p : ℝ × (Fin k → ℝ) | ∀ j, p.2 j ∈ T j p.1} := by
    ext g
    rw [Set.mem_ofPred_eq, argmax_eq_iff]
    constructor
    · intro h j
      have hj := h (i.succAbove j)
      show g (i.succAbove j) ∈ T j (g i)
      simp only [hT]
      by_cases hl : i.succAbove j < i
      · rw [if_pos hl] at hj ⊢
        rw [Set.mem_Iio, ← sub_lt_iff_lt_add', lt_div_iff₀ hb]
        linarith
      · rw [if_neg hl] at hj ⊢
        rw [Set.mem_Iic, ← sub_le_iff_le_add', le_div_iff₀ hb]
        linarith
    · intro h j
      rcases Fin.eq_self_or_eq_succAbove i j with rfl | ⟨j', rfl⟩
      · rw [if_neg (lt_irrefl _)]
      · have hj : g (i.succAbove j') ∈ T j' (g i) := h j'
        simp only [hT] at hj
        by_cases hl : i.succAbove j' < i
        · rw [if_pos hl] at hj ⊢
          rw [Set.mem_Iio, ← sub_lt_iff_lt_add', lt_div_iff₀ hb] at hj
          linarith
        · rw [if_neg hl] at hj ⊢
          rw [Set.mem_Iic, ← sub_le_iff_le_add', le_div_iff₀ hb] at hj
          linarith
  have hmeas : MeasurableSet {p : ℝ × (Fin k → ℝ) | ∀ j, p.2 j ∈ T j p.1} := by
    rw [Set.ofPred_forall]
    refine MeasurableSet.iInter fun j => ?_
    simp only [hT]
    by_cases hl : i.succAbove j < i
    · simp only [if_pos hl, Set.mem_Iio]
      exact measurableSet_lt (by fun_prop) (by fun_prop)
    · simp only [if_neg hl, Set.mem_Iic]
      exact measurableSet_le (by fun_prop) (by fun_prop)
  have hp := measurePreserving_piFinSuccAbove (fun _ : Fin (k + 1) => gumbel) i
  rw [hset, hp.measure_preimage hmeas.nullMeasurableSet, Measure.prod_apply hmeas]
  set W := ∑ j, Real.exp (c j / b) with hW
  have hWpos : 0 < W := Finset.sum_pos (fun j _ => Real.exp_pos _) ⟨i, Finset.mem_univ _⟩
  set w := W / Real.exp (c i / b) with hw
  have hwpos : 0 < w := div_pos hWpos (Real.exp_pos _)
  have hslice : ∀ x : ℝ, (Measure.pi fun _ : Fin k => gumbel) (Prod.mk x ⁻¹' {p : ℝ × (Fin k → ℝ) | ∀ j, p.2 j ∈ T j p.1}) =
      ENNReal.ofReal (Real.exp (-((w - 1) * Real.exp (-x)))) := by
    intro x
    have e : (Prod.mk x ⁻¹' {p : ℝ × (Fin k → ℝ) | ∀ j, p.2 j ∈ T j p.1}) = Set.pi Set.univ fun j => T j x := by
      ext y; simp
    have hTm : ∀ j, gumbel (T j x) = ENNReal.ofReal (Real.exp (-Real.exp (-(x + (c i - c (i.succAbove j)) / b)))) := by
      intro j
      simp only [hT]
      by_cases hl : i.succAbove j < i
      · rw [if_pos hl, gumbel_Iio]
      · rw [if_neg hl, gumbel_Iic]
    rw [e, Measure.pi_pi, Finset.prod_congr rfl fun j _ => hTm j, ← ENNReal.ofReal_prod_of_nonneg (fun _ _ => (Real.exp_pos _).le), ← Real.exp_sum]
    congr 2
    rw [Finset.sum_neg_distrib]
    congr 1
    have e1 : ∀ j, Real.exp (-(x + (c i - c (i.succAbove j)) / b)) = Real.exp (c (i.succAbove j) / b) / Real.exp (c i / b) * Real.exp (-x) := by
      intro j
      rw [← Real.exp_sub, ← Real.exp_add]
      congr 1
      ring
    rw [Finset.sum_congr rfl fun j _ => e1 j, ← Finset.sum_mul, ← Finset.sum_div, hw, hW, Fin.sum_univ_succAbove _ i, add_div,
      div_self (Real.exp_ne_zero _), add_sub_cancel_left]
  rw [lintegral_congr hslice, gumbel_eq, lintegral_withDensity_eq_lintegral_mul _ (gint_cont 1).measurable.ennreal_ofReal (by fun_prop)]
  have e2 : ∀ x, ((fun x => ENNReal.ofReal (gint 1 x)) * fun x => ENNReal.ofReal (Real.exp (-((w - 1) * Real.exp (-x))))) x = ENNReal.ofReal (gint w x) := by
    intro x
    simp only [Pi.mul_apply]
    rw [← ENNReal.ofReal_mul (gint_nonneg 1 x)]
    unfold gint
    rw [mul_assoc, ← Real.exp_add]
    congr 3
    ring
  rw [lintegral_congr e2, ← ofReal_integral_eq_lintegral_ofReal (gint_integrable hwpos) (Eventually.of_forall (gint_nonneg w)), gint_integral hwpos, hw, one_div_div]

lemma measurable_argmax {k : ℕ} (c : Fin (k + 1) → ℝ) (b : ℝ) (i : Fin (k + 1)) : MeasurableSet {g : Fin (k + 1) → ℝ | argmax (fun j => c j + b * g j) = i} := by
  simp only [argmax_eq_iff]
  rw [Set.ofPred_forall]
  refine MeasurableSet.iInter fun j => ?_
  by_cases hj : j < i
  · simp only [if_pos hj]
    exact measurableSet_lt (by fun_prop) (by fun_prop)
  · simp only [if_neg hj]
    exact measurableSet_le (by fun_prop) (by fun_prop)

/-- The probability of each element. -/
lemma noisyMaxProb_eq {e : ℝ} (he : 0 < e) {k : ℕ} (data : List ℝ) {n : ℕ} (s : Fin n) (i : Fin k) :
    noisyMaxProb e k data n s i = Real.exp (e * counts data k i / 2) / ∑ j, Real.exp (e * counts data k j / 2) := by
  cases k with
  | zero => exact i.elim0
  | succ k =>
    have hb : 0 < 2 / e := by positivity
    have hm := measurable_argmax (fun j => (counts data (k + 1) j : ℝ)) (2 / e) i
    have hp := measurePreserving_eval (fun _ : Fin n => Measure.pi fun _ : Fin (k + 1) => gumbel) s
    have hset : {draws : Fin n → Fin (k + 1) → ℝ | ∃ out, call e (k + 1) data n draws = .ok out ∧ out s = i} =
        (Function.eval s) ⁻¹' {g : Fin (k + 1) → ℝ | argmax (fun j => (counts data (k + 1) j : ℝ) + 2 / e * g j) = i} := by
      ext draws
      simp only [Set.mem_ofPred_eq, call, if_neg he.ne', if_neg (not_lt.2 hb.le)]
      constructor
      · rintro ⟨out, h1, h2⟩
        injection h1 with h1
        rw [← h1] at h2
        exact h2
      · intro h
        exact ⟨_, rfl, h⟩
    unfold noisyMaxProb
    rw [measureReal_def, hset, hp.measure_preimage hm.nullMeasurableSet, argmax_law _ hb i, ENNReal.toReal_ofReal (by positivity)]
    have e1 : ∀ j, (counts data (k + 1) j : ℝ) / (2 / e) = e * counts data (k + 1) j / 2 := by
      intro j; field_simp
    simp only [e1]

/-- Weights that differ by a factor. -/
lemma softmax_le {k : ℕ} {a a' : Fin k → ℝ} {d : ℝ} (i : Fin k) (h : (∀ j, a j ≤ a' j ∧ a' j ≤ a j + d) ∨ (∀ j, a' j ≤ a j ∧ a j ≤ a' j + d)) :
    Real.exp (a i) / ∑ j, Real.exp (a j) ≤ Real.exp d * (Real.exp (a' i) / ∑ j, Real.exp (a' j)) := by
  have hp : ∀ b : Fin k → ℝ, 0 < ∑ j, Real.exp (b j) := fun b => Finset.sum_pos (fun j _ => Real.exp_pos _) ⟨i, Finset.mem_univ _⟩
  rw [← mul_div_assoc, div_le_div_iff₀ (hp a) (hp a')]
  rcases h with h | h
  · have h1 : ∑ j, Real.exp (a' j) ≤ Real.exp d * ∑ j, Real.exp (a j) := by
      rw [Finset.mul_sum]
      refine Finset.sum_le_sum fun j _ => ?_
      rw [← Real.exp_add]
      exact Real.exp_le_exp.2 (by linarith [(h j).2])
    have h2 : Real.exp (a i) ≤ Real.exp (a' i) := Real.exp_le_exp.2 (h i).1
    calc Real.exp (a i) * ∑ j, Real.exp (a' j) ≤ Real.exp (a' i) * (Real.exp d * ∑ j, Real.exp (a j)) :=
          mul_le_mul h2 h1 (hp a').le (Real.exp_pos _).le
      _ = _ := by ring
  · have h1 : ∑ j, Real.exp (a' j) ≤ ∑ j, Real.exp (a j) := Finset.sum_le_sum fun j _ => Real.exp_le_exp.2 (h j).1
    have h2 : Real.exp (a i) ≤ Real.exp d * Real.exp (a' i) := by
      rw [← Real.exp_add]; exact Real.exp_le_exp.2 (by linarith [(h i).2])
    exact mul_le_mul h2 h1 (hp a').le (by positivity)

lemma counts_insert (l r : List ℝ) (x : ℝ) (k : ℕ) (j : Fin k) :
    counts (l ++ r) k j ≤ counts (l ++ x :: r) k j ∧ counts (l ++ x :: r) k j ≤ counts (l ++ r) k j + 1 := by
  classical
  unfold counts
  rw [List.countP_append, List.countP_append, List.countP_cons]
  by_cases h : x = (j.val : ℝ)
  · simp [h]
    omega
  · simp [h]

end Verif.NoisyMax
