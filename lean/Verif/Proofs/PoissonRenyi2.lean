import Verif.Proofs.PoissonRenyi

/-! # Proofs: Theorem 6 of https://arxiv.org/abs/2110.03620 -/

namespace Verif.Spec
open MeasureTheory ProbabilityTheory
open scoped ENNReal

variable {Y : Type*} [MeasurableSpace Y] {score : Y → ℝ}

/-- The signed density `a dP/dQ - (a - 1)`. -/
noncomputable def tilt (a : ℝ) (P Q : Measure Y) (y : Y) : ℝ := a * (P.rnDeriv Q y).toReal - (a - 1)

lemma measurable_tilt (a : ℝ) (P Q : Measure Y) : Measurable (tilt a P Q) :=
  ((Measure.measurable_rnDeriv P Q).ennreal_toReal.const_mul _).sub_const _

lemma integrable_tilt (a : ℝ) (P Q : Measure Y) [IsFiniteMeasure P] [IsFiniteMeasure Q] : Integrable (tilt a P Q) Q :=
  (Measure.integrable_toReal_rnDeriv.const_mul _).sub (integrable_const _)

lemma tilt_setIntegral (a : ℝ) {P Q : Measure Y} [IsFiniteMeasure P] [IsFiniteMeasure Q] (hac : P ≪ Q) (S : Set Y) :
    ∫ y in S, tilt a P Q y ∂Q = a * P.real S - (a - 1) * Q.real S := by
  unfold tilt
  rw [integral_sub (Measure.integrable_toReal_rnDeriv.const_mul _).integrableOn (integrable_const _).integrableOn, integral_const_mul,
    Measure.setIntegral_toReal_rnDeriv hac, setIntegral_const, smul_eq_mul]
  ring

lemma tilt_rank (a : ℝ) {P Q : Measure Y} [IsFiniteMeasure P] [IsFiniteMeasure Q] (hac : P ≪ Q) (y : Y) (t : ℝ) :
    wLt score Q (tilt a P Q) y + t * (wLe score Q (tilt a P Q) y - wLt score Q (tilt a P Q) y) =
      a * rankAt score P y t - (a - 1) * rankAt score Q y t := by
  unfold wLt wLe rankAt below upTo
  rw [tilt_setIntegral a hac, tilt_setIntegral a hac]
  simp only [measureReal_def]
  ring

lemma tilt_rank_le {a d : ℝ} (ha : 1 < a) {P Q : Measure Y} [IsProbabilityMeasure P] [IsProbabilityMeasure Q] (hs : Measurable score)
    (hd : Indist Q P (Real.log (1 + 1 / (a - 1))) d) (y : Y) {t : ℝ} (ht : t ∈ Set.Ioc (0 : ℝ) 1) :
    a * rankAt score P y t - (a - 1) * rankAt score Q y t - 1 ≤ (a - 1) * d := by
  have h0 : 0 < a - 1 := by linarith
  have key : ∀ S : Set Y, MeasurableSet S → a * P.real S - (a - 1) * Q.real S - 1 ≤ (a - 1) * d := by
    intro S hS
    have h := hd Sᶜ hS.compl
    rw [Real.exp_log (by positivity), probReal_compl_eq_one_sub hS, probReal_compl_eq_one_sub hS] at h
    have e : (a - 1) * ((1 + 1 / (a - 1)) * (1 - P.real S)) = a * (1 - P.real S) := by field_simp; ring
    have := mul_le_mul_of_nonneg_left h h0.le
    rw [mul_add, e] at this
    linarith
  have k1 := key {z | score z < score y} (measurableSet_lt hs measurable_const)
  have k2 := key {z | score z ≤ score y} (measurableSet_le hs measurable_const)
  unfold rankAt below upTo
  simp only [measureReal_def] at k1 k2
  nlinarith [mul_le_mul_of_nonneg_left k1 (by linarith [ht.2] : 0 ≤ 1 - t), mul_le_mul_of_nonneg_left k2 ht.1.le]

/-- Hölder's inequality for the two kinds of output. -/
lemma two_term_holder {a : ℝ} (ha : 1 < a) (x1 x2 y1 y2 : ℝ≥0∞) :
    x1 ^ (1 / a) * y1 ^ ((a - 1) / a) + x2 ^ (1 / a) * y2 ^ ((a - 1) / a) ≤ (x1 + x2) ^ (1 / a) * (y1 + y2) ^ ((a - 1) / a) := by
  have h0 : 0 < a - 1 := by linarith
  have hc : a.HolderConjugate (a / (a - 1)) := by
    rw [Real.holderConjugate_iff]
    refine ⟨ha, ?_⟩
    have : a ≠ 0 := by linarith
    field_simp
    ring
  have ha0 : a ≠ 0 := by linarith
  have h := ENNReal.inner_le_Lp_mul_Lq (Finset.univ : Finset (Fin 2)) ![x1 ^ (1 / a), x2 ^ (1 / a)] ![y1 ^ ((a - 1) / a), y2 ^ ((a - 1) / a)] hc
  simp only [Fin.sum_univ_two, Matrix.cons_val_zero, Matrix.cons_val_one] at h
  have e : ∀ x : ℝ≥0∞, (x ^ (1 / a)) ^ a = x := fun x => by rw [← ENNReal.rpow_mul, one_div_mul_cancel ha0, ENNReal.rpow_one]
  have e' : ∀ x : ℝ≥0∞, (x ^ ((a - 1) / a)) ^ (a / (a - 1)) = x := fun x => by
    rw [← ENNReal.rpow_mul, show (a - 1) / a * (a / (a - 1)) = 1 by field_simp, ENNReal.rpow_one]
  simpa only [e, e', one_div_div] using h

lemma holder_lintegral {Ω : Type*} [MeasurableSpace Ω] {a : ℝ} (ha : 1 < a) (m : Measure Ω) {f h : Ω → ℝ≥0∞} (hf : Measurable f) (hh : Measurable h) :
    ∫⁻ x, f x ^ (1 / a) * h x ^ ((a - 1) / a) ∂m ≤ (∫⁻ x, f x ∂m) ^ (1 / a) * (∫⁻ x, h x ∂m) ^ ((a - 1) / a) := by
  have h0 : 0 < a - 1 := by linarith
  have hc : a.HolderConjugate (a / (a - 1)) := by
    rw [Real.holderConjugate_iff]
    refine ⟨ha, ?_⟩
    have : a ≠ 0 := by linarith
    field_simp
    ring
  have ha0 : a ≠ 0 := by linarith
  have := ENNReal.lintegral_mul_le_Lp_mul_Lq m hc (hf.pow_const (1 / a)).aemeasurable (hh.pow_const ((a - 1) / a)).aemeasurable
  have e : ∀ x : ℝ≥0∞, (x ^ (1 / a)) ^ a = x := fun x => by rw [← ENNReal.rpow_mul, one_div_mul_cancel ha0, ENNReal.rpow_one]
  have e' : ∀ x : ℝ≥0∞, (x ^ ((a - 1) / a)) ^ (a / (a - 1)) = x := fun x => by
    rw [← ENNReal.rpow_mul, show (a - 1) / a * (a / (a - 1)) = 1 by field_simp, ENNReal.rpow_one]
  simpa only [Pi.mul_apply, e, e', one_div_div] using this

lemma poisW_ofReal {a μ : ℝ} (hμ : 0 ≤ μ) {P Q : Measure Y} [IsFiniteMeasure P] [IsFiniteMeasure Q] (hac : P ≪ Q) (y : Y) :
    ENNReal.ofReal (poisW μ score Q (tilt a P Q) y) =
      ∫⁻ t, ENNReal.ofReal (μ * Real.exp (μ * (a * rankAt score P y t - (a - 1) * rankAt score Q y t - 1))) ∂unif := by
  unfold poisW
  simp only [tilt_rank a hac]
  have hc : Continuous fun t => μ * Real.exp (μ * (a * rankAt score P y t - (a - 1) * rankAt score Q y t - 1)) := by
    unfold rankAt
    fun_prop
  have hi : Integrable (fun t => μ * Real.exp (μ * (a * rankAt score P y t - (a - 1) * rankAt score Q y t - 1))) unif := hc.integrableOn_Ioc
  rw [ofReal_integral_eq_lintegral_ofReal hi (Filter.Eventually.of_forall fun t => by positivity)]

/-- The density of the output under `P` in terms of the one under `Q`. -/
lemma selDens_poisson {a μ : ℝ} (ha : 1 < a) (hμ : 0 ≤ μ) {P Q : Measure Y} [IsProbabilityMeasure P] [IsProbabilityMeasure Q] (hac : P ≪ Q) (y : Y) :
    selDens (poisson μ) score P y ≤ ENNReal.ofReal (poisW μ score Q (tilt a P Q) y) ^ (1 / a) * selDens (poisson μ) score Q y ^ ((a - 1) / a) := by
  have h0 : 0 < a - 1 := by linarith
  have ha0 : 0 < a := by linarith
  rw [poisW_ofReal hμ hac, selDens_eq, selDens_eq]
  have hcP : Continuous fun t => rankAt score P y t := by unfold rankAt; fun_prop
  have hcQ : Continuous fun t => rankAt score Q y t := by unfold rankAt; fun_prop
  have hm1 : Measurable fun t => ENNReal.ofReal (μ * Real.exp (μ * (a * rankAt score P y t - (a - 1) * rankAt score Q y t - 1))) := by
    have : Continuous fun t => μ * Real.exp (μ * (a * rankAt score P y t - (a - 1) * rankAt score Q y t - 1)) := by fun_prop
    exact this.measurable.ennreal_ofReal
  have hm2 : Measurable fun t => pgf' (poisson μ) (rankAt score Q y t) := (measurable_pgf' _).comp hcQ.measurable
  refine le_trans ?_ (holder_lintegral ha unif hm1 hm2)
  unfold unif
  refine setLIntegral_mono' measurableSet_Ioc fun t ht => ?_
  have hP := rankAt_mem score P y ht
  have hQ := rankAt_mem score Q y ht
  show pgf' (poisson μ) (rankAt score P y t) ≤ _ * pgf' (poisson μ) (rankAt score Q y t) ^ _
  rw [poisson_pgf hμ hP.1, poisson_pgf hμ hQ.1]
  generalize rankAt score P y t = p
  generalize rankAt score Q y t = q
  rcases hμ.eq_or_lt with rfl | hμ
  · simp
  rw [ENNReal.ofReal_rpow_of_pos (by positivity), ENNReal.ofReal_rpow_of_pos (by positivity), ← ENNReal.ofReal_mul (by positivity)]
  refine ENNReal.ofReal_le_ofReal (le_of_eq ?_)
  rw [Real.mul_rpow hμ.le (Real.exp_pos _).le, Real.mul_rpow hμ.le (Real.exp_pos _).le, ← Real.exp_mul, ← Real.exp_mul]
  have e1 : μ ^ (1 / a) * μ ^ ((a - 1) / a) = μ := by
    rw [← Real.rpow_add hμ, show 1 / a + (a - 1) / a = 1 by field_simp; ring, Real.rpow_one]
  calc μ * Real.exp (μ * (p - 1)) = (μ ^ (1 / a) * μ ^ ((a - 1) / a)) * (Real.exp (μ * (a * p - (a - 1) * q - 1) * (1 / a) + μ * (q - 1) * ((a - 1) / a))) := by
        rw [e1]
        congr 2
        field_simp
        ring
    _ = _ := by rw [Real.exp_add]; ring

/-- The moment of the output of repeat-and-select. -/
lemma poisson_total {a μ r d : ℝ} (ha : 1 < a) (hμ : 1 ≤ μ) {P Q : Measure Y} [IsProbabilityMeasure P] [IsProbabilityMeasure Q] (hs : Measurable score)
    (hac : P ≪ Q) (hr : renyiMoment a P Q ≤ ENNReal.ofReal (Real.exp ((a - 1) * r))) (hd : Indist Q P (Real.log (1 + 1 / (a - 1))) d) :
    ENNReal.ofReal (Real.exp (-μ)) + ∫⁻ y, ENNReal.ofReal (poisW μ score Q (tilt a P Q) y) * P.rnDeriv Q y ^ a ∂Q ≤
      ENNReal.ofReal (μ * Real.exp (μ * ((a - 1) * d)) * Real.exp ((a - 1) * r)) := by
  have h0 : 0 < a - 1 := by linarith
  have ha0 : 0 < a := by linarith
  have hμ0 : 0 < μ := by linarith
  have hd0 : 0 ≤ d := by
    have := hd ∅ MeasurableSet.empty
    simpa using this
  set W := poisW μ score Q (tilt a P Q) with hW
  set B := μ * Real.exp (μ * ((a - 1) * d)) with hB
  have hB1 : 1 ≤ B := by
    have : 1 ≤ Real.exp (μ * ((a - 1) * d)) := Real.one_le_exp (by positivity)
    nlinarith
  have hWm : Measurable W := measurable_poisW μ hs (measurable_tilt a P Q)
  have hW0 : ∀ y, 0 ≤ W y := fun y => integral_nonneg fun t => by positivity
  have hWB : ∀ y, W y ≤ B := by
    intro y
    have : ENNReal.ofReal (W y) ≤ ENNReal.ofReal B := by
      rw [hW, poisW_ofReal hμ0.le hac]
      calc _ ≤ ∫⁻ _, ENNReal.ofReal B ∂unif := by
            unfold unif
            refine setLIntegral_mono' measurableSet_Ioc fun t ht => ?_
            refine ENNReal.ofReal_le_ofReal ?_
            have := tilt_rank_le ha hs hd y ht
            rw [hB]
            gcongr
        _ = _ := by simp
    exact (ENNReal.ofReal_le_ofReal_iff (by linarith)).1 this
  set u : Y → ℝ := fun y => (P.rnDeriv Q y).toReal with hu
  have hu0 : ∀ y, 0 ≤ u y := fun y => ENNReal.toReal_nonneg
  have hum : Measurable u := (Measure.measurable_rnDeriv P Q).ennreal_toReal
  have hae : ∀ᵐ y ∂Q, P.rnDeriv Q y ^ a = ENNReal.ofReal (u y ^ a) := by
    filter_upwards [Measure.rnDeriv_lt_top P Q] with y hy
    rw [← ENNReal.ofReal_rpow_of_nonneg (hu0 y) ha0.le, hu, ENNReal.ofReal_toReal hy.ne]
  have hM : ∫⁻ y, ENNReal.ofReal (u y ^ a) ∂Q ≤ ENNReal.ofReal (Real.exp ((a - 1) * r)) := by
    rw [← lintegral_congr_ae hae]
    exact hr
  have hi : Integrable (fun y => u y ^ a) Q := by
    refine ⟨(hum.pow_const a).aestronglyMeasurable, ?_⟩
    rw [hasFiniteIntegral_iff_ofReal (Filter.Eventually.of_forall fun y => Real.rpow_nonneg (hu0 y) _)]
    exact lt_of_le_of_lt hM ENNReal.ofReal_lt_top
  have hM' : ∫ y, u y ^ a ∂Q ≤ Real.exp ((a - 1) * r) := by
    rw [← ofReal_integral_eq_lintegral_ofReal hi (Filter.Eventually.of_forall fun y => Real.rpow_nonneg (hu0 y) _)] at hM
    exact (ENNReal.ofReal_le_ofReal_iff (Real.exp_pos _).le).1 hM
  have hiW : Integrable (fun y => W y * u y ^ a) Q :=
    hi.bdd_mul (c := B) hWm.aestronglyMeasurable (Filter.Eventually.of_forall fun y => by rw [Real.norm_eq_abs, abs_of_nonneg (hW0 y)]; exact hWB y)
  have e1 : ∫⁻ y, ENNReal.ofReal (W y) * P.rnDeriv Q y ^ a ∂Q = ENNReal.ofReal (∫ y, W y * u y ^ a ∂Q) := by
    rw [ofReal_integral_eq_lintegral_ofReal hiW (Filter.Eventually.of_forall fun y => mul_nonneg (hW0 y) (Real.rpow_nonneg (hu0 y) _))]
    refine lintegral_congr_ae ?_
    filter_upwards [hae] with y hy
    rw [hy, ENNReal.ofReal_mul (hW0 y)]
  have hWnn : 0 ≤ ∫ y, W y * u y ^ a ∂Q := integral_nonneg fun y => mul_nonneg (hW0 y) (Real.rpow_nonneg (hu0 y) _)
  rw [e1, ← ENNReal.ofReal_add (Real.exp_pos _).le hWnn]
  refine ENNReal.ofReal_le_ofReal ?_
  -- Bernoulli
  have hber : ∀ y, tilt a P Q y ≤ u y ^ a := by
    intro y
    have := one_add_mul_self_le_rpow_one_add (s := u y - 1) (by linarith [hu0 y]) ha.le
    rw [show 1 + (u y - 1) = u y by ring] at this
    show a * u y - (a - 1) ≤ _
    linarith
  have hgi := integrable_tilt a P Q
  have hg1 : ∫ y, tilt a P Q y ∂Q = 1 := by
    have := tilt_setIntegral a hac Set.univ
    rw [setIntegral_univ, probReal_univ, probReal_univ] at this
    rw [this]
    ring
  have hid := poisW_integral hμ0.le hs (measurable_tilt a P Q) hgi hg1
  have hiWg : Integrable (fun y => W y * tilt a P Q y) Q :=
    hgi.bdd_mul (c := B) hWm.aestronglyMeasurable (Filter.Eventually.of_forall fun y => by rw [Real.norm_eq_abs, abs_of_nonneg (hW0 y)]; exact hWB y)
  have hdiff : ∫ y, W y * u y ^ a ∂Q - ∫ y, W y * tilt a P Q y ∂Q ≤ B * (∫ y, u y ^ a ∂Q - ∫ y, tilt a P Q y ∂Q) := by
    rw [← integral_sub hiW hiWg, ← integral_sub hi hgi, ← integral_const_mul]
    refine integral_mono (hiW.sub hiWg) ((hi.sub hgi).const_mul _) fun y => ?_
    simp only
    have := mul_le_mul_of_nonneg_right (hWB y) (sub_nonneg.2 (hber y))
    linarith
  rw [hid, hg1] at hdiff
  have : B * ∫ y, u y ^ a ∂Q ≤ B * Real.exp ((a - 1) * r) := by gcongr
  linarith

/-- Theorem 6 of https://arxiv.org/abs/2110.03620. -/
theorem poisson_renyi {a μ r d : ℝ} (ha : 1 < a) (hμ : 1 ≤ μ) (P Q : Measure Y) [IsProbabilityMeasure P] [IsProbabilityMeasure Q] (hs : Measurable score)
    (hr : renyiDiv a P Q ≤ (r : EReal)) (hd : Indist Q P (Real.log (1 + 1 / (a - 1))) d) :
    renyiDiv a (repeatSelect (poisson μ) score P) (repeatSelect (poisson μ) score Q) ≤ ((r + μ * d + Real.log μ / (a - 1) : ℝ) : EReal) := by
  have h0 : 0 < a - 1 := by linarith
  have ha0 : 0 < a := by linarith
  have hμ0 : 0 < μ := by linarith
  obtain ⟨hac, hM⟩ := (renyi_le_iff ha P Q r).1 hr
  have pP := repeatSelect_prob (poisson_nonneg hμ0.le) (poisson_hasSum μ) hs P
  have pQ := repeatSelect_prob (poisson_nonneg hμ0.le) (poisson_hasSum μ) hs Q
  have hT := poisson_total ha hμ hs hac hM hd
  rw [renyi_le_iff_holder ha]
  intro f hf
  have hfp : Measurable fun y => f y ^ (a / (a - 1)) := hf.pow_const _
  have hfi : Measurable fun y => f (Sum.inr y) := hf.comp measurable_inr
  rw [repeatSelect_lintegral _ hs P f hf, repeatSelect_lintegral _ hs Q _ hfp]
  set E := ENNReal.ofReal (poisson μ 0) with hE
  have hEexp : E = ENNReal.ofReal (Real.exp (-μ)) := by rw [hE]; congr 1; simp [poisson]
  set W : Y → ℝ≥0∞ := fun y => ENNReal.ofReal (poisW μ score Q (tilt a P Q) y) with hW
  have hWm : Measurable W := (measurable_poisW μ hs (measurable_tilt a P Q)).ennreal_ofReal
  have hsQ := measurable_selDens (poisson μ) hs Q
  have hsP := measurable_selDens (poisson μ) hs P
  have e' : ∀ x : ℝ≥0∞, (x ^ (a / (a - 1))) ^ ((a - 1) / a) = x := fun x => by
    rw [← ENNReal.rpow_mul, show a / (a - 1) * ((a - 1) / a) = 1 by field_simp, ENNReal.rpow_one]
  have ea : ∀ x : ℝ≥0∞, (x ^ a) ^ (1 / a) = x := fun x => by rw [← ENNReal.rpow_mul, mul_one_div_cancel ha0.ne', ENNReal.rpow_one]
  have hθ : 0 ≤ (a - 1) / a := by positivity
  have hia : 0 ≤ 1 / a := by positivity
  have hmid : ∫⁻ y, f (Sum.inr y) * selDens (poisson μ) score P y ∂P ≤
      (∫⁻ y, W y * P.rnDeriv Q y ^ a ∂Q) ^ (1 / a) * (∫⁻ y, f (Sum.inr y) ^ (a / (a - 1)) * selDens (poisson μ) score Q y ∂Q) ^ ((a - 1) / a) := by
    have hm : Measurable fun y => f (Sum.inr y) * selDens (poisson μ) score P y := hfi.mul hsP
    rw [← lintegral_rnDeriv_mul hac hm.aemeasurable]
    have hm1 : Measurable fun y => W y * P.rnDeriv Q y ^ a := hWm.mul ((Measure.measurable_rnDeriv P Q).pow_const a)
    have hm2 : Measurable fun y => f (Sum.inr y) ^ (a / (a - 1)) * selDens (poisson μ) score Q y := (hfi.pow_const _).mul hsQ
    refine le_trans (lintegral_mono fun y => ?_) (holder_lintegral ha Q hm1 hm2)
    rw [ENNReal.mul_rpow_of_nonneg _ _ hia, ENNReal.mul_rpow_of_nonneg _ _ hθ, ea, e']
    have := selDens_poisson (score := score) ha hμ0.le hac y
    calc P.rnDeriv Q y * (f (Sum.inr y) * selDens (poisson μ) score P y)
        ≤ P.rnDeriv Q y * (f (Sum.inr y) * (W y ^ (1 / a) * selDens (poisson μ) score Q y ^ ((a - 1) / a))) := by gcongr
      _ = _ := by ring
  have hEsplit : E * f (Sum.inl ()) = E ^ (1 / a) * (E * f (Sum.inl ()) ^ (a / (a - 1))) ^ ((a - 1) / a) := by
    rw [ENNReal.mul_rpow_of_nonneg _ _ hθ, e', ← mul_assoc, ← ENNReal.rpow_add_of_nonneg _ _ hia hθ, show 1 / a + (a - 1) / a = 1 by field_simp; ring,
      ENNReal.rpow_one]
  calc E * f (Sum.inl ()) + ∫⁻ y, f (Sum.inr y) * selDens (poisson μ) score P y ∂P
      ≤ E ^ (1 / a) * (E * f (Sum.inl ()) ^ (a / (a - 1))) ^ ((a - 1) / a) +
        (∫⁻ y, W y * P.rnDeriv Q y ^ a ∂Q) ^ (1 / a) * (∫⁻ y, f (Sum.inr y) ^ (a / (a - 1)) * selDens (poisson μ) score Q y ∂Q) ^ ((a - 1) / a) := by
        rw [← hEsplit]
        gcongr
    _ ≤ (E + ∫⁻ y, W y * P.rnDeriv Q y ^ a ∂Q) ^ (1 / a) *
        (E * f (Sum.inl ()) ^ (a / (a - 1)) + ∫⁻ y, f (Sum.inr y) ^ (a / (a - 1)) * selDens (poisson μ) score Q y ∂Q) ^ ((a - 1) / a) :=
        two_term_holder ha _ _ _ _
    _ ≤ _ := by
        gcongr
        rw [hEexp]
        refine (ENNReal.rpow_le_rpow hT hia).trans ?_
        rw [ENNReal.ofReal_rpow_of_pos (by positivity)]
        refine ENNReal.ofReal_le_ofReal (le_of_eq ?_)
        rw [show μ * Real.exp (μ * ((a - 1) * d)) * Real.exp ((a - 1) * r) = Real.exp (Real.log μ + μ * ((a - 1) * d) + (a - 1) * r) by
          rw [Real.exp_add, Real.exp_add, Real.exp_log hμ0], ← Real.exp_mul]
        congr 1
        field_simp
        ring

end Verif.Spec
