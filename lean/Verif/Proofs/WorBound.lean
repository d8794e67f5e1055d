import Verif.Proofs.WorGauss

/-! # Rényi moments of mixtures of Gaussian vectors in which one component is replaced -/

namespace Verif.Wor
open MeasureTheory ProbabilityTheory Verif.Spec
open scoped ENNReal NNReal

variable {d : ℕ}

/-- Integrals against a density. -/
lemma integral_dens {σ : ℝ} (hσ : 0 < σ) (b : Vec d) {F : Vec d → ℝ} (hF : Integrable F (gaussianVec b σ)) :
    Integrable (fun x => vecDens σ b x * F x) (gaussianVec 0 σ) ∧
      ∫ x, vecDens σ b x * F x ∂gaussianVec 0 σ = ∫ x, F x ∂gaussianVec b σ := by
  have hm : Measurable fun x => Real.toNNReal (vecDens σ b x) := (measurable_vecDens σ b).real_toNNReal
  have e : gaussianVec b σ = (gaussianVec 0 σ).withDensity fun x => ((Real.toNNReal (vecDens σ b x) : ℝ≥0) : ℝ≥0∞) :=
    gaussianVec_withDensity hσ b
  have es : ∀ x, Real.toNNReal (vecDens σ b x) • F x = vecDens σ b x * F x := fun x => by
    rw [NNReal.smul_def, Real.coe_toNNReal _ (vecDens_pos _ _ _).le, smul_eq_mul]
  rw [e] at hF ⊢
  rw [integral_withDensity_eq_integral_smul hm]
  rw [integrable_withDensity_iff_integrable_smul hm] at hF
  simp only [es] at hF ⊢
  exact ⟨hF, trivial⟩

/-- The binary divergence. -/
lemma binary_le {z Δ : ℝ} (hz : 0 < z) (hΔ : 0 < Δ) (a b : Vec d) (h : ‖a - b‖ ≤ Δ) (j : ℕ) :
    Integrable (fun x => vecDens (z * Δ) b x * (|vecDens (z * Δ) a x - vecDens (z * Δ) b x| / vecDens (z * Δ) b x) ^ j) (gaussianVec 0 (z * Δ)) ∧
      ∫ x, vecDens (z * Δ) b x * (|vecDens (z * Δ) a x - vecDens (z * Δ) b x| / vecDens (z * Δ) b x) ^ j ∂gaussianVec 0 (z * Δ) ≤
        Real.sqrt (diffMoment (2 * (j / 2)) (1 / z ^ 2) * diffMoment (2 * ((j + 1) / 2)) (1 / z ^ 2)) := by
  have hσ : 0 < z * Δ := by positivity
  have hL := (lrMoments_vec hσ a b).abs_le j
  have e : ∀ x, |vecDens (z * Δ) a x / vecDens (z * Δ) b x - 1| ^ j = (|vecDens (z * Δ) a x - vecDens (z * Δ) b x| / vecDens (z * Δ) b x) ^ j := by
    intro x
    have hb := vecDens_pos (z * Δ) b x
    rw [← abs_of_pos hb, ← abs_div, abs_of_pos hb, sub_div, div_self hb.ne']
  simp only [e] at hL
  have h2 := integral_dens hσ b hL.1
  refine ⟨h2.1, h2.2.le.trans (hL.2.trans ?_)⟩
  have hs0 : 0 ≤ ‖a - b‖ ^ 2 / (z * Δ) ^ 2 := by positivity
  have hs : ‖a - b‖ ^ 2 / (z * Δ) ^ 2 ≤ 1 / z ^ 2 := by
    rw [div_le_div_iff₀ (by positivity) (by positivity), one_mul, mul_pow, mul_comm]
    gcongr
  have h3 : 0 ≤ 1 / z ^ 2 := by positivity
  refine Real.sqrt_le_sqrt ?_
  exact mul_le_mul (diffMoment_mono _ hs0 h3 hs) (diffMoment_mono _ hs0 h3 hs) (diffMoment_nonneg _ hs0) (diffMoment_nonneg _ h3)

/-- The moments. -/
lemma power_le {z Δ : ℝ} (hz : 0 < z) (hΔ : 0 < Δ) (a b : Vec d) (h : ‖a - b‖ ≤ Δ) (j : ℕ) (hj : 1 ≤ j) :
    Integrable (fun x => vecDens (z * Δ) b x * (vecDens (z * Δ) a x / vecDens (z * Δ) b x) ^ j) (gaussianVec 0 (z * Δ)) ∧
      ∫ x, vecDens (z * Δ) b x * (vecDens (z * Δ) a x / vecDens (z * Δ) b x) ^ j ∂gaussianVec 0 (z * Δ) ≤
        Real.exp ((j : ℝ) * (j - 1) * (1 / (2 * z ^ 2))) := by
  have hσ : 0 < z * Δ := by positivity
  have hL := lrMoments_vec hσ a b
  have h2 := integral_dens hσ b (hL.int j)
  refine ⟨h2.1, h2.2.le.trans ?_⟩
  rw [hL.val]
  have hs : ‖a - b‖ ^ 2 / (z * Δ) ^ 2 ≤ 1 / z ^ 2 := by
    rw [div_le_div_iff₀ (by positivity) (by positivity), one_mul, mul_pow, mul_comm]
    gcongr
  have hj' : (1 : ℝ) ≤ j := by exact_mod_cast hj
  refine Real.exp_le_exp.2 ?_
  calc ‖a - b‖ ^ 2 / (z * Δ) ^ 2 * ((j : ℝ) * (j - 1) / 2) ≤ 1 / z ^ 2 * ((j : ℝ) * (j - 1) / 2) :=
        mul_le_mul_of_nonneg_right hs (by nlinarith)
    _ = (j : ℝ) * (j - 1) * (1 / (2 * z ^ 2)) := by field_simp

/-- The bound on the ternary divergence of order `j`. -/
noncomputable def ternaryBound (z : ℝ) (j : ℕ) : ℝ :=
  min (4 * Real.sqrt (diffMoment (2 * (j / 2)) (1 / z ^ 2) * diffMoment (2 * ((j + 1) / 2)) (1 / z ^ 2)))
    (2 * Real.exp ((j : ℝ) * (j - 1) * (1 / (2 * z ^ 2))))

lemma ternary_bound {z Δ : ℝ} (hz : 0 < z) (hΔ : 0 < Δ) (a b c : Vec d) (hab : ‖a - b‖ ≤ Δ) (hac : ‖a - c‖ ≤ Δ) (hbc : ‖b - c‖ ≤ Δ)
    (j : ℕ) (hj : 1 ≤ j) :
    Integrable (fun x => vecDens (z * Δ) c x * (|vecDens (z * Δ) a x - vecDens (z * Δ) b x| / vecDens (z * Δ) c x) ^ j) (gaussianVec 0 (z * Δ)) ∧
      ∫ x, vecDens (z * Δ) c x * (|vecDens (z * Δ) a x - vecDens (z * Δ) b x| / vecDens (z * Δ) c x) ^ j ∂gaussianVec 0 (z * Δ) ≤ ternaryBound z j := by
  have i1 := power_le hz hΔ a c hac j hj
  have i2 := power_le hz hΔ b c hbc j hj
  have b1 := binary_le hz hΔ a c hac j
  have b2 := binary_le hz hΔ b c hbc j
  have b3 := binary_le hz hΔ a b hab j
  have b4 := binary_le hz hΔ b a (by rwa [norm_sub_rev]) j
  have ma := measurable_vecDens (z * Δ) a
  have mb := measurable_vecDens (z * Δ) b
  have mc := measurable_vecDens (z * Δ) c
  have p := vecDens_pos (d := d) (z * Δ)
  have hint : Integrable (fun x => vecDens (z * Δ) c x * (|vecDens (z * Δ) a x - vecDens (z * Δ) b x| / vecDens (z * Δ) c x) ^ j) (gaussianVec 0 (z * Δ)) := by
    refine (i1.1.add i2.1).mono' (by fun_prop) (Filter.Eventually.of_forall fun x => ?_)
    have : 0 ≤ vecDens (z * Δ) c x * (|vecDens (z * Δ) a x - vecDens (z * Δ) b x| / vecDens (z * Δ) c x) ^ j := by
      have := p c x; positivity
    rw [Real.norm_eq_abs, abs_of_nonneg this]
    exact ternary_le' (p a x) (p b x) (p c x) j
  refine ⟨hint, le_min ?_ ?_⟩
  · have := integral_mono hint (((b1.1.add b2.1).add b3.1).add b4.1) fun x => ternary_le (p a x) (p b x) (p c x) j
    refine this.trans ?_
    have e : ∫ x, ((((fun x => vecDens (z * Δ) c x * (|vecDens (z * Δ) a x - vecDens (z * Δ) c x| / vecDens (z * Δ) c x) ^ j) +
        fun x => vecDens (z * Δ) c x * (|vecDens (z * Δ) b x - vecDens (z * Δ) c x| / vecDens (z * Δ) c x) ^ j) +
        fun x => vecDens (z * Δ) b x * (|vecDens (z * Δ) a x - vecDens (z * Δ) b x| / vecDens (z * Δ) b x) ^ j) +
        fun x => vecDens (z * Δ) a x * (|vecDens (z * Δ) b x - vecDens (z * Δ) a x| / vecDens (z * Δ) a x) ^ j) x ∂gaussianVec 0 (z * Δ) = _ :=
      integral_add ((b1.1.add b2.1).add b3.1) b4.1
    rw [e, integral_add' (b1.1.add b2.1) b3.1, integral_add' b1.1 b2.1]
    linarith [b1.2, b2.2, b3.2, b4.2]
  · have := integral_mono hint (i1.1.add i2.1) fun x => ternary_le' (p a x) (p b x) (p c x) j
    refine this.trans ?_
    rw [integral_add' i1.1 i2.1]
    linarith [i1.2, i2.2]

/-- The moment for the Gaussian mixtures, with real densities. -/
theorem gauss_moment {κ : Type*} {z Δ : ℝ} (hz : 0 < z) (hΔ : 0 < Δ) (K : Finset κ) (w : κ → ℝ) (hw : ∀ k ∈ K, 0 ≤ w k) (hw1 : ∑ k ∈ K, w k = 1)
    {g : ℝ} (h0 : 0 ≤ g) (h1 : g ≤ 1) (r p p' : κ → Vec d) (h2 : ∀ k, ‖p k - p' k‖ ≤ Δ) (h3 : ∀ k, ‖p k - r k‖ ≤ Δ)
    (h4 : ∀ k, ‖p' k - r k‖ ≤ Δ) (a : ℕ) (B : ℕ → ℝ) (hB : ∀ j, 2 ≤ j → j ≤ a → ternaryBound z j ≤ B j) :
    let P := fun x => ∑ k ∈ K, w k * ((1 - g) * vecDens (z * Δ) (r k) x + g * vecDens (z * Δ) (p k) x)
    let Q := fun x => ∑ k ∈ K, w k * ((1 - g) * vecDens (z * Δ) (r k) x + g * vecDens (z * Δ) (p' k) x)
    Integrable (fun x => Q x * (P x / Q x) ^ a) (gaussianVec 0 (z * Δ)) ∧
      ∫ x, Q x * (P x / Q x) ^ a ∂gaussianVec 0 (z * Δ) ≤ 1 + ∑ j ∈ Finset.Icc 2 a, (a.choose j : ℝ) * g ^ j * B j := by
  have hσ : 0 < z * Δ := by positivity
  have hd := fun b : Vec d => integral_dens hσ b (F := fun _ => 1) (integrable_const _)
  simp only [mul_one, integral_const, probReal_univ, smul_eq_mul] at hd
  refine moment_le (gaussianVec 0 (z * Δ)) K w hw hw1 h0 h1 (fun k => vecDens (z * Δ) (r k)) (fun k => vecDens (z * Δ) (p k))
    (fun k => vecDens (z * Δ) (p' k)) (fun k => vecDens_pos _ _) (fun k => vecDens_pos _ _) (fun k => measurable_vecDens _ _)
    (fun k => measurable_vecDens _ _) (fun k => measurable_vecDens _ _) (fun k => (hd _).1) (fun k => (hd _).1) (fun k => (hd _).1)
    (fun k => (hd _).2) (fun k => (hd _).2) (fun k => (hd _).2) a B (fun k j hj ha => ?_) fun k j hj ha => ?_
  · have := ternary_bound hz hΔ (p k) (p' k) (r k) (h2 k) (h3 k) (h4 k) j (by omega)
    exact ⟨this.1, this.2.trans (hB j hj ha)⟩
  · have := ternary_bound hz hΔ (p k) (p' k) (p' k) (h2 k) (h2 k) (by simpa using hΔ.le) j (by omega)
    exact ⟨this.1, this.2.trans (hB j hj ha)⟩

/-- A mixture of mixtures. -/
noncomputable def mixMeasure {κ : Type*} (σ : ℝ) (K : Finset κ) (w : κ → ℝ) (g : ℝ) (r p : κ → Vec d) : Measure (Vec d) :=
  ∑ k ∈ K, ENNReal.ofReal (w k) • (ENNReal.ofReal (1 - g) • gaussianVec (r k) σ + ENNReal.ofReal g • gaussianVec (p k) σ)

/-- Its density. -/
noncomputable def mixDens {κ : Type*} (σ : ℝ) (K : Finset κ) (w : κ → ℝ) (g : ℝ) (r p : κ → Vec d) (x : Vec d) : ℝ :=
  ∑ k ∈ K, w k * ((1 - g) * vecDens σ (r k) x + g * vecDens σ (p k) x)

lemma measurable_mixDens {κ : Type*} (σ : ℝ) (K : Finset κ) (w : κ → ℝ) (g : ℝ) (r p : κ → Vec d) : Measurable (mixDens σ K w g r p) := by
  have : ∀ k ∈ K, Measurable fun x => w k * ((1 - g) * vecDens σ (r k) x + g * vecDens σ (p k) x) := fun k _ => by
    have := measurable_vecDens σ (r k); have := measurable_vecDens σ (p k); fun_prop
  exact Finset.measurable_fun_sum K this

lemma mixMeasure_withDensity {κ : Type*} {σ : ℝ} (hσ : 0 < σ) (K : Finset κ) (w : κ → ℝ) (hw : ∀ k ∈ K, 0 ≤ w k) {g : ℝ} (h0 : 0 ≤ g) (h1 : g ≤ 1)
    (r p : κ → Vec d) : mixMeasure σ K w g r p = (gaussianVec 0 σ).withDensity fun x => ENNReal.ofReal (mixDens σ K w g r p x) := by
  unfold mixMeasure
  have e : ∀ k ∈ K, ENNReal.ofReal (w k) • (ENNReal.ofReal (1 - g) • gaussianVec (r k) σ + ENNReal.ofReal g • gaussianVec (p k) σ) =
      (gaussianVec 0 σ).withDensity fun x => ENNReal.ofReal (w k * ((1 - g) * vecDens σ (r k) x + g * vecDens σ (p k) x)) := by
    intro k hk
    have m1 := (measurable_vecDens σ (r k)).ennreal_ofReal
    have m2 := (measurable_vecDens σ (p k)).ennreal_ofReal
    rw [gaussianVec_withDensity hσ (r k), gaussianVec_withDensity hσ (p k), ← withDensity_smul _ m1, ← withDensity_smul _ m2,
      ← withDensity_add_left (m1.const_smul _), ← withDensity_smul _ ((m1.const_smul _).add (m2.const_smul _))]
    congr 1
    ext x
    have p1 := (vecDens_pos σ (r k) x).le
    have p2 := (vecDens_pos σ (p k) x).le
    simp only [Pi.smul_apply, Pi.add_apply, smul_eq_mul]
    rw [ENNReal.ofReal_mul (hw k hk), ENNReal.ofReal_add (mul_nonneg (by linarith) p1) (mul_nonneg h0 p2), ENNReal.ofReal_mul (by linarith),
      ENNReal.ofReal_mul h0]
  rw [Finset.sum_congr rfl e]
  ext S hS
  rw [Measure.finsetSum_apply, withDensity_apply _ hS]
  simp only [withDensity_apply _ hS]
  rw [← lintegral_finsetSum']
  · refine lintegral_congr fun x => ?_
    rw [mixDens, ENNReal.ofReal_sum_of_nonneg]
    intro k hk
    have p1 := (vecDens_pos σ (r k) x).le
    have p2 := (vecDens_pos σ (p k) x).le
    exact mul_nonneg (hw k hk) (add_nonneg (mul_nonneg (by linarith) p1) (mul_nonneg h0 p2))
  · intro k _
    have := measurable_vecDens σ (r k); have := measurable_vecDens σ (p k)
    exact Measurable.aemeasurable (by fun_prop)

lemma mixDens_pos {κ : Type*} {σ : ℝ} (K : Finset κ) (w : κ → ℝ) (hw : ∀ k ∈ K, 0 ≤ w k) (hw1 : ∑ k ∈ K, w k = 1) {g : ℝ} (h0 : 0 ≤ g) (h1 : g ≤ 1)
    (r p : κ → Vec d) (x : Vec d) : 0 < mixDens σ K w g r p x := by
  have hpos : ∀ k, 0 < (1 - g) * vecDens σ (r k) x + g * vecDens σ (p k) x := by
    intro k
    have p1 := vecDens_pos σ (r k) x
    have p2 := vecDens_pos σ (p k) x
    rcases h0.eq_or_lt with rfl | h
    · simpa using p1
    · have := mul_nonneg (sub_nonneg.2 h1) p1.le
      have := mul_pos h p2
      linarith
  have hne : ∃ k ∈ K, 0 < w k := by
    by_contra hc
    push Not at hc
    have : ∑ k ∈ K, w k ≤ 0 := Finset.sum_nonpos hc
    linarith
  obtain ⟨k, hk, hwk⟩ := hne
  exact Finset.sum_pos' (fun k hk => mul_nonneg (hw k hk) (hpos k).le) ⟨k, hk, mul_pos hwk (hpos k)⟩

/-- The Rényi moment as an integral of real densities. -/
lemma mix_renyiMoment {κ : Type*} {σ : ℝ} (hσ : 0 < σ) (K : Finset κ) (w : κ → ℝ) (hw : ∀ k ∈ K, 0 ≤ w k) (hw1 : ∑ k ∈ K, w k = 1) {g : ℝ}
    (h0 : 0 ≤ g) (h1 : g ≤ 1) (r p p' : κ → Vec d) (α : ℝ) (hα : 0 ≤ α) :
    mixMeasure σ K w g r p ≪ mixMeasure σ K w g r p' ∧
    renyiMoment α (mixMeasure σ K w g r p) (mixMeasure σ K w g r p') =
      ∫⁻ x, ENNReal.ofReal (mixDens σ K w g r p' x * (mixDens σ K w g r p x / mixDens σ K w g r p' x) ^ α) ∂gaussianVec 0 σ := by
  have mP := measurable_mixDens σ K w g r p
  have mQ := measurable_mixDens σ K w g r p'
  have pP := mixDens_pos (σ := σ) K w hw hw1 h0 h1 r p
  have pQ := mixDens_pos (σ := σ) K w hw hw1 h0 h1 r p'
  have eP := mixMeasure_withDensity hσ K w hw h0 h1 r p
  have eQ := mixMeasure_withDensity hσ K w hw h0 h1 r p'
  have mR : Measurable fun x => ENNReal.ofReal (mixDens σ K w g r p x / mixDens σ K w g r p' x) := (mP.div mQ).ennreal_ofReal
  have e : mixMeasure σ K w g r p = (mixMeasure σ K w g r p').withDensity fun x => ENNReal.ofReal (mixDens σ K w g r p x / mixDens σ K w g r p' x) := by
    rw [eQ, ← withDensity_mul _ mQ.ennreal_ofReal mR, eP]
    congr 1
    ext x
    rw [Pi.mul_apply, ← ENNReal.ofReal_mul (pQ x).le, mul_div_cancel₀ _ (pQ x).ne']
  have hfin : IsFiniteMeasure (mixMeasure σ K w g r p') := by
    unfold mixMeasure
    refine ⟨?_⟩
    rw [Measure.finsetSum_apply]
    refine ENNReal.sum_lt_top.2 fun k _ => ?_
    simp [ENNReal.mul_lt_top_iff]
  rw [e]
  refine ⟨withDensity_absolutelyContinuous _ _, ?_⟩
  rw [renyiMoment_withDensity α _ mR, eQ, lintegral_withDensity_eq_lintegral_mul _ mQ.ennreal_ofReal (mR.pow_const _)]
  refine lintegral_congr fun x => ?_
  have := div_pos (pP x) (pQ x)
  rw [Pi.mul_apply, ENNReal.ofReal_rpow_of_pos this, ← ENNReal.ofReal_mul (pQ x).le]

/-- Integer orders. -/
theorem mix_moment_nat {κ : Type*} {z Δ : ℝ} (hz : 0 < z) (hΔ : 0 < Δ) (K : Finset κ) (w : κ → ℝ) (hw : ∀ k ∈ K, 0 ≤ w k) (hw1 : ∑ k ∈ K, w k = 1)
    {g : ℝ} (h0 : 0 ≤ g) (h1 : g ≤ 1) (r p p' : κ → Vec d) (h2 : ∀ k, ‖p k - p' k‖ ≤ Δ) (h3 : ∀ k, ‖p k - r k‖ ≤ Δ)
    (h4 : ∀ k, ‖p' k - r k‖ ≤ Δ) (a : ℕ) (B : ℕ → ℝ) (hB : ∀ j, 2 ≤ j → j ≤ a → ternaryBound z j ≤ B j) :
    renyiMoment a (mixMeasure (z * Δ) K w g r p) (mixMeasure (z * Δ) K w g r p') ≤
      ENNReal.ofReal (1 + ∑ j ∈ Finset.Icc 2 a, (a.choose j : ℝ) * g ^ j * B j) := by
  have hσ : 0 < z * Δ := by positivity
  rw [(mix_renyiMoment hσ K w hw hw1 h0 h1 r p p' a (by positivity)).2]
  have h := gauss_moment hz hΔ K w hw hw1 h0 h1 r p p' h2 h3 h4 a B hB
  simp only [Real.rpow_natCast]
  rw [← ofReal_integral_eq_lintegral_ofReal]
  · exact ENNReal.ofReal_le_ofReal h.2
  · exact h.1
  · refine Filter.Eventually.of_forall fun x => ?_
    have pP := mixDens_pos (σ := z * Δ) K w hw hw1 h0 h1 r p x
    have pQ := mixDens_pos (σ := z * Δ) K w hw hw1 h0 h1 r p' x
    simp only [Pi.zero_apply]
    positivity

/-- Orders between two integers: the moment is log-convex in the order. -/
theorem moment_interp {Ω : Type*} [MeasurableSpace Ω] (P Q : Measure Ω) (m : ℕ) {t : ℝ} (h0 : 0 < t) (h1 : t < 1) :
    renyiMoment ((m : ℝ) + t) P Q ≤ renyiMoment m P Q ^ (1 - t) * renyiMoment ((m + 1 : ℕ) : ℝ) P Q ^ t := by
  unfold renyiMoment
  have hm := Measure.measurable_rnDeriv P Q
  refine le_trans (le_of_eq (lintegral_congr fun x => ?_)) (ENNReal.lintegral_mul_norm_pow_le (hm.pow_const _).aemeasurable (hm.pow_const _).aemeasurable
    (by linarith) h0.le (by ring))
  rw [← ENNReal.rpow_mul, ← ENNReal.rpow_mul, ← ENNReal.rpow_add_of_nonneg _ _ (mul_nonneg (by positivity) (by linarith)) (by positivity)]
  congr 1
  push_cast
  ring

end Verif.Wor
