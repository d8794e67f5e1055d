import Verif.Proofs.SmallestNoiseSample
import Verif.Proofs.LaplaceLaw

/-! # Privacy of sampled additive noise, from the one-dimensional worst case and back -/

namespace Verif.Spec
open MeasureTheory ProbabilityTheory Verif.Mech
open scoped RealInnerProductSpace

/-! ### The worst case is an instance -/

lemma poissonMech_single {Ω : Type} [MeasurableSpace Ω] (q : ℝ) (K : Finset Unit → Measure Ω) :
    poissonMech q K (insert () ∅) = ENNReal.ofReal (1 - q) • K ∅ + ENNReal.ofReal q • K {()} := by
  unfold poissonMech
  have : (insert () ∅ : Finset Unit).powerset = {∅, {()}} := by decide
  rw [this, Finset.sum_pair (by decide)]
  simp

lemma poissonMech_empty {Ω : Type} [MeasurableSpace Ω] (q : ℝ) (K : Finset Unit → Measure Ω) : poissonMech q K ∅ = K ∅ := by
  unfold poissonMech
  simp

lemma mix_map {Ω Ω' : Type} [MeasurableSpace Ω] [MeasurableSpace Ω'] (q : ℝ) (A B : Measure Ω) {g : Ω → Ω'} (hg : Measurable g) :
    (ENNReal.ofReal (1 - q) • A + ENNReal.ofReal q • B).map g = ENNReal.ofReal (1 - q) • A.map g + ENNReal.ofReal q • B.map g := by
  rw [Measure.map_add _ _ hg, Measure.map_smul, Measure.map_smul]

lemma sampledLaplace_worst {b s q ε δ : ℝ} (hb : 0 < b) (hs : 0 ≤ s) (h : Private (SampledLaplace b s q) ε δ) :
    Indist (upper (laplace 0 b) s q .remove) (lower (laplace 0 b) s q .remove) ε δ := by
  have h1 := (h _ _ _ (SampledLaplace.mk (b := b) (s := s) (q := q) (R := Unit) (d := 1) (fun S _ => if () ∈ S then -s else 0) (by
    intro S r
    by_cases hS : () ∈ S
    · simp [hS, hs]
    · simp [hS, abs_of_nonneg hs]) ∅ () (by simp))).1
  rw [poissonMech_single, poissonMech_empty] at h1
  have hm : Measurable fun x : Fin 1 → ℝ => x 0 := measurable_pi_apply 0
  have h2 := Indist.map h1 hm
  rw [mix_map _ _ _ hm] at h2
  have e : ∀ t : ℝ, (laplaceVec (fun _ : Fin 1 => t) b).map (fun x => x 0) = laplace t b := by
    intro t
    have := laplace_prob t hb
    exact (measurePreserving_eval (fun _ : Fin 1 => laplace t b) 0).map_eq
  simp only [Finset.notMem_empty, if_false, Finset.mem_singleton, if_true, e] at h2
  simp only [upper, lower, mixShift, laplace_shift]
  exact h2

lemma sampledGaussian_worst {σ s q ε δ : ℝ} (hσ : 0 < σ) (hs : 0 ≤ s) (h : Private (SampledGaussian σ s q) ε δ) :
    Indist (upper (gaussianReal 0 (Real.toNNReal (σ ^ 2))) s q .remove) (lower (gaussianReal 0 (Real.toNNReal (σ ^ 2))) s q .remove) ε δ := by
  set e : Vec 1 := EuclideanSpace.single 0 1 with he
  have hn : ‖e‖ = 1 := by simp [he]
  have h1 := (h _ _ _ (SampledGaussian.mk (σ := σ) (s := s) (q := q) (R := Unit) (d := 1) (fun S => (if () ∈ S then -s else 0) • e) (by
    intro S r
    by_cases hS : () ∈ S
    · simp [hS, hs]
    · simp [hS, norm_smul, hn, abs_of_nonneg hs]) ∅ () (by simp))).1
  rw [poissonMech_single, poissonMech_empty] at h1
  have hm : Measurable fun x : Vec 1 => ⟪e, x⟫ := by fun_prop
  have h2 := Indist.map h1 hm
  rw [mix_map _ _ _ hm] at h2
  simp only [Finset.notMem_empty, if_false, Finset.mem_singleton, if_true, he, gaussianVec_proj hσ] at h2
  simp only [upper, lower, mixShift, gaussianReal_map_add_const, zero_add]
  exact h2

lemma sampledInteger_worst {μ : Measure ℤ} {s : ℤ} {q ε δ : ℝ} (hs : 0 ≤ s) (h : Private (SampledInteger μ s q) ε δ) :
    Indist (upper μ s q .remove) (lower μ s q .remove) ε δ := by
  have h1 := (h _ _ _ (SampledInteger.mk (μ := μ) (s := s) (q := q) (R := Unit) (fun S => if () ∈ S then -s else 0) (by
    intro S r
    by_cases hS : () ∈ S
    · simp [hS, hs]
    · simp [hS, abs_of_nonneg hs]) ∅ () (by simp))).1
  rw [poissonMech_single, poissonMech_empty] at h1
  have e : (μ.map fun x => x + 0) = μ := by simp
  simp only [Finset.notMem_empty, if_false, Finset.mem_singleton, if_true, e] at h1
  exact h1

/-! ### Pure differential privacy and sampling -/

section
variable {X : Type} [AddCommGroup X] [MeasurableSpace X] [MeasurableAdd X] {μ : Measure X} [IsProbabilityMeasure μ] {q : ℝ}

/-- Amplification by sampling, REMOVE. -/
lemma remove_of_pure (q0 : 0 ≤ q) (q1 : q ≤ 1) {s : X} {e ε : ℝ} (h : Indist (upper μ s 1 .remove) (lower μ s 1 .remove) e 0)
    (he : 1 - q + q * Real.exp e ≤ Real.exp ε) : Indist (upper μ s q .remove) (lower μ s q .remove) ε 0 := by
  intro S hS
  have hh := h S hS
  simp only [upper, lower, mixShift_one] at hh ⊢
  rw [mixShift_real q0 q1]
  have h0 : 0 ≤ μ.real S := measureReal_nonneg
  nlinarith [mul_le_mul_of_nonneg_left hh q0, mul_le_mul_of_nonneg_right he h0]

end

/-! ### The truncated discrete Gaussian distribution -/

lemma dgW_le {σ : ℝ} {i j : ℤ} (h : |i| ≤ |j|) : dgW σ j ≤ dgW σ i := by
  unfold dgW
  rw [Real.exp_le_exp]
  have h1 : (i : ℝ) ^ 2 ≤ (j : ℝ) ^ 2 := by
    rw [← sq_abs (i : ℝ), ← sq_abs (j : ℝ)]
    have : |(i : ℝ)| ≤ |(j : ℝ)| := by exact_mod_cast h
    gcongr
  exact div_le_div_of_nonneg_right (by linarith) (sq_nonneg σ)

/-- For large `σ`, few of the outputs lie at the edge, and elsewhere the loss is small. -/
lemma discreteGaussian_remove {σ : ℝ} (hσ : 0 < σ) {T s : ℤ} (hs : 0 < s) (hT : 2 * s ≤ T) :
    Indist (upper (discreteGaussian σ T) s 1 .remove) (lower (discreteGaussian σ T) s 1 .remove) (T * s / σ ^ 2) (s / (T + 1)) := by
  classical
  have hT0 : 0 ≤ T := by omega
  have hZ := dgZ_pos σ hT0
  have hs0 : (0 : ℝ) < s := by exact_mod_cast hs
  have hTs : (2 : ℝ) * s ≤ T := by exact_mod_cast hT
  intro S hS
  simp only [upper, lower, mixShift_one]
  have hm : Measurable fun x : ℤ => x + -s := measurable_of_countable _
  rw [measureReal_def, Measure.map_apply hm hS, ← measureReal_def, dg_measureReal, dg_measureReal]
  set A := (Finset.Icc (-T) T).filter (· ∈ (fun x : ℤ => x + -s) ⁻¹' S) with hA
  rw [← Finset.sum_filter_add_sum_filter_not A (fun k => -T + s ≤ k)]
  refine add_le_add ?_ ?_
  · -- away from the edge
    rw [Finset.mul_sum]
    have hinj : Set.InjOn (fun k : ℤ => k + -s) (A.filter fun k => -T + s ≤ k : Finset ℤ) := fun a _ b _ h => by simpa using h
    calc ∑ k ∈ A.filter (fun k => -T + s ≤ k), dgW σ k / dgZ σ T
        ≤ ∑ k ∈ A.filter (fun k => -T + s ≤ k), Real.exp (T * s / σ ^ 2) * (dgW σ (k + -s) / dgZ σ T) := by
          refine Finset.sum_le_sum fun k hk => ?_
          simp only [hA, Finset.mem_filter, Finset.mem_Icc] at hk
          rw [← mul_div_assoc]
          refine div_le_div_of_nonneg_right ?_ hZ.le
          unfold dgW
          rw [← Real.exp_add, Real.exp_le_exp, ← add_div]
          refine div_le_div_of_nonneg_right ?_ (by positivity)
          have h1 : -(T : ℝ) + s ≤ k := by exact_mod_cast hk.2
          push_cast
          nlinarith
      _ = ∑ k ∈ (A.filter fun k => -T + s ≤ k).image (fun k => k + -s), Real.exp (T * s / σ ^ 2) * (dgW σ k / dgZ σ T) := by
          rw [Finset.sum_image hinj]
      _ ≤ _ := by
          refine Finset.sum_le_sum_of_subset_of_nonneg ?_ fun k _ _ => mul_nonneg (Real.exp_pos _).le (div_nonneg (dgW_pos _ _).le hZ.le)
          intro k hk
          simp only [hA, Finset.mem_image, Finset.mem_filter, Finset.mem_Icc, Set.mem_preimage] at hk
          obtain ⟨x, ⟨⟨⟨h1, h2⟩, h3⟩, h4⟩, rfl⟩ := hk
          simp only [Finset.mem_filter, Finset.mem_Icc]
          exact ⟨⟨by omega, by omega⟩, h3⟩
  · -- the edge
    have hone : ∀ k ∈ A.filter (fun k => ¬ -T + s ≤ k), dgW σ k / dgZ σ T ≤ 1 / (T + 1) := by
      intro k hk
      simp only [hA, Finset.mem_filter, Finset.mem_Icc, not_le] at hk
      have hk2 : T ≤ 2 * |k| := by
        rw [abs_of_nonpos (by omega)]
        omega
      have hT1 : (0 : ℝ) < T + 1 := by linarith
      rw [div_le_div_iff₀ hZ hT1, one_mul]
      -- at least `T + 1` points have at least this weight
      set B := Finset.Icc (-|k|) |k| with hB
      have hsub : B ⊆ Finset.Icc (-T) T := by
        have : |k| ≤ T := abs_le.2 ⟨by omega, by omega⟩
        intro x hx
        simp only [hB, Finset.mem_Icc] at hx ⊢
        omega
      have h0 : 0 ≤ |k| := abs_nonneg k
      have hcard : ((B.card : ℕ) : ℝ) = 2 * |k| + 1 := by
        rw [hB, Int.card_Icc]
        have : (((|k| + 1 - -|k|).toNat : ℕ) : ℤ) = 2 * |k| + 1 := by rw [Int.toNat_of_nonneg (by omega)]; ring
        exact_mod_cast congrArg (Int.cast : ℤ → ℝ) this
      calc dgW σ k * (T + 1) ≤ dgW σ k * B.card := by
            rw [hcard]
            refine mul_le_mul_of_nonneg_left ?_ (dgW_pos _ _).le
            have : (T : ℝ) ≤ 2 * ((|k| : ℤ) : ℝ) := by exact_mod_cast hk2
            linarith
        _ = ∑ j ∈ B, dgW σ k := by rw [Finset.sum_const, nsmul_eq_mul, mul_comm]
        _ ≤ ∑ j ∈ B, dgW σ j := Finset.sum_le_sum fun j hj => dgW_le (by
            simp only [hB, Finset.mem_Icc] at hj
            exact abs_le.2 hj)
        _ ≤ dgZ σ T := Finset.sum_le_sum_of_subset_of_nonneg hsub fun j _ _ => (dgW_pos _ _).le
    have hcard : (((A.filter fun k => ¬ -T + s ≤ k).card : ℕ) : ℝ) ≤ s := by
      have : (A.filter fun k => ¬ -T + s ≤ k).card ≤ (Finset.Ico (-T) (-T + s)).card := by
        refine Finset.card_le_card fun k hk => ?_
        simp only [hA, Finset.mem_filter, Finset.mem_Icc, not_le] at hk
        simp only [Finset.mem_Ico]
        omega
      rw [Int.card_Ico] at this
      have h2 : (((-T + s - -T).toNat : ℕ) : ℤ) = s := by rw [Int.toNat_of_nonneg (by omega)]; ring
      have h3 : (((A.filter fun k => ¬ -T + s ≤ k).card : ℕ) : ℤ) ≤ s := by omega
      exact_mod_cast h3
    calc _ ≤ ∑ k ∈ A.filter (fun k => ¬ -T + s ≤ k), 1 / ((T : ℝ) + 1) := Finset.sum_le_sum hone
      _ = ((A.filter fun k => ¬ -T + s ≤ k).card : ℕ) * (1 / ((T : ℝ) + 1)) := by rw [Finset.sum_const, nsmul_eq_mul]
      _ ≤ s * (1 / ((T : ℝ) + 1)) := by
          refine mul_le_mul_of_nonneg_right hcard ?_
          have : (0 : ℝ) < T + 1 := by linarith
          positivity
      _ = _ := by ring

/-- With enough noise the discrete Gaussian mechanism is private. -/
lemma discreteGaussian_small {σ ε δ : ℝ} (hε : 0 < ε) (hδ : 0 < δ) {s : ℤ} (hs : 0 < s)
    (h : max (max 1 (s : ℝ)) (max (12.6 * s / ε) (s / (11.6 * δ))) ≤ σ) :
    Indist (upper (discreteGaussian σ ⌈11.6 * σ⌉) s 1 .remove) (lower (discreteGaussian σ ⌈11.6 * σ⌉) s 1 .remove) ε δ := by
  have hs0 : (0 : ℝ) < s := by exact_mod_cast hs
  have h1 : 1 ≤ σ := (le_max_left _ _).trans ((le_max_left _ _).trans h)
  have h2 : (s : ℝ) ≤ σ := (le_max_right _ _).trans ((le_max_left _ _).trans h)
  have h3 : 12.6 * s / ε ≤ σ := (le_max_left _ _).trans ((le_max_right _ _).trans h)
  have h4 : s / (11.6 * δ) ≤ σ := (le_max_right _ _).trans ((le_max_right _ _).trans h)
  have hσ : 0 < σ := by linarith
  have hT := Int.le_ceil (11.6 * σ)
  have hT' := (Int.ceil_lt_add_one (11.6 * σ)).le
  set T := ⌈11.6 * σ⌉ with hTd
  have hsT : 2 * s ≤ T := by
    have : (2 : ℝ) * s ≤ T := by norm_num at hT; linarith
    exact_mod_cast this
  refine Indist.mono (mono_eps (discreteGaussian_remove hσ hs hsT) ?_) ?_
  · rw [div_le_iff₀ (by positivity)]
    rw [div_le_iff₀ hε] at h3
    have : (T : ℝ) ≤ 12.6 * σ := by norm_num at hT' ⊢; linarith
    calc (T : ℝ) * s ≤ 12.6 * σ * s := by gcongr
      _ = σ * (12.6 * s) := by ring
      _ ≤ σ * (σ * ε) := by gcongr
      _ = ε * σ ^ 2 := by ring
  · rw [div_le_iff₀ (by positivity)] at h4
    rw [div_le_iff₀ (by norm_num at hT; linarith)]
    nlinarith

/-! ### Scaling -/

lemma gaussian_remove_scale {σ s q c ε δ : ℝ} (hc : 0 < c)
    (h : Indist (upper (gaussianReal 0 (Real.toNNReal (σ ^ 2))) s q .remove) (lower (gaussianReal 0 (Real.toNNReal (σ ^ 2))) s q .remove) ε δ) :
    Indist (upper (gaussianReal 0 (Real.toNNReal ((c * σ) ^ 2))) (c * s) q .remove)
      (lower (gaussianReal 0 (Real.toNNReal ((c * σ) ^ 2))) (c * s) q .remove) ε δ := by
  have hm : Measurable fun x : ℝ => c * x := by fun_prop
  have h2 := Indist.map h hm
  have e : NNReal.mk (c ^ 2) (sq_nonneg c) * Real.toNNReal (σ ^ 2) = Real.toNNReal ((c * σ) ^ 2) := by
    rw [mul_pow, Real.toNNReal_mul (sq_nonneg _)]
    congr 1
    exact (Real.toNNReal_of_nonneg (sq_nonneg c)).symm
  simp only [upper, lower, mixShift, gaussianReal_map_add_const, zero_add] at h2 ⊢
  rw [mix_map _ _ _ hm, gaussianReal_map_const_mul, gaussianReal_map_const_mul, mul_zero, mul_neg] at h2
  rwa [e] at h2

/-- More noise, less loss. -/
lemma sampledGaussian_mono {σ σ' s q ε δ : ℝ} (hσ : 0 < σ) (h : σ ≤ σ') (hs : 0 ≤ s) (hp : Private (SampledGaussian σ s q) ε δ) :
    Indist (upper (gaussianReal 0 (Real.toNNReal (σ' ^ 2))) s q .remove) (lower (gaussianReal 0 (Real.toNNReal (σ' ^ 2))) s q .remove) ε δ := by
  have hσ' : 0 < σ' := hσ.trans_le h
  have hle : s * (σ / σ') ≤ s := mul_le_of_le_one_right hs ((div_le_one hσ').2 h)
  have h1 : Private (SampledGaussian σ (s * (σ / σ')) q) ε δ := by
    intro Ω _ P Q hC
    refine hp Ω P Q ?_
    cases hC with
    | mk f hf D r hr => exact .mk f (fun S r => (hf S r).trans hle) D r hr
  have h2 := gaussian_remove_scale (c := σ' / σ) (by positivity) (sampledGaussian_worst hσ (by positivity) h1)
  have e1 : σ' / σ * σ = σ' := by field_simp
  have e2 : σ' / σ * (s * (σ / σ')) = s := by field_simp
  rwa [e1, e2] at h2

end Verif.Spec

namespace Verif.SmallestNoise
open MeasureTheory ProbabilityTheory Verif.Spec Verif.Mech

lemma not_isClose_limit {ε q : ℝ} (hε : 0 < ε) (q0 : 0 < q) (q1 : q < 1) : ¬ IsClose ε (lossLimit q .remove) := by
  have h : lossLimit q .remove < 0 := Real.log_neg (by linarith) (by linarith)
  rintro (h1 | h1)
  · linarith
  · rw [abs_of_pos (by linarith : 0 < ε - lossLimit q .remove), abs_of_pos hε, abs_of_neg h] at h1
    have : max ε (-lossLimit q .remove) ≤ ε - lossLimit q .remove := max_le (by linarith) (by linarith)
    norm_num at h1
    linarith

lemma gaussianDelta_isHs {σ s q ε : ℝ} (hσ : 0 < σ) (hs : 0 < s) (q0 : 0 < q) (q1 : q ≤ 1) (hε : 0 < ε) :
    ∃ d, gaussianDelta ε s q σ = .ok d ∧ IsHs (upper (gaussianReal 0 (Real.toNNReal (σ ^ 2))) s q .remove)
      (lower (gaussianReal 0 (Real.toNNReal (σ ^ 2))) s q .remove) ε d := by
  obtain ⟨m, hm⟩ := mkGaussian_ok (σ := σ) (s := s) (lb := -50) (q := q) .remove hσ (by norm_num) ⟨hs, q0, q1⟩
  unfold gaussianDelta
  rw [hm]
  refine Props.C31_gaussian_partial hm ε ?_
  rcases q1.lt_or_eq with h | h
  · exact .inr (not_isClose_limit hε q0 h)
  · exact .inl h

/-- Sampling does not increase the delta. -/
lemma gaussianDelta_le {σ s q ε d : ℝ} (hσ : 0 < σ) (hs : 0 < s) (q0 : 0 < q) (q1 : q ≤ 1) (hε : 0 < ε)
    (h : gaussianDelta ε s q σ = .ok d) : d ≤ (gaussLaw (σ / s)).hs ε := by
  obtain ⟨d', h1, h2⟩ := gaussianDelta_isHs hσ hs q0 q1 hε
  rw [h, Except.ok.injEq] at h1
  subst h1
  refine h2.2 (sampled_of_unsampled q0.le q1 ?_)
  have := (gaussLaw_isHs (z := σ / s) (s := s) (by positivity) hs ε).1
  rwa [div_mul_cancel₀ _ hs.ne'] at this

end Verif.SmallestNoise
