import Verif.Proofs.DiscreteGaussian

/-! # `get_delta_for_epsilon` at epsilons that `math.isclose` identifies with the limit of the loss -/

namespace Verif.Mech
open Verif Spec Pld MeasureTheory LogDomain

/-- Below a positive limit that is close. -/
lemma isClose_below {a b : ℝ} (h : IsClose a b) (hb : 0 < b) (hab : a < b) : b - a ≤ 1e-9 * |b| := by
  rcases h with rfl | h
  · exact absurd hab (lt_irrefl _)
  · rw [abs_sub_comm, abs_of_pos (sub_pos.2 hab)] at h
    rcases le_or_gt |a| |b| with k | k
    · rwa [max_eq_right k] at h
    · rw [max_eq_left k.le] at h
      rcases le_or_gt 0 a with k0 | k0
      · rw [abs_of_nonneg k0, abs_of_pos hb] at k; linarith
      · rw [abs_of_neg k0] at h; linarith

/-- Above a negative limit that is close. -/
lemma isClose_above {a b : ℝ} (h : IsClose a b) (hb : b < 0) (hab : b < a) : a ≤ 0 ∧ a - b ≤ 1e-9 * |b| := by
  rcases h with rfl | h
  · exact absurd hab (lt_irrefl _)
  · rw [abs_of_pos (sub_pos.2 hab)] at h
    rcases le_or_gt a 0 with k0 | k0
    · refine ⟨k0, ?_⟩
      have k : |a| ≤ |b| := by rw [abs_of_nonpos k0, abs_of_neg hb]; linarith
      rwa [max_eq_right k] at h
    · rw [abs_of_pos k0, abs_of_neg hb] at h
      rcases max_cases a (-b) with ⟨e, -⟩ | ⟨e, -⟩ <;> rw [e] at h <;> linarith

lemma closeSlack_nonneg (q : ℝ) : 0 ≤ closeSlack q := by unfold closeSlack; positivity

section
variable {X : Type} [AddCommGroup X] [MeasurableSpace X] [MeasurableAdd X] {m : AdditiveNoise X} {ν : Measure X}
  [ν.IsAddRightInvariant] {f : X → ℝ}

/-- The divergence exists. -/
lemma exists_isHs (h : Faithful m ν f) (ε : ℝ) :
    ∃ d, IsHs (upper (ν.withDensity fun x => ENNReal.ofReal (f x)) m.sensitivity m.samplingProb m.adj)
      (lower (ν.withDensity fun x => ENNReal.ofReal (f x)) m.sensitivity m.samplingProb m.adj) ε d :=
  ⟨_, isHs_of_cut h ε (S := {x | Real.exp ε * lowerDens m f x ≤ upperDens m f x})
    (measurableSet_le ((measurable_dens h).2.const_mul _) (measurable_dens h).1) fun _ _ => ⟨id, fun k => (not_le.1 k).le⟩⟩

lemma mixShift_real' (μ : Measure X) [IsProbabilityMeasure μ] {q : ℝ} (q0 : 0 ≤ q) (q1 : q ≤ 1) (d : X) (S : Set X) :
    (mixShift μ q d).real S = (1 - q) * μ.real S + q * (μ.map fun x => x + d).real S := by
  have : IsProbabilityMeasure (μ.map fun x => x + d) := Measure.isProbabilityMeasure_map (measurable_add_const d).aemeasurable
  unfold mixShift
  rw [measureReal_add_apply (h₁ := ENNReal.mul_ne_top ENNReal.ofReal_ne_top (measure_ne_top _ _))
    (h₂ := ENNReal.mul_ne_top ENNReal.ofReal_ne_top (measure_ne_top _ _)), measureReal_ennreal_smul_apply, measureReal_ennreal_smul_apply,
    ENNReal.toReal_ofReal (by linarith), ENNReal.toReal_ofReal q0]

/-- At any cut-off the reported delta is at most the divergence. -/
lemma cut_le (h : Faithful m ν f) (ε : ℝ) (y : EReal) {d : ℝ}
    (hd : IsHs (upper (ν.withDensity fun x => ENNReal.ofReal (f x)) m.sensitivity m.samplingProb m.adj)
      (lower (ν.withDensity fun x => ENNReal.ofReal (f x)) m.sensitivity m.samplingProb m.adj) ε d) :
    AdditiveNoise.clip01 (m.muUpperCdf y - expLog (((ε : ℝ) : LogProb) + m.muLowerLogCdf y)) ≤ d := by
  have p1 := upper_prob h
  rw [expLog_add, muUpperCdf_eq h, muLowerLogCdf_eq h]
  have h1 := hd.1 _ (cdfSet_meas h y)
  refine (min_le_right _ _).trans (max_le (isHs_range hd).1 (by linarith))

/-- `get_delta_for_epsilon` for every epsilon: never above the divergence, and below it by at most the tolerance. -/
theorem getDelta_near (h : Faithful m ν f) (hbot : m.adj = .remove → m.noiseCdf (m.invNo ⊥ + (m.toReal m.sensitivity : EReal)) = 1) (ε : ℝ) :
    ∃ d d', m.getDelta ε = .ok d ∧
      IsHs (upper (ν.withDensity fun x => ENNReal.ofReal (f x)) m.sensitivity m.samplingProb m.adj)
        (lower (ν.withDensity fun x => ENNReal.ofReal (f x)) m.sensitivity m.samplingProb m.adj) ε d' ∧
      d ≤ d' ∧ d' ≤ d + closeSlack m.samplingProb := by
  have hs0 := closeSlack_nonneg m.samplingProb
  by_cases hgood : m.samplingProb = 1 ∨ ¬ IsClose ε (edge m)
  · obtain ⟨d, h1, h2⟩ := getDelta_isHs h ε hgood
    exact ⟨d, d, h1, h2, le_rfl, by linarith⟩
  push Not at hgood
  obtain ⟨hq, hc⟩ := hgood
  have q0 := h.q0
  have q1 : m.samplingProb < 1 := lt_of_le_of_ne h.q1 hq
  have hlog : Real.log (1 - m.samplingProb) < 0 := Real.log_neg (by linarith) (by linarith)
  have es : 1 + -m.samplingProb = 1 - m.samplingProb := by ring
  have hμ := h.prob
  obtain ⟨d', hd'⟩ := exists_isHs h ε
  have p1 := upper_prob h
  have p2 := lower_prob h
  have r' := isHs_range hd'
  unfold AdditiveNoise.getDelta
  rw [if_neg hq]
  cases ha : m.adj with
  | add =>
    simp only [es]
    rw [ha] at hd'
    have hc' : IsClose ε (-Real.log (1 - m.samplingProb)) := by simpa only [edge, ha] using hc
    split_ifs with k
    · have hdel : m.deltaAtCutoff ε = .ok (AdditiveNoise.clip01 (m.muUpperCdf (m.invNo ⊤) - expLog (((ε : ℝ) : LogProb) + m.muLowerLogCdf (m.invNo ⊤)))) := by
        unfold AdditiveNoise.deltaAtCutoff AdditiveNoise.inversePrivacyLoss
        simp only [if_neg hq, ha, if_pos hc']
        rfl
      refine ⟨_, d', hdel, hd', cut_le h ε _ (by rw [ha]; exact hd'), ?_⟩
      have c0 : 0 ≤ AdditiveNoise.clip01 (m.muUpperCdf (m.invNo ⊤) - expLog (((ε : ℝ) : LogProb) + m.muLowerLogCdf (m.invNo ⊤))) :=
        le_min zero_le_one (le_max_left _ _)
      have hb := isClose_below hc' (by linarith) k
      rw [abs_neg] at hb
      have : d' ≤ closeSlack m.samplingProb := by
        refine hd'.2 fun S hS => ?_
        simp only [upper, lower]
        rw [mixShift_real' _ q0.le q1.le]
        set t := ε + Real.log (1 - m.samplingProb) with ht
        have e1 : Real.exp ε * (1 - m.samplingProb) = Real.exp t := by
          rw [ht, Real.exp_add, Real.exp_log (by linarith)]
        have e2 := Real.add_one_le_exp t
        have e3 : -t ≤ closeSlack m.samplingProb := by unfold closeSlack; rw [ht]; linarith
        set a := (ν.withDensity fun x => ENNReal.ofReal (f x)).real S
        have a0 : 0 ≤ a := measureReal_nonneg
        have a1 : a ≤ 1 := measureReal_le_one
        have b0 : 0 ≤ Real.exp ε * (m.samplingProb * (Measure.map (fun x => x + m.sensitivity) (ν.withDensity fun x => ENNReal.ofReal (f x))).real S) :=
          mul_nonneg (Real.exp_pos _).le (mul_nonneg q0.le measureReal_nonneg)
        rw [mul_add, ← mul_assoc, e1]
        nlinarith
      linarith
    · refine ⟨_, d', rfl, hd', ?_, ?_⟩
      · simpa [AdditiveNoise.clip01] using r'.1
      · have : d' ≤ 0 := by
          refine hd'.2 fun S hS => ?_
          simp only [upper, lower]
          rw [mixShift_real' _ q0.le q1.le]
          have e1 : 1 ≤ Real.exp ε * (1 - m.samplingProb) := by
            have : Real.exp (ε + Real.log (1 - m.samplingProb)) = Real.exp ε * (1 - m.samplingProb) := by
              rw [Real.exp_add, Real.exp_log (by linarith)]
            rw [← this]
            exact Real.one_le_exp (by linarith)
          have a0 : 0 ≤ (ν.withDensity fun x => ENNReal.ofReal (f x)).real S := measureReal_nonneg
          have b0 : 0 ≤ Real.exp ε * (m.samplingProb * (Measure.map (fun x => x + m.sensitivity) (ν.withDensity fun x => ENNReal.ofReal (f x))).real S) :=
            mul_nonneg (Real.exp_pos _).le (mul_nonneg q0.le measureReal_nonneg)
          nlinarith
        have : AdditiveNoise.clip01 0 = 0 := by simp [AdditiveNoise.clip01]
        linarith
  | remove =>
    simp only [es]
    have hc' : IsClose ε (Real.log (1 - m.samplingProb)) := by simpa only [edge, ha] using hc
    split_ifs with k
    · have hdel : m.deltaAtCutoff ε = .ok (AdditiveNoise.clip01 (m.muUpperCdf (m.invNo ⊥) - expLog (((ε : ℝ) : LogProb) + m.muLowerLogCdf (m.invNo ⊥)))) := by
        unfold AdditiveNoise.deltaAtCutoff AdditiveNoise.inversePrivacyLoss
        simp only [if_neg hq, ha, if_pos hc']
        rfl
      have hb := isClose_above hc' hlog k
      have e0 : 1 - m.samplingProb < Real.exp ε := by
        rw [← Real.exp_log (show 0 < 1 - m.samplingProb by linarith)]
        exact Real.exp_lt_exp.2 k
      have e1 : Real.exp ε - (1 - m.samplingProb) ≤ closeSlack m.samplingProb := by
        have h1 : 1 - m.samplingProb = Real.exp ε * Real.exp (Real.log (1 - m.samplingProb) - ε) := by
          rw [← Real.exp_add, add_sub_cancel, Real.exp_log (by linarith)]
        have h2 := Real.add_one_le_exp (Real.log (1 - m.samplingProb) - ε)
        have h3 : Real.exp ε ≤ 1 := Real.exp_le_one_iff.2 hb.1
        have h4 := Real.exp_pos ε
        have h5 := hb.2
        unfold closeSlack
        nlinarith
      refine ⟨_, d', hdel, (by rw [ha] at hd'; exact hd'), cut_le h ε _ hd', ?_⟩
      have c0 : Real.exp ε * expLog (m.muLowerLogCdf (m.invNo ⊥)) = Real.exp ε * m.noiseCdf (m.invNo ⊥) := by
        rw [muLowerLogCdf_eq h, h.cdf]
        unfold lower cdfOf
        simp only [ha]
      have c1 : m.muUpperCdf (m.invNo ⊥) = (1 - m.samplingProb) * m.noiseCdf (m.invNo ⊥) + m.samplingProb := by
        unfold AdditiveNoise.muUpperCdf
        simp only [ha, if_neg hq, hbot ha, mul_one]
      have c2 : 0 ≤ m.noiseCdf (m.invNo ⊥) ∧ m.noiseCdf (m.invNo ⊥) ≤ 1 := by
        rw [h.cdf]; exact ⟨measureReal_nonneg, measureReal_le_one⟩
      rw [expLog_add, c0, c1]
      have hub : d' ≤ m.samplingProb := by
        refine hd'.2 fun S hS => ?_
        simp only [upper, lower, ha]
        rw [mixShift_real' _ q0.le q1.le]
        have : IsProbabilityMeasure (Measure.map (fun x => x + -m.sensitivity) (ν.withDensity fun x => ENNReal.ofReal (f x))) :=
          Measure.isProbabilityMeasure_map (measurable_add_const _).aemeasurable
        have b1 : (Measure.map (fun x => x + -m.sensitivity) (ν.withDensity fun x => ENNReal.ofReal (f x))).real S ≤ 1 := measureReal_le_one
        have a0 : 0 ≤ (ν.withDensity fun x => ENNReal.ofReal (f x)).real S := measureReal_nonneg
        nlinarith
      have c3 : (1 - m.samplingProb) * m.noiseCdf (m.invNo ⊥) + m.samplingProb - Real.exp ε * m.noiseCdf (m.invNo ⊥) ≤
          AdditiveNoise.clip01 ((1 - m.samplingProb) * m.noiseCdf (m.invNo ⊥) + m.samplingProb - Real.exp ε * m.noiseCdf (m.invNo ⊥)) := by
        refine le_min ?_ (le_max_right _ _)
        nlinarith [c2.1, c2.2]
      nlinarith [c2.1, c2.2]
    · have e1 : Real.exp ε ≤ 1 - m.samplingProb := by
        rw [← Real.exp_log (show 0 < 1 - m.samplingProb by linarith)]
        exact Real.exp_le_exp.2 (by linarith)
      refine ⟨_, d', rfl, (by rw [ha] at hd'; exact hd'), ?_, ?_⟩
      · have h1 := hd'.1 Set.univ MeasurableSet.univ
        rw [probReal_univ, probReal_univ] at h1
        exact (min_le_right _ _).trans (max_le r'.1 (by linarith))
      · have : d' ≤ 1 - Real.exp ε := by
          refine hd'.2 fun S hS => ?_
          simp only [upper, lower, ha]
          rw [mixShift_real' _ q0.le q1.le]
          have : IsProbabilityMeasure (Measure.map (fun x => x + -m.sensitivity) (ν.withDensity fun x => ENNReal.ofReal (f x))) :=
            Measure.isProbabilityMeasure_map (measurable_add_const _).aemeasurable
          have b1 : (Measure.map (fun x => x + -m.sensitivity) (ν.withDensity fun x => ENNReal.ofReal (f x))).real S ≤ 1 := measureReal_le_one
          have a1 : (ν.withDensity fun x => ENNReal.ofReal (f x)).real S ≤ 1 := measureReal_le_one
          nlinarith
        have c : 1 - Real.exp ε ≤ AdditiveNoise.clip01 (-(Real.exp ε - 1)) :=
          le_min (by linarith [Real.exp_pos ε]) (le_max_of_le_right (by linarith))
        linarith

end

/-! ### The largest cut-off takes everything -/

lemma cdfOf_top {X : Type} [MeasurableSpace X] (g : X → ℝ) (μ : Measure X) [IsProbabilityMeasure μ] : cdfOf g μ ⊤ = 1 := by
  simp [cdfOf]

lemma laplace_bot {b s q : ℝ} {adj : Adj} {m : AdditiveNoise ℝ} (h : mkLaplace b s q adj = .ok m) :
    m.noiseCdf (m.invNo ⊥ + (m.toReal m.sensitivity : EReal)) = 1 := by
  obtain ⟨hf, -, -, -, -, hb⟩ := laplace_faithful h
  have := hf.prob
  have e : m.invNo ⊥ = ⊤ := by
    unfold mkLaplace at h
    rw [if_neg (not_le.2 hb)] at h
    obtain ⟨-, rfl⟩ := map_checkBase h
    rfl
  rw [e, EReal.top_add_coe, hf.cdf, cdfOf_top]

lemma gaussian_bot {σ s lb q : ℝ} {adj : Adj} {m : AdditiveNoise ℝ} (h : mkGaussian σ s lb q adj = .ok m) :
    m.noiseCdf (m.invNo ⊥ + (m.toReal m.sensitivity : EReal)) = 1 := by
  obtain ⟨hf, -, -, -, -, hσ⟩ := gaussian_faithful h
  have := hf.prob
  have e : m.invNo ⊥ = ⊤ := by
    unfold mkGaussian at h
    rw [if_neg (not_le.2 hσ)] at h
    by_cases hl : lb > 0
    · rw [if_pos hl] at h; exact absurd h (by simp)
    rw [if_neg hl] at h
    obtain ⟨-, rfl⟩ := map_checkBase h
    rfl
  rw [e, EReal.top_add_coe, hf.cdf, cdfOf_top]

lemma discreteLaplace_bot {a q : ℝ} {s : ℤ} {adj : Adj} {m : AdditiveNoise ℤ} (h : mkDiscreteLaplace a s q adj = .ok m) :
    m.noiseCdf (m.invNo ⊥ + (m.toReal m.sensitivity : EReal)) = 1 := by
  obtain ⟨hf, -, -, -, -, hb⟩ := discreteLaplace_faithful h
  have := hf.prob
  have e : m.invNo ⊥ = ⊤ := by
    unfold mkDiscreteLaplace at h
    rw [if_neg (not_le.2 hb)] at h
    obtain ⟨-, rfl⟩ := map_checkBase h
    rfl
  rw [e, EReal.top_add_coe, hf.cdf, cdfOf_top]

lemma discreteGaussian_bot {σ q : ℝ} {s : ℤ} {bound : Option ℤ} {m : AdditiveNoise ℤ}
    (h : mkDiscreteGaussian σ s bound q .remove = .ok m) : m.noiseCdf (m.invNo ⊥ + (m.toReal m.sensitivity : EReal)) = 1 := by
  obtain ⟨hf, -, -, -, s0, hσ, hT⟩ := discreteGaussian_faithful h
  have hp := dg_prob σ (T := dgBound σ bound) (by omega)
  have e : m.invNo ⊥ + (m.toReal m.sensitivity : EReal) = (((dgBound σ bound : ℤ) : ℝ) : EReal) := by
    unfold mkDiscreteGaussian at h
    rw [if_neg (not_le.2 hσ)] at h
    simp only [] at h
    rw [if_neg (not_lt.2 hT)] at h
    obtain ⟨-, rfl⟩ := map_checkBase h
    show (((dgBound σ bound - s : ℤ) : ℝ) : EReal) + (((s : ℤ) : ℝ) : EReal) = _
    rw [← EReal.coe_add, EReal.coe_eq_coe_iff]
    push_cast
    ring
  have hto : m.toReal = Int.castAddHom ℝ := by
    unfold mkDiscreteGaussian at h
    rw [if_neg (not_le.2 hσ)] at h
    simp only [] at h
    rw [if_neg (not_lt.2 hT)] at h
    obtain ⟨-, rfl⟩ := map_checkBase h
    rfl
  rw [e, hf.cdf, ← discreteGaussian_eq, hto]
  unfold cdfOf
  classical
  rw [dg_measureReal, Finset.filter_true_of_mem]
  · rw [← Finset.sum_div]
    exact div_self (dgZ_pos σ (by omega)).ne'
  · intro k hk
    rw [Finset.mem_Icc] at hk
    show (((k : ℤ) : ℝ) : EReal) ≤ _
    exact_mod_cast hk.2

end Verif.Mech
