import Verif.Proofs.NoiseNear
import Verif.Proofs.PldEventLaws

/-! # Additive noise: how the delta depends on the sampling probability, the sensitivity and the scale of the noise -/

namespace Verif.Mech
open Verif Spec Pld MeasureTheory ProbabilityTheory LogDomain

section
variable {X : Type} [AddCommGroup X] [MeasurableSpace X] [MeasurableAdd X]

lemma isHs_mono_of_indist {Ω Ω' : Type*} [MeasurableSpace Ω] [MeasurableSpace Ω'] {P Q : Measure Ω} {P' Q' : Measure Ω'} {ε d d' : ℝ}
    (hd : IsHs P Q ε d) (hd' : IsHs P' Q' ε d') (h : ∀ e, Indist P' Q' ε e → Indist P Q ε e) : d ≤ d' := hd.2 (h d' hd'.1)

/-- A smaller sampling probability is a mixture of the larger one and of not using the record at all. -/
lemma indist_sampling (μ : Measure X) [IsProbabilityMeasure μ] (s : X) {q q' : ℝ} (q0 : 0 < q) (hq : q ≤ q') (q1 : q' ≤ 1) (adj : Adj)
    (ε d : ℝ) (h : Indist (upper μ s q' adj) (lower μ s q' adj) ε d) : Indist (upper μ s q adj) (lower μ s q adj) ε d := by
  have qp : 0 < q' := q0.trans_le hq
  have hd0 : 0 ≤ d := by simpa using h ∅ MeasurableSet.empty
  have t0 : 0 ≤ q / q' := by positivity
  have t1 : q / q' ≤ 1 := by rw [div_le_one qp]; exact hq
  have et : q = q / q' * q' := by field_simp
  have he := Real.exp_pos ε
  cases adj with
  | add =>
    have hmix : ∀ S, MeasurableSet S → (lower μ s q .add).real S = (1 - q / q') * μ.real S + q / q' * (lower μ s q' .add).real S := by
      intro S hS
      simp only [lower]
      rw [mixShift_real' μ q0.le (hq.trans q1), mixShift_real' μ qp.le q1]
      field_simp
      ring
    have hu : 1 ≤ Real.exp ε + d := by
      have := h Set.univ MeasurableSet.univ
      have p := mixShift_prob μ q' qp.le q1 s
      simp only [upper, lower, probReal_univ] at this
      linarith
    intro S hS
    have h1 := h S hS
    rw [hmix S hS]
    simp only [upper, lower] at h1 ⊢
    have a0 : 0 ≤ μ.real S := measureReal_nonneg
    have a1 : μ.real S ≤ 1 := measureReal_le_one
    have k : μ.real S ≤ Real.exp ε * μ.real S + d := by nlinarith
    generalize (mixShift μ q' s).real S = z at *
    have k1 := mul_le_mul_of_nonneg_left h1 t0
    have k2 := mul_le_mul_of_nonneg_left k (sub_nonneg.2 t1)
    linarith
  | remove =>
    have hmix : ∀ S, MeasurableSet S → (upper μ s q .remove).real S = (1 - q / q') * μ.real S + q / q' * (upper μ s q' .remove).real S := by
      intro S hS
      simp only [upper]
      rw [mixShift_real' μ q0.le (hq.trans q1), mixShift_real' μ qp.le q1]
      field_simp
      ring
    have hu : 1 ≤ Real.exp ε + d := by
      have := h Set.univ MeasurableSet.univ
      have p := mixShift_prob μ q' qp.le q1 (-s)
      simp only [upper, lower, probReal_univ] at this
      linarith
    intro S hS
    have h1 := h S hS
    rw [hmix S hS]
    simp only [upper, lower] at h1 ⊢
    have a0 : 0 ≤ μ.real S := measureReal_nonneg
    have a1 : μ.real S ≤ 1 := measureReal_le_one
    have k : μ.real S ≤ Real.exp ε * μ.real S + d := by nlinarith
    generalize (mixShift μ q' (-s)).real S = z at *
    have k1 := mul_le_mul_of_nonneg_left h1 t0
    have k2 := mul_le_mul_of_nonneg_left k (sub_nonneg.2 t1)
    linarith

variable {m m' : AdditiveNoise X} {ν ν' : Measure X} [ν.IsAddRightInvariant] [ν'.IsAddRightInvariant] {f f' : X → ℝ}

/-- What the subclass returns as cut-off for an infinite loss. -/
structure Edges (m : AdditiveNoise X) : Prop where
  bot : m.adj = .remove → m.noiseCdf (m.invNo ⊥ + (m.toReal m.sensitivity : EReal)) = 1
  top : m.adj = .add → m.noiseCdf (m.invNo ⊤ + ((-m.toReal m.sensitivity : ℝ) : EReal)) = 0

lemma noiseCdf_range (h : Faithful m ν f) (x : EReal) : 0 ≤ m.noiseCdf x ∧ m.noiseCdf x ≤ 1 := by
  have := h.prob
  rw [h.cdf]
  exact ⟨measureReal_nonneg, measureReal_le_one⟩

lemma noiseCdf_mono (h : Faithful m ν f) {x y : EReal} (hxy : x ≤ y) : m.noiseCdf x ≤ m.noiseCdf y := by
  have := h.prob
  rw [h.cdf, h.cdf]
  exact measureReal_mono fun z hz => le_trans hz hxy

/-- The upper cdf at a cut-off. -/
lemma muUpper_form (h : Faithful m ν f) (x : EReal) : m.muUpperCdf x = match m.adj with
    | .add => m.noiseCdf x
    | .remove => (1 - m.samplingProb) * m.noiseCdf x + m.samplingProb * m.noiseCdf (x + (m.toReal m.sensitivity : EReal)) := by
  rw [muUpperCdf_eq h]
  cases ha : m.adj with
  | add => simp only [upper]; rw [h.cdf]; rfl
  | remove => simp only [upper]; rw [cdf_mixShift h, map_neg, neg_neg]

/-- The lower cdf at a cut-off. -/
lemma muLower_form (h : Faithful m ν f) (x : EReal) : expLog (m.muLowerLogCdf x) = match m.adj with
    | .add => (1 - m.samplingProb) * m.noiseCdf x + m.samplingProb * m.noiseCdf (x + ((-m.toReal m.sensitivity : ℝ) : EReal))
    | .remove => m.noiseCdf x := by
  rw [muLowerLogCdf_eq h]
  cases ha : m.adj with
  | add => simp only [lower]; rw [cdf_mixShift h]
  | remove => simp only [lower]; rw [h.cdf]; rfl

/-- Close to the largest loss, ADD. -/
lemma getDelta_close_add (h : Faithful m ν f) (he : Edges m) (ha : m.adj = .add) (hq : m.samplingProb < 1) {ε : ℝ} (hc : IsClose ε (edge m)) :
    m.getDelta ε = .ok (m.noiseCdf (m.invNo ⊤) * max 0 (1 - Real.exp ε * (1 - m.samplingProb))) := by
  have q0 := h.q0
  have es : 1 + -m.samplingProb = 1 - m.samplingProb := by ring
  have hc' : IsClose ε (-Real.log (1 - m.samplingProb)) := by simpa only [edge, ha] using hc
  have r := noiseCdf_range h (m.invNo ⊤)
  unfold AdditiveNoise.getDelta
  rw [if_neg hq.ne]
  simp only [ha, es]
  have ee : Real.exp ε * (1 - m.samplingProb) = Real.exp (ε + Real.log (1 - m.samplingProb)) := by
    rw [Real.exp_add, Real.exp_log (by linarith)]
  split_ifs with k
  · have hdel : m.deltaAtCutoff ε = .ok (AdditiveNoise.clip01 (m.muUpperCdf (m.invNo ⊤) - expLog (((ε : ℝ) : LogProb) + m.muLowerLogCdf (m.invNo ⊤)))) := by
      unfold AdditiveNoise.deltaAtCutoff AdditiveNoise.inversePrivacyLoss
      simp only [if_neg hq.ne, ha, if_pos hc']
      rfl
    rw [hdel, expLog_add, muUpper_form h, muLower_form h]
    simp only [ha]
    rw [he.top ha]
    have hlt : Real.exp ε * (1 - m.samplingProb) < 1 := by
      rw [ee]; exact (Real.exp_lt_exp.2 (show _ < 0 by linarith)).trans_eq Real.exp_zero
    have h0 : 0 ≤ Real.exp ε * (1 - m.samplingProb) := mul_nonneg (Real.exp_pos _).le (by linarith)
    rw [max_eq_right (by linarith)]
    have e : m.noiseCdf (m.invNo ⊤) - Real.exp ε * ((1 - m.samplingProb) * m.noiseCdf (m.invNo ⊤) + m.samplingProb * 0) =
      m.noiseCdf (m.invNo ⊤) * (1 - Real.exp ε * (1 - m.samplingProb)) := by ring
    rw [e]
    congr 1
    unfold AdditiveNoise.clip01
    rw [max_eq_right (mul_nonneg r.1 (by linarith)), min_eq_right (mul_le_one₀ r.2 (by linarith) (by linarith))]
  · have : 1 ≤ Real.exp ε * (1 - m.samplingProb) := by
      rw [ee]; exact Real.one_le_exp (by linarith)
    rw [max_eq_left (by linarith), mul_zero]
    simp [AdditiveNoise.clip01]

/-- Close to the smallest loss, REMOVE. -/
lemma getDelta_close_remove (h : Faithful m ν f) (he : Edges m) (ha : m.adj = .remove) (hq : m.samplingProb < 1) {ε : ℝ}
    (hc : IsClose ε (edge m)) :
    m.getDelta ε = .ok (1 - Real.exp ε + (1 - m.noiseCdf (m.invNo ⊥)) * max 0 (Real.exp ε - (1 - m.samplingProb))) ∧ ε ≤ 0 := by
  have q0 := h.q0
  have es : 1 + -m.samplingProb = 1 - m.samplingProb := by ring
  have hc' : IsClose ε (Real.log (1 - m.samplingProb)) := by simpa only [edge, ha] using hc
  have hlog : Real.log (1 - m.samplingProb) < 0 := Real.log_neg (by linarith) (by linarith)
  have r := noiseCdf_range h (m.invNo ⊥)
  have hε : ε ≤ 0 := by
    rcases le_or_gt ε (Real.log (1 - m.samplingProb)) with k | k
    · linarith
    · exact (isClose_above hc' hlog k).1
  have ee : Real.exp ε ≤ 1 := Real.exp_le_one_iff.2 hε
  refine ⟨?_, hε⟩
  unfold AdditiveNoise.getDelta
  rw [if_neg hq.ne]
  simp only [ha, es]
  split_ifs with k
  · have hdel : m.deltaAtCutoff ε = .ok (AdditiveNoise.clip01 (m.muUpperCdf (m.invNo ⊥) - expLog (((ε : ℝ) : LogProb) + m.muLowerLogCdf (m.invNo ⊥)))) := by
      unfold AdditiveNoise.deltaAtCutoff AdditiveNoise.inversePrivacyLoss
      simp only [if_neg hq.ne, ha, if_pos hc']
      rfl
    rw [hdel, expLog_add, muUpper_form h, muLower_form h]
    simp only [ha]
    rw [he.bot ha]
    have hlt : 1 - m.samplingProb < Real.exp ε := by
      rw [← Real.exp_log (show 0 < 1 - m.samplingProb by linarith)]; exact Real.exp_lt_exp.2 k
    rw [max_eq_right (by linarith)]
    have e : (1 - m.samplingProb) * m.noiseCdf (m.invNo ⊥) + m.samplingProb * 1 - Real.exp ε * m.noiseCdf (m.invNo ⊥) =
      1 - Real.exp ε + (1 - m.noiseCdf (m.invNo ⊥)) * (Real.exp ε - (1 - m.samplingProb)) := by ring
    rw [e]
    congr 1
    unfold AdditiveNoise.clip01
    have n1 : 0 ≤ (1 - m.noiseCdf (m.invNo ⊥)) * (Real.exp ε - (1 - m.samplingProb)) := mul_nonneg (by linarith) (by linarith)
    rw [max_eq_right (by linarith), min_eq_right (by nlinarith)]
  · have : Real.exp ε ≤ 1 - m.samplingProb := by
      rw [← Real.exp_log (show 0 < 1 - m.samplingProb by linarith)]; exact Real.exp_le_exp.2 (not_lt.1 k)
    rw [max_eq_left (by linarith), mul_zero, add_zero]
    congr 1
    unfold AdditiveNoise.clip01
    rw [max_eq_right (by linarith), min_eq_right (by have := Real.exp_pos ε; linarith)]
    ring

/-- An epsilon that is close to the limit for the larger sampling probability, and not for the smaller one, is beyond the limit for
the smaller one. -/
lemma close_add {q q' ε : ℝ} (q0 : 0 < q) (hq : q ≤ q') (q1 : q' < 1) (hc : IsClose ε (-Real.log (1 - q')))
    (hn : ¬ IsClose ε (-Real.log (1 - q))) : -Real.log (1 - q) ≤ ε := by
  by_contra hlt
  push Not at hlt
  have l1 : Real.log (1 - q') ≤ Real.log (1 - q) := Real.log_le_log (by linarith) (by linarith)
  have l0 : Real.log (1 - q) < 0 := Real.log_neg (by linarith) (by linarith)
  have hb := isClose_below hc (by linarith) (by linarith)
  rw [abs_of_pos (by linarith)] at hb
  refine hn (.inr ?_)
  rw [abs_of_neg (by linarith), abs_of_pos (a := -Real.log (1 - q)) (by linarith)]
  have := le_max_right |ε| (-Real.log (1 - q))
  nlinarith

lemma close_remove {q q' ε : ℝ} (q0 : 0 < q) (hq : q ≤ q') (q1 : q' < 1) (hc : IsClose ε (Real.log (1 - q')))
    (hn : ¬ IsClose ε (Real.log (1 - q))) : ε ≤ Real.log (1 - q) := by
  by_contra hlt
  push Not at hlt
  have l1 : Real.log (1 - q') ≤ Real.log (1 - q) := Real.log_le_log (by linarith) (by linarith)
  have l0 : Real.log (1 - q) < 0 := Real.log_neg (by linarith) (by linarith)
  have hb := (isClose_above hc (by linarith) (by linarith)).2
  rw [abs_of_neg (by linarith)] at hb
  refine hn (.inr ?_)
  rw [abs_of_pos (by linarith), abs_of_neg (a := Real.log (1 - q)) (by linarith)]
  have := le_max_right |ε| (-Real.log (1 - q))
  nlinarith

/-- A comparison of the divergences carries over to what is reported. -/
theorem getDelta_le (h : Faithful m ν f) (h' : Faithful m' ν' f') (he : Edges m) (he' : Edges m') (ha : m.adj = m'.adj)
    (hq : m.samplingProb ≤ m'.samplingProb) (hA : m.adj = .add → m.noiseCdf (m.invNo ⊤) ≤ m'.noiseCdf (m'.invNo ⊤))
    (hF : m.adj = .remove → m'.noiseCdf (m'.invNo ⊥) ≤ m.noiseCdf (m.invNo ⊥)) (ε : ℝ)
    (hs : m'.samplingProb = 1 ∨ ¬ IsClose ε (edge m') → ∀ d d',
      IsHs (upper (ν.withDensity fun x => ENNReal.ofReal (f x)) m.sensitivity m.samplingProb m.adj)
        (lower (ν.withDensity fun x => ENNReal.ofReal (f x)) m.sensitivity m.samplingProb m.adj) ε d →
      IsHs (upper (ν'.withDensity fun x => ENNReal.ofReal (f' x)) m'.sensitivity m'.samplingProb m'.adj)
        (lower (ν'.withDensity fun x => ENNReal.ofReal (f' x)) m'.sensitivity m'.samplingProb m'.adj) ε d' → d ≤ d') :
    ∃ d d', m.getDelta ε = .ok d ∧ m'.getDelta ε = .ok d' ∧ d ≤ d' := by
  by_cases hgood : m'.samplingProb = 1 ∨ ¬ IsClose ε (edge m')
  · obtain ⟨d', h1, h2⟩ := getDelta_isHs h' ε hgood
    obtain ⟨d, dt, k1, k2, k3, -⟩ := getDelta_near h he.bot ε
    exact ⟨d, d', k1, h1, k3.trans (hs hgood dt d' k2 h2)⟩
  push Not at hgood
  obtain ⟨hq1, hc⟩ := hgood
  have q1 : m'.samplingProb < 1 := lt_of_le_of_ne h'.q1 hq1
  have q0 := h.q0
  have hqs : m.samplingProb < 1 := hq.trans_lt q1
  have es : 1 + -m.samplingProb = 1 - m.samplingProb := by ring
  cases ha' : m'.adj with
  | add =>
    rw [ha'] at ha
    have r := noiseCdf_range h (m.invNo ⊤)
    have r' := noiseCdf_range h' (m'.invNo ⊤)
    by_cases hc1 : IsClose ε (edge m)
    · refine ⟨_, _, getDelta_close_add h he ha hqs hc1, getDelta_close_add h' he' ha' q1 hc, ?_⟩
      refine mul_le_mul (hA ha) (max_le_max le_rfl ?_) (le_max_left _ _) r'.1
      have := Real.exp_pos ε
      nlinarith
    · refine ⟨0, _, ?_, getDelta_close_add h' he' ha' q1 hc, mul_nonneg r'.1 (le_max_left _ _)⟩
      have hb : -Real.log (1 - m.samplingProb) ≤ ε := by
        simp only [edge, ha, ha'] at hc hc1
        exact close_add q0 hq q1 hc hc1
      unfold AdditiveNoise.getDelta
      rw [if_neg hqs.ne]
      simp only [ha, es]
      rw [if_neg (not_lt.2 hb)]
      simp [AdditiveNoise.clip01]
  | remove =>
    rw [ha'] at ha
    have r := noiseCdf_range h (m.invNo ⊥)
    have r' := noiseCdf_range h' (m'.invNo ⊥)
    obtain ⟨g', hε⟩ := getDelta_close_remove h' he' ha' q1 hc
    by_cases hc1 : IsClose ε (edge m)
    · refine ⟨_, _, (getDelta_close_remove h he ha hqs hc1).1, g', add_le_add le_rfl ?_⟩
      refine mul_le_mul (by linarith [hF ha]) (max_le_max le_rfl ?_) (le_max_left _ _) (by linarith)
      linarith
    · have hb : ε ≤ Real.log (1 - m.samplingProb) := by
        simp only [edge, ha, ha'] at hc hc1
        exact close_remove q0 hq q1 hc hc1
      refine ⟨1 - Real.exp ε, _, ?_, g', ?_⟩
      · unfold AdditiveNoise.getDelta
        rw [if_neg hqs.ne]
        simp only [ha, es]
        rw [if_neg (not_lt.2 hb)]
        congr 1
        unfold AdditiveNoise.clip01
        have := Real.exp_le_one_iff.2 hε
        rw [max_eq_right (by linarith), min_eq_right (by have := Real.exp_pos ε; linarith)]
        ring
      · have := mul_nonneg (show 0 ≤ 1 - m'.noiseCdf (m'.invNo ⊥) by linarith) (le_max_left 0 (Real.exp ε - (1 - m'.samplingProb)))
        linarith

open Classical in
/-- Away from the edge the divergence is attained on outputs below a cut-off. -/
lemma exists_cut (h : Faithful m ν f) (ε : ℝ) (hε : m.samplingProb = 1 ∨ ¬ IsClose ε (edge m)) : ∃ y : EReal,
    IsHs (upper (ν.withDensity fun x => ENNReal.ofReal (f x)) m.sensitivity m.samplingProb m.adj)
      (lower (ν.withDensity fun x => ENNReal.ofReal (f x)) m.sensitivity m.samplingProb m.adj) ε
      (m.muUpperCdf y - Real.exp ε * expLog (m.muLowerLogCdf y)) := by
  have q0 := h.q0
  have he := Real.exp_pos ε
  have n1 : ∀ x, 0 ≤ num m f x := fun x => by unfold num; cases m.adj <;> exact h.nonneg _
  have n2 : ∀ x, 0 ≤ den m f x := fun x => by unfold den; cases m.adj <;> exact h.nonneg _
  by_cases hin : m.samplingProb = 1 ∨ (¬ IsClose ε (edge m) ∧ (m.adj = .add → ε < edge m) ∧ (m.adj = .remove → edge m < ε))
  · obtain ⟨y, hy, hx⟩ := inverse_iff h ε hin
    refine ⟨y, ?_⟩
    have := isHs_of_cut h ε (cdfSet_meas h y) fun x k =>
      ⟨fun hxy => (hx x k).1 hxy, fun hxy => (not_le.1 fun c => hxy ((hx x k).2 c)).le⟩
    rwa [muUpperCdf_eq h, muLowerLogCdf_eq h]
  push Not at hin
  obtain ⟨hq, hin⟩ := hin
  have hc := hε.resolve_left hq
  have q1 : m.samplingProb < 1 := lt_of_le_of_ne h.q1 hq
  have hin := hin hc
  cases ha : m.adj with
  | add =>
    have hb : edge m ≤ ε := by
      by_contra hlt
      have := (hin fun _ => not_le.1 hlt).1
      rw [ha] at this
      exact absurd this (by simp)
    refine ⟨⊥, ?_⟩
    have e1 : Real.exp (-ε) ≤ 1 - m.samplingProb := by
      rw [← Real.exp_log (show 0 < 1 - m.samplingProb by linarith)]
      simp only [edge, ha] at hb
      exact Real.exp_le_exp.2 (by linarith)
    have e3 : Real.exp (-ε) * Real.exp ε = 1 := by rw [← Real.exp_add]; simp
    have := isHs_of_cut h ε (cdfSet_meas h ⊥) fun x _ => ⟨fun c => absurd c (by simp), fun _ => by
      rw [(dens_add ha x).1, (dens_add ha x).2]
      have a1 : 1 ≤ Real.exp ε * (1 - m.samplingProb) := by nlinarith
      have a2 : 0 ≤ Real.exp ε * (m.samplingProb * den m f x) := mul_nonneg he.le (mul_nonneg q0.le (n2 x))
      have := n1 x
      nlinarith⟩
    rw [muUpperCdf_eq h, muLowerLogCdf_eq h]
    rwa [ha] at this ⊢
  | remove =>
    have hb : ε ≤ edge m := by
      by_contra hlt
      have := (hin fun k => by rw [ha] at k; exact absurd k (by simp)).2
      exact hlt this
    refine ⟨⊤, ?_⟩
    have e1 : Real.exp ε ≤ 1 - m.samplingProb := by
      rw [← Real.exp_log (show 0 < 1 - m.samplingProb by linarith)]
      simp only [edge, ha] at hb
      exact Real.exp_le_exp.2 hb
    have := isHs_of_cut h ε (cdfSet_meas h ⊤) fun x _ => ⟨fun _ => by
      rw [(dens_remove ha x).1, (dens_remove ha x).2]
      have a2 : 0 ≤ m.samplingProb * num m f x := mul_nonneg q0.le (n1 x)
      have := n2 x
      nlinarith, fun c => absurd (show x ∈ {y | ((m.toReal y : ℝ) : EReal) ≤ ⊤} by simp) c⟩
    rw [muUpperCdf_eq h, muLowerLogCdf_eq h]
    rwa [ha] at this ⊢

/-- The divergence grows with the sensitivity. -/
lemma isHs_sensitivity (h : Faithful m ν f) (h' : Faithful m' ν f) (hto : m.toReal = m'.toReal) (ha : m.adj = m'.adj)
    (hq : m.samplingProb = m'.samplingProb) (hs : m.toReal m.sensitivity ≤ m'.toReal m'.sensitivity) (ε : ℝ)
    (hε : m.samplingProb = 1 ∨ ¬ IsClose ε (edge m)) {d d' : ℝ}
    (hd : IsHs (upper (ν.withDensity fun x => ENNReal.ofReal (f x)) m.sensitivity m.samplingProb m.adj)
        (lower (ν.withDensity fun x => ENNReal.ofReal (f x)) m.sensitivity m.samplingProb m.adj) ε d)
    (hd' : IsHs (upper (ν.withDensity fun x => ENNReal.ofReal (f x)) m'.sensitivity m'.samplingProb m'.adj)
        (lower (ν.withDensity fun x => ENNReal.ofReal (f x)) m'.sensitivity m'.samplingProb m'.adj) ε d') : d ≤ d' := by
  obtain ⟨y, hy⟩ := exists_cut h ε hε
  have ed : d = m.muUpperCdf y - Real.exp ε * expLog (m.muLowerLogCdf y) := hd.unique hy
  have h1 := hd'.1 _ (cdfSet_meas h' y)
  rw [← muUpperCdf_eq h', ← muLowerLogCdf_eq h'] at h1
  have hcdf : ∀ x, m.noiseCdf x = m'.noiseCdf x := fun x => by rw [h.cdf, h'.cdf, hto]
  have q0 := h'.q0
  have he := Real.exp_pos ε
  rw [ed]
  rw [muUpper_form h', muLower_form h'] at h1
  rw [muUpper_form h, muLower_form h]
  cases ha' : m'.adj with
  | add =>
    rw [ha'] at ha
    simp only [ha, ha', hq, hcdf] at h1 ⊢
    have : m'.noiseCdf (y + ((-m'.toReal m'.sensitivity : ℝ) : EReal)) ≤ m'.noiseCdf (y + ((-m.toReal m.sensitivity : ℝ) : EReal)) :=
      noiseCdf_mono h' (add_le_add le_rfl (EReal.coe_le_coe_iff.2 (by linarith)))
    have := mul_le_mul_of_nonneg_left (mul_le_mul_of_nonneg_left this q0.le) he.le
    linarith
  | remove =>
    rw [ha'] at ha
    simp only [ha, ha', hq, hcdf] at h1 ⊢
    have : m'.noiseCdf (y + (m.toReal m.sensitivity : EReal)) ≤ m'.noiseCdf (y + (m'.toReal m'.sensitivity : EReal)) :=
      noiseCdf_mono h' (add_le_add le_rfl (EReal.coe_le_coe_iff.2 hs))
    have := mul_le_mul_of_nonneg_left this q0.le
    linarith

end

end Verif.Mech
