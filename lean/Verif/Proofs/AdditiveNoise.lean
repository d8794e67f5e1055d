import Verif.Model.AdditiveNoise
import Verif.Props.LogDomain
import Mathlib.MeasureTheory.Group.LIntegral
import Mathlib.MeasureTheory.Measure.WithDensity

/-! # Additive noise mechanisms: hockey-stick divergences of shifted densities -/

namespace Verif.Mech
open Verif Spec Pld MeasureTheory LogDomain

section density
variable {Ω : Type*} [MeasurableSpace Ω]

/-- Neyman–Pearson: the hockey-stick divergence is attained on the set where the density ratio is at least `e^ε`. -/
lemma isHs_of_density (ν : Measure Ω) {p r : Ω → ℝ} (hp : Measurable p) (hr : Measurable r)
    (hr0 : ∀ x, 0 ≤ r x) [IsFiniteMeasure (ν.withDensity fun x => ENNReal.ofReal (p x))]
    [IsFiniteMeasure (ν.withDensity fun x => ENNReal.ofReal (r x))] (ε : ℝ) {S : Set Ω} (hS : MeasurableSet S)
    (h1 : ∀ x ∈ S, Real.exp ε * r x ≤ p x) (h2 : ∀ x ∉ S, p x ≤ Real.exp ε * r x) :
    IsHs (ν.withDensity fun x => ENNReal.ofReal (p x)) (ν.withDensity fun x => ENNReal.ofReal (r x)) ε
      ((ν.withDensity fun x => ENNReal.ofReal (p x)).real S - Real.exp ε * (ν.withDensity fun x => ENNReal.ofReal (r x)).real S) := by
  set P := ν.withDensity fun x => ENNReal.ofReal (p x) with hP
  set Q := ν.withDensity fun x => ENNReal.ofReal (r x) with hQ
  have he := Real.exp_pos ε
  -- on subsets of `S`, `e^ε Q ≤ P`; on subsets of the complement `P ≤ e^ε Q`
  have k1 : ∀ T, MeasurableSet T → T ⊆ S → Real.exp ε * Q.real T ≤ P.real T := by
    intro T hT hTS
    have : ENNReal.ofReal (Real.exp ε) * Q T ≤ P T := by
      rw [hP, hQ, withDensity_apply _ hT, withDensity_apply _ hT, ← lintegral_const_mul _ hr.ennreal_ofReal]
      refine setLIntegral_mono (hp.ennreal_ofReal) fun x hx => ?_
      rw [← ENNReal.ofReal_mul he.le]
      exact ENNReal.ofReal_le_ofReal (h1 x (hTS hx))
    have := ENNReal.toReal_mono (measure_ne_top P T) this
    rwa [ENNReal.toReal_mul, ENNReal.toReal_ofReal he.le] at this
  have k2 : ∀ T, MeasurableSet T → T ⊆ Sᶜ → P.real T ≤ Real.exp ε * Q.real T := by
    intro T hT hTS
    have : P T ≤ ENNReal.ofReal (Real.exp ε) * Q T := by
      rw [hP, hQ, withDensity_apply _ hT, withDensity_apply _ hT, ← lintegral_const_mul _ hr.ennreal_ofReal]
      refine setLIntegral_mono (hr.ennreal_ofReal.const_mul _) fun x hx => ?_
      rw [← ENNReal.ofReal_mul he.le]
      exact ENNReal.ofReal_le_ofReal (h2 x (hTS hx))
    have := ENNReal.toReal_mono (ENNReal.mul_ne_top ENNReal.ofReal_ne_top (measure_ne_top Q T)) this
    rwa [ENNReal.toReal_mul, ENNReal.toReal_ofReal he.le] at this
  constructor
  · intro T hT
    have a1 := measureReal_inter_add_sdiff (μ := P) (s := T) hS
    have a2 := measureReal_inter_add_sdiff (μ := Q) (s := T) hS
    have b1 := measureReal_inter_add_sdiff (μ := P) (s := S) hT
    have b2 := measureReal_inter_add_sdiff (μ := Q) (s := S) hT
    rw [Set.inter_comm S T] at b1 b2
    have c1 := k2 (T \ S) (hT.diff hS) fun x hx => hx.2
    have c2 := k1 (S \ T) (hS.diff hT) Set.sdiff_subset
    nlinarith
  · intro d hd
    have := hd S hS
    linarith

end density

section shift
variable {X : Type} [AddCommGroup X] [MeasurableSpace X] [MeasurableAdd X]

/-- The law of shifted noise. -/
lemma map_shift (ν : Measure X) [ν.IsAddRightInvariant] (f : X → ℝ) (hf : Measurable f) (d : X) :
    (ν.withDensity fun x => ENNReal.ofReal (f x)).map (fun x => x + d) = ν.withDensity fun x => ENNReal.ofReal (f (x - d)) := by
  have hm : Measurable fun x : X => x + d := measurable_add_const d
  ext S hS
  rw [Measure.map_apply hm hS, withDensity_apply _ (hm hS), withDensity_apply _ hS, ← lintegral_indicator (hm hS),
    ← lintegral_indicator hS, ← lintegral_add_right_eq_self (S.indicator _) d]
  congr 1
  ext x
  by_cases h : x + d ∈ S
  · rw [Set.indicator_of_mem h, Set.indicator_of_mem (show x ∈ (fun x => x + d) ⁻¹' S from h), add_sub_cancel_right]
  · rw [Set.indicator_of_notMem h, Set.indicator_of_notMem (show x ∉ (fun x => x + d) ⁻¹' S from h)]

lemma mixShift_density (ν : Measure X) [ν.IsAddRightInvariant] (f : X → ℝ) (hf : Measurable f) (h0 : ∀ x, 0 ≤ f x) (q : ℝ)
    (hq0 : 0 ≤ q) (hq1 : q ≤ 1) (d : X) :
    mixShift (ν.withDensity fun x => ENNReal.ofReal (f x)) q d =
      ν.withDensity fun x => ENNReal.ofReal ((1 - q) * f x + q * f (x - d)) := by
  have hm : Measurable fun x : X => x - d := by simpa [sub_eq_add_neg] using measurable_add_const (-d)
  unfold mixShift
  rw [map_shift ν f hf, ← withDensity_smul _ hf.ennreal_ofReal,
    ← withDensity_smul (f := fun x => ENNReal.ofReal (f (x - d))) _ (hf.comp hm).ennreal_ofReal,
    ← withDensity_add_left ((hf.ennreal_ofReal).const_smul _)]
  congr 1
  ext x
  simp only [Pi.add_apply, Pi.smul_apply, smul_eq_mul, Function.comp]
  rw [← ENNReal.ofReal_mul (by linarith), ← ENNReal.ofReal_mul hq0,
    ← ENNReal.ofReal_add (mul_nonneg (by linarith) (h0 _)) (mul_nonneg hq0 (h0 _))]

lemma mixShift_prob (μ : Measure X) [IsProbabilityMeasure μ] (q : ℝ) (hq0 : 0 ≤ q) (hq1 : q ≤ 1) (d : X) :
    IsProbabilityMeasure (mixShift μ q d) := by
  constructor
  unfold mixShift
  rw [Measure.add_apply, Measure.smul_apply, Measure.smul_apply, Measure.map_apply (measurable_add_const d) MeasurableSet.univ,
    Set.preimage_univ, measure_univ, smul_eq_mul, smul_eq_mul, mul_one, mul_one, ← ENNReal.ofReal_add (by linarith) hq0]
  simp

end shift

variable {X : Type} [AddCommGroup X] [MeasurableSpace X]

/-- Density of the output of the first data set without sampling. -/
def num (m : AdditiveNoise X) (f : X → ℝ) (x : X) : ℝ :=
  match m.adj with
  | .add => f x
  | .remove => f (x + m.sensitivity)

/-- Density of the output of the second data set without sampling. -/
def den (m : AdditiveNoise X) (f : X → ℝ) (x : X) : ℝ :=
  match m.adj with
  | .add => f (x - m.sensitivity)
  | .remove => f x

/-- What the methods of the subclass must satisfy for noise with density `f` with respect to `ν`. -/
structure Faithful (m : AdditiveNoise X) (ν : Measure X) (f : X → ℝ) : Prop where
  q0 : 0 < m.samplingProb
  q1 : m.samplingProb ≤ 1
  inj : Measurable m.toReal
  nonneg : ∀ x, 0 ≤ f x
  meas : Measurable f
  prob : IsProbabilityMeasure (ν.withDensity fun x => ENNReal.ofReal (f x))
  cdf : ∀ x, m.noiseCdf x = cdfOf m.toReal (ν.withDensity fun x => ENNReal.ofReal (f x)) x
  logCdf : ∀ x, expLog (m.noiseLogCdf x) = cdfOf m.toReal (ν.withDensity fun x => ENNReal.ofReal (f x)) x
  inv : ∀ x (l : ℝ), 0 < num m f x ∨ 0 < den m f x →
    (((m.toReal x : ℝ) : EReal) ≤ m.invNo l ↔ Real.exp l * den m f x ≤ num m f x)
  lossReal : ∀ x (l : ℝ), m.lossNo x = .ok (l : EReal) → 0 < den m f x ∧ num m f x = Real.exp l * den m f x
  lossTop : ∀ x, m.lossNo x = .ok ⊤ → 0 < num m f x ∧ den m f x = 0
  lossBot : ∀ x, m.lossNo x = .ok ⊥ → num m f x = 0 ∧ 0 < den m f x
  lossErr : ∀ x e, m.lossNo x = .error e → e = .valueError ∧ num m f x = 0 ∧ den m f x = 0

section logs

lemma logAExpBC_real (a b c : ℝ) (h : 0 < a * Real.exp b + c) :
    logAExpBC a (b : EReal) c = .ok ((Real.log (a * Real.exp b + c) : ℝ) : EReal) := by
  show ofLogRes (logATimesExpBPlusC a b c) = _
  rw [Props.C29_log_a_times_exp_b_plus_c a b c h]
  rfl

lemma expLog_coe' (x : ℝ) : expLog (x : LogProb) = Real.exp x := rfl

lemma expLog_add (c : ℝ) (x : LogProb) : expLog ((c : LogProb) + x) = Real.exp c * expLog x := by
  cases x using WithBot.recBotCoe with
  | bot => simp [expLog]
  | coe x =>
    rw [← WithBot.coe_add, expLog_coe', expLog_coe', Real.exp_add]

end logs

section main
variable [MeasurableAdd X] {m : AdditiveNoise X} {ν : Measure X} [ν.IsAddRightInvariant] {f : X → ℝ}

/-- Density of the output on the first data set. -/
noncomputable def upperDens (m : AdditiveNoise X) (f : X → ℝ) (x : X) : ℝ :=
  match m.adj with
  | .add => f x
  | .remove => (1 - m.samplingProb) * f x + m.samplingProb * f (x + m.sensitivity)

/-- Density of the output on the second data set. -/
noncomputable def lowerDens (m : AdditiveNoise X) (f : X → ℝ) (x : X) : ℝ :=
  match m.adj with
  | .add => (1 - m.samplingProb) * f x + m.samplingProb * f (x - m.sensitivity)
  | .remove => f x

lemma upper_eq (h : Faithful m ν f) : upper (ν.withDensity fun x => ENNReal.ofReal (f x)) m.sensitivity m.samplingProb m.adj =
    ν.withDensity fun x => ENNReal.ofReal (upperDens m f x) := by
  unfold upper upperDens
  cases m.adj with
  | add => rfl
  | remove => simp only [mixShift_density ν f h.meas h.nonneg _ h.q0.le h.q1, sub_neg_eq_add]

lemma lower_eq (h : Faithful m ν f) : lower (ν.withDensity fun x => ENNReal.ofReal (f x)) m.sensitivity m.samplingProb m.adj =
    ν.withDensity fun x => ENNReal.ofReal (lowerDens m f x) := by
  unfold lower lowerDens
  cases m.adj with
  | add => simp only [mixShift_density ν f h.meas h.nonneg _ h.q0.le h.q1]
  | remove => rfl

lemma upper_prob (h : Faithful m ν f) :
    IsProbabilityMeasure (upper (ν.withDensity fun x => ENNReal.ofReal (f x)) m.sensitivity m.samplingProb m.adj) := by
  have := h.prob
  unfold upper
  cases m.adj with
  | add => exact this
  | remove => exact mixShift_prob _ _ h.q0.le h.q1 _

lemma lower_prob (h : Faithful m ν f) :
    IsProbabilityMeasure (lower (ν.withDensity fun x => ENNReal.ofReal (f x)) m.sensitivity m.samplingProb m.adj) := by
  have := h.prob
  unfold lower
  cases m.adj with
  | add => exact mixShift_prob _ _ h.q0.le h.q1 _
  | remove => exact this

lemma cdfSet_meas (h : Faithful m ν f) (x : EReal) : MeasurableSet {y | ((m.toReal y : ℝ) : EReal) ≤ x} :=
  measurableSet_le (measurable_coe_real_ereal.comp h.inj) measurable_const

lemma cdf_mixShift (h : Faithful m ν f) (d : X) (x : EReal) :
    (mixShift (ν.withDensity fun x => ENNReal.ofReal (f x)) m.samplingProb d).real {y | ((m.toReal y : ℝ) : EReal) ≤ x} =
      (1 - m.samplingProb) * m.noiseCdf x + m.samplingProb * m.noiseCdf (x + ((-m.toReal d : ℝ) : EReal)) := by
  have := h.prob
  have q0 := h.q0
  have q1 := h.q1
  have hd : Measurable fun x : X => x + d := measurable_add_const d
  have hmap : IsProbabilityMeasure ((ν.withDensity fun x => ENNReal.ofReal (f x)).map fun x => x + d) :=
    Measure.isProbabilityMeasure_map hd.aemeasurable
  rw [h.cdf, h.cdf, mixShift, measureReal_def, Measure.add_apply, Measure.smul_apply, Measure.smul_apply, smul_eq_mul, smul_eq_mul,
    Measure.map_apply hd (cdfSet_meas h x),
    ENNReal.toReal_add (ENNReal.mul_ne_top ENNReal.ofReal_ne_top (measure_ne_top _ _))
      (ENNReal.mul_ne_top ENNReal.ofReal_ne_top (measure_ne_top _ _)), ENNReal.toReal_mul, ENNReal.toReal_mul,
    ENNReal.toReal_ofReal (by linarith), ENNReal.toReal_ofReal q0.le, ← measureReal_def, ← measureReal_def]
  unfold cdfOf
  congr 3
  ext y
  simp only [Set.mem_preimage, Set.mem_setOf_eq, map_add]
  cases x using EReal.rec with
  | bot => simp
  | top => simp
  | coe x =>
    rw [← EReal.coe_add, EReal.coe_le_coe_iff, EReal.coe_le_coe_iff]
    constructor <;> intro h <;> linarith

/-- `mu_upper_cdf` is the cdf of `mu_upper`. -/
lemma muUpperCdf_eq (h : Faithful m ν f) (x : EReal) : m.muUpperCdf x =
    (upper (ν.withDensity fun x => ENNReal.ofReal (f x)) m.sensitivity m.samplingProb m.adj).real
      {y | ((m.toReal y : ℝ) : EReal) ≤ x} := by
  unfold AdditiveNoise.muUpperCdf upper
  cases ha : m.adj with
  | add => exact h.cdf x
  | remove =>
    simp only
    rw [cdf_mixShift h, map_neg, neg_neg]
    split_ifs with h1
    · rw [h1]; ring
    · rfl

/-- `mu_lower_log_cdf` is the logarithm of the cdf of `mu_lower`. -/
lemma muLowerLogCdf_eq (h : Faithful m ν f) (x : EReal) : expLog (m.muLowerLogCdf x) =
    (lower (ν.withDensity fun x => ENNReal.ofReal (f x)) m.sensitivity m.samplingProb m.adj).real
      {y | ((m.toReal y : ℝ) : EReal) ≤ x} := by
  have q0 := h.q0
  have q1 := h.q1
  unfold AdditiveNoise.muLowerLogCdf lower
  cases ha : m.adj with
  | remove => exact h.logCdf x
  | add =>
    simp only
    rw [cdf_mixShift h]
    split_ifs with h1
    · rw [h1, h.logCdf, ← h.cdf]; ring
    · have : m.samplingProb < 1 := lt_of_le_of_ne q1 h1
      rw [Props.C29_log_add, expLog_add, expLog_add, Real.exp_log (by linarith), Real.exp_log q0, h.logCdf, h.logCdf, h.cdf, h.cdf]
      ring

/-- The point is possible on one of the data sets. -/
def Charged (m : AdditiveNoise X) (f : X → ℝ) (x : X) : Prop := 0 < num m f x ∨ 0 < den m f x

lemma not_charged (h : Faithful m ν f) {x : X} (hx : ¬ Charged m f x) : upperDens m f x = 0 ∧ lowerDens m f x = 0 := by
  have n1 : ∀ x, 0 ≤ f x := h.nonneg
  unfold Charged num den at hx
  unfold upperDens lowerDens
  cases ha : m.adj <;> simp only [ha, not_or, not_lt] at hx ⊢ <;>
    rw [le_antisymm hx.1 (n1 _), le_antisymm hx.2 (n1 _)] <;> simp

lemma dens_one (hq : m.samplingProb = 1) (x : X) : upperDens m f x = num m f x ∧ lowerDens m f x = den m f x := by
  unfold upperDens lowerDens num den
  cases ha : m.adj <;> simp [hq]

/-- REMOVE: the two densities, in terms of those without sampling. -/
lemma dens_remove (ha : m.adj = .remove) (x : X) :
    upperDens m f x = (1 - m.samplingProb) * den m f x + m.samplingProb * num m f x ∧ lowerDens m f x = den m f x := by
  unfold upperDens lowerDens num den
  simp [ha]

/-- ADD: the two densities, in terms of those without sampling. -/
lemma dens_add (ha : m.adj = .add) (x : X) :
    upperDens m f x = num m f x ∧ lowerDens m f x = (1 - m.samplingProb) * num m f x + m.samplingProb * den m f x := by
  unfold upperDens lowerDens num den
  simp [ha]

/-- The smallest and largest possible losses under sampling. -/
noncomputable def edge (m : AdditiveNoise X) : ℝ :=
  match m.adj with
  | .add => -Real.log (1 - m.samplingProb)
  | .remove => Real.log (1 - m.samplingProb)

open Classical in
/-- Inside the range of the loss and not close to its edge, `inverse_privacy_loss` returns the cut-off of the densities. -/
lemma inverse_iff (h : Faithful m ν f) (ε : ℝ)
    (hε : m.samplingProb = 1 ∨ (¬ IsClose ε (edge m) ∧ (m.adj = .add → ε < edge m) ∧ (m.adj = .remove → edge m < ε))) :
    ∃ y, m.inversePrivacyLoss ε = .ok y ∧
      ∀ x, Charged m f x → (((m.toReal x : ℝ) : EReal) ≤ y ↔ Real.exp ε * lowerDens m f x ≤ upperDens m f x) := by
  unfold AdditiveNoise.inversePrivacyLoss
  by_cases hq : m.samplingProb = 1
  · refine ⟨_, if_pos hq, fun x hx => ?_⟩
    rw [(dens_one hq x).1, (dens_one hq x).2]
    exact h.inv x ε hx
  · obtain ⟨hc, h1, h2⟩ := hε.resolve_left hq
    have q0 := h.q0
    have q1 : m.samplingProb < 1 := lt_of_le_of_ne h.q1 hq
    simp only [if_neg hq]
    cases ha : m.adj with
    | add =>
      have h1 := h1 ha
      simp only [edge, ha] at h1 hc ⊢
      rw [if_neg hc, if_neg (not_lt.2 h1.le)]
      have e1 : 1 - m.samplingProb < Real.exp (-ε) := by
        rw [← Real.exp_log (show 0 < 1 - m.samplingProb by linarith)]
        exact Real.exp_lt_exp.2 (by linarith)
      have hpos : 0 < 1 / m.samplingProb * Real.exp (-ε) + (1 - 1 / m.samplingProb) := by
        have : 1 / m.samplingProb * Real.exp (-ε) + (1 - 1 / m.samplingProb) = (Real.exp (-ε) - (1 - m.samplingProb)) / m.samplingProb := by
          field_simp; ring
        rw [this]; exact div_pos (by linarith) q0
      rw [logAExpBC_real _ _ _ hpos]
      refine ⟨_, rfl, fun x hx => ?_⟩
      show ((m.toReal x : ℝ) : EReal) ≤ m.invNo (-((Real.log (1 / m.samplingProb * Real.exp (-ε) + (1 - 1 / m.samplingProb)) : ℝ) : EReal)) ↔ _
      rw [← EReal.coe_neg, h.inv x _ hx, (dens_add ha x).1, (dens_add ha x).2, Real.exp_neg, Real.exp_log hpos, inv_mul_le_iff₀ hpos]
      have e2 : 1 / m.samplingProb * Real.exp (-ε) + (1 - 1 / m.samplingProb) = (Real.exp (-ε) - (1 - m.samplingProb)) / m.samplingProb := by
        field_simp; ring
      rw [e2, div_mul_eq_mul_div, le_div_iff₀ q0]
      have e3 : Real.exp (-ε) * Real.exp ε = 1 := by rw [← Real.exp_add]; simp
      have p1 := Real.exp_pos ε
      have p2 := Real.exp_pos (-ε)
      constructor
      · intro k
        have := mul_le_mul_of_nonneg_left k p1.le
        have e4 : Real.exp ε * ((Real.exp (-ε) - (1 - m.samplingProb)) * num m f x) =
          num m f x - Real.exp ε * (1 - m.samplingProb) * num m f x := by linear_combination num m f x * e3
        rw [e4] at this
        nlinarith
      · intro k
        have := mul_le_mul_of_nonneg_left k p2.le
        have e4 : Real.exp (-ε) * (Real.exp ε * ((1 - m.samplingProb) * num m f x + m.samplingProb * den m f x)) =
          (1 - m.samplingProb) * num m f x + m.samplingProb * den m f x := by
          rw [← mul_assoc, e3, one_mul]
        rw [e4] at this
        nlinarith
    | remove =>
      have h2 := h2 ha
      simp only [edge, ha] at h2 hc ⊢
      rw [if_neg hc, if_neg (not_le.2 h2)]
      have e1 : 1 - m.samplingProb < Real.exp ε := by
        rw [← Real.exp_log (show 0 < 1 - m.samplingProb by linarith)]
        exact Real.exp_lt_exp.2 (by linarith)
      have e2 : 1 / m.samplingProb * Real.exp ε + (1 - 1 / m.samplingProb) = (Real.exp ε - (1 - m.samplingProb)) / m.samplingProb := by
        field_simp; ring
      have hpos : 0 < 1 / m.samplingProb * Real.exp ε + (1 - 1 / m.samplingProb) := by
        rw [e2]; exact div_pos (by linarith) q0
      rw [logAExpBC_real _ _ _ hpos]
      refine ⟨_, rfl, fun x hx => ?_⟩
      rw [h.inv x _ hx, (dens_remove ha x).1, (dens_remove ha x).2, Real.exp_log hpos, e2, div_mul_eq_mul_div, div_le_iff₀ q0]
      constructor <;> intro k <;> nlinarith

lemma isHs_range {Ω : Type*} [MeasurableSpace Ω] {P Q : Measure Ω} [IsProbabilityMeasure P] {e d : ℝ} (h : IsHs P Q e d) :
    0 ≤ d ∧ d ≤ 1 := by
  constructor
  · have := h.1 ∅ MeasurableSet.empty
    simpa using this
  · refine h.2 fun S _ => ?_
    have := measureReal_le_one (μ := P) (s := S)
    have := mul_nonneg (Real.exp_pos e).le (measureReal_nonneg (μ := Q) (s := S))
    linarith

lemma clip_isHs {Ω : Type*} [MeasurableSpace Ω] {P Q : Measure Ω} [IsProbabilityMeasure P] {e d : ℝ} (h : IsHs P Q e d) :
    AdditiveNoise.clip01 d = d := by
  obtain ⟨h0, h1⟩ := isHs_range h
  unfold AdditiveNoise.clip01
  rw [max_eq_right h0, min_eq_right h1]

lemma measurable_dens (h : Faithful m ν f) : Measurable (upperDens m f) ∧ Measurable (lowerDens m f) := by
  have hs : Measurable fun x : X => x - m.sensitivity := by simpa [sub_eq_add_neg] using measurable_add_const (-m.sensitivity)
  have ha : Measurable fun x : X => x + m.sensitivity := measurable_add_const _
  unfold upperDens lowerDens
  have := h.meas
  cases m.adj
  · exact ⟨this, (this.const_mul _).add ((this.comp hs).const_mul _)⟩
  · exact ⟨(this.const_mul _).add ((this.comp ha).const_mul _), this⟩

lemma lowerDens_nonneg (h : Faithful m ν f) (x : X) : 0 ≤ lowerDens m f x := by
  have q0 := h.q0
  have q1 := h.q1
  have := h.nonneg
  unfold lowerDens
  cases m.adj
  · exact add_nonneg (mul_nonneg (by linarith) (this _)) (mul_nonneg q0.le (this _))
  · exact this _

/-- The divergence is attained on any measurable set that separates the densities at charged points. -/
lemma isHs_of_cut (h : Faithful m ν f) (ε : ℝ) {S : Set X} (hS : MeasurableSet S)
    (hc : ∀ x, Charged m f x → (x ∈ S → Real.exp ε * lowerDens m f x ≤ upperDens m f x) ∧
      (x ∉ S → upperDens m f x ≤ Real.exp ε * lowerDens m f x)) :
    IsHs (upper (ν.withDensity fun x => ENNReal.ofReal (f x)) m.sensitivity m.samplingProb m.adj)
      (lower (ν.withDensity fun x => ENNReal.ofReal (f x)) m.sensitivity m.samplingProb m.adj) ε
      ((upper (ν.withDensity fun x => ENNReal.ofReal (f x)) m.sensitivity m.samplingProb m.adj).real S -
        Real.exp ε * (lower (ν.withDensity fun x => ENNReal.ofReal (f x)) m.sensitivity m.samplingProb m.adj).real S) := by
  have p1 := upper_prob h
  have p2 := lower_prob h
  rw [upper_eq h] at p1 ⊢
  rw [lower_eq h] at p2 ⊢
  refine isHs_of_density ν (measurable_dens h).1 (measurable_dens h).2 (lowerDens_nonneg h) ε hS ?_ ?_
  · intro x hx
    by_cases k : Charged m f x
    · exact (hc x k).1 hx
    · rw [(not_charged h k).1, (not_charged h k).2, mul_zero]
  · intro x hx
    by_cases k : Charged m f x
    · exact (hc x k).2 hx
    · rw [(not_charged h k).1, (not_charged h k).2, mul_zero]

/-- `get_delta_for_epsilon` is the hockey-stick divergence, except close to the edge of the range of the loss. -/
theorem getDelta_isHs (h : Faithful m ν f) (ε : ℝ) (hε : m.samplingProb = 1 ∨ ¬ IsClose ε (edge m)) :
    ∃ d, m.getDelta ε = .ok d ∧
      IsHs (upper (ν.withDensity fun x => ENNReal.ofReal (f x)) m.sensitivity m.samplingProb m.adj)
        (lower (ν.withDensity fun x => ENNReal.ofReal (f x)) m.sensitivity m.samplingProb m.adj) ε d := by
  have p1 := upper_prob h
  have p2 := lower_prob h
  have q0 := h.q0
  have viaCut : (m.samplingProb = 1 ∨ (¬ IsClose ε (edge m) ∧ (m.adj = .add → ε < edge m) ∧ (m.adj = .remove → edge m < ε))) →
      ∃ d, m.deltaAtCutoff ε = .ok d ∧
      IsHs (upper (ν.withDensity fun x => ENNReal.ofReal (f x)) m.sensitivity m.samplingProb m.adj)
        (lower (ν.withDensity fun x => ENNReal.ofReal (f x)) m.sensitivity m.samplingProb m.adj) ε d := by
    intro hh
    obtain ⟨y, hy, hx⟩ := inverse_iff h ε hh
    have := isHs_of_cut h ε (cdfSet_meas h y) fun x k =>
      ⟨fun hxy => (hx x k).1 hxy, fun hxy => (not_le.1 fun c => hxy ((hx x k).2 c)).le⟩
    refine ⟨_, ?_, this⟩
    unfold AdditiveNoise.deltaAtCutoff
    rw [hy]
    show Except.ok (AdditiveNoise.clip01 (m.muUpperCdf y - expLog (((ε : ℝ) : LogProb) + m.muLowerLogCdf y))) = _
    rw [expLog_add, muUpperCdf_eq h, muLowerLogCdf_eq h, clip_isHs this]
  unfold AdditiveNoise.getDelta
  by_cases hq : m.samplingProb = 1
  · rw [if_pos hq]; exact viaCut (.inl hq)
  · have q1 : m.samplingProb < 1 := lt_of_le_of_ne h.q1 hq
    have hc := hε.resolve_left hq
    rw [if_neg hq]
    have es : 1 + -m.samplingProb = 1 - m.samplingProb := by ring
    cases ha : m.adj with
    | add =>
      simp only [es]
      split_ifs with k
      · have := viaCut (.inr ⟨hc, fun _ => by simpa only [edge, ha] using k, fun c => by rw [ha] at c; exact absurd c (by simp)⟩)
        rwa [ha] at this
      · have e1 : Real.exp (-ε) ≤ 1 - m.samplingProb := by
          rw [← Real.exp_log (show 0 < 1 - m.samplingProb by linarith)]
          exact Real.exp_le_exp.2 (by linarith)
        have := isHs_of_cut h ε MeasurableSet.empty fun x _ => ⟨fun c => absurd c (Set.notMem_empty x), fun _ => by
          rw [(dens_add ha x).1, (dens_add ha x).2]
          have e3 : Real.exp (-ε) * Real.exp ε = 1 := by rw [← Real.exp_add]; simp
          have n1 : 0 ≤ num m f x := by unfold num; cases m.adj <;> exact h.nonneg _
          have n2 : 0 ≤ den m f x := by unfold den; cases m.adj <;> exact h.nonneg _
          have p := Real.exp_pos ε
          have a1 : 1 ≤ Real.exp ε * (1 - m.samplingProb) := by nlinarith
          have a2 : 0 ≤ Real.exp ε * (m.samplingProb * den m f x) := by positivity
          nlinarith⟩
        rw [ha] at this
        have e0 : AdditiveNoise.clip01 0 = 0 := by simp [AdditiveNoise.clip01]
        refine ⟨_, rfl, ?_⟩
        rw [e0]
        simpa using this
    | remove =>
      simp only [es]
      split_ifs with k
      · have := viaCut (.inr ⟨hc, fun c => by rw [ha] at c; exact absurd c (by simp), fun _ => by simpa only [edge, ha] using k⟩)
        rwa [ha] at this
      · have e1 : Real.exp ε ≤ 1 - m.samplingProb := by
          rw [← Real.exp_log (show 0 < 1 - m.samplingProb by linarith)]
          exact Real.exp_le_exp.2 (by linarith)
        have := isHs_of_cut h ε MeasurableSet.univ fun x _ => ⟨fun _ => by
          rw [(dens_remove ha x).1, (dens_remove ha x).2]
          have n1 : 0 ≤ num m f x := by unfold num; cases m.adj <;> exact h.nonneg _
          have n2 : 0 ≤ den m f x := by unfold den; cases m.adj <;> exact h.nonneg _
          have a2 : 0 ≤ m.samplingProb * num m f x := by positivity
          nlinarith, fun c => absurd (Set.mem_univ x) c⟩
        have e0 := clip_isHs this
        rw [ha] at this p1 p2 e0
        rw [probReal_univ, probReal_univ] at this e0
        refine ⟨_, rfl, ?_⟩
        have e5 : -(Real.exp ε - 1) = 1 - Real.exp ε * 1 := by ring
        rw [e5, e0]
        exact this

end main

end Verif.Mech
