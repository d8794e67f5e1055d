import Verif.Spec.PldEvents
import Verif.Spec.PldCovers
import Verif.Proofs.PldInfinity
import Verif.Proofs.LossOf
import Verif.Proofs.PldHistory
import Verif.Proofs.GaussianJoint
import Verif.Props.AdditiveNoisePld
import Verif.Model.PldLibrary

/-! # Privacy loss laws for the events of the PLD accountant -/

namespace Verif.Spec
open MeasureTheory ProbabilityTheory Verif.Pld Verif.PldPmf
open scoped NNReal

/-! ### The order of delta curves -/

lemma conv_hs_mono {A A' B B' : LossLaw} (hA : ∀ e, A.hs e ≤ A'.hs e) (hB : ∀ e, B.hs e ≤ B'.hs e) (e : ℝ) :
    (A.conv B).hs e ≤ (A'.conv B').hs e := by
  have key : ∀ (A A' B : LossLaw), (∀ e, A.hs e ≤ A'.hs e) → ∀ e, (A.conv B).hs e ≤ (A'.conv B).hs e := by
    intro A A' B h e
    rw [conv_hs, conv_hs]
    have hi : ∀ A : LossLaw, Integrable (fun y => A.hs (e - y)) B.μ := fun A =>
      Integrable.of_bound ((measurable_lossHs A).comp (measurable_const.sub measurable_id)).aestronglyMeasurable 1
        (ae_of_all _ fun y => by rw [Real.norm_eq_abs, abs_of_nonneg (hs_bounds A _).1]; exact (hs_bounds A _).2)
    have := integral_mono (hi A) (hi A') fun y => h (e - y)
    linarith
  calc (A.conv B).hs e ≤ (A'.conv B).hs e := key A A' B hA e
    _ = (B.conv A').hs e := by rw [conv_comm]
    _ ≤ (B'.conv A').hs e := key B B' A' hB e
    _ = (A'.conv B').hs e := by rw [conv_comm]

lemma convAll_perm {l l' : List LossLaw} (h : l.Perm l') : LossLaw.convAll l = LossLaw.convAll l' := by
  induction h with
  | nil => rfl
  | cons a _ ih => simp only [LossLaw.convAll, ih]
  | swap a b l =>
    simp only [LossLaw.convAll]
    rw [← conv_assoc, ← conv_assoc, conv_comm b a]
  | trans _ _ h1 h2 => exact h1.trans h2

/-! ### Gaussian noise -/

/-- The law of the privacy loss of the Gaussian mechanism with noise multiplier `z`. -/
noncomputable def gaussLaw (z : ℝ) : LossLaw where
  inf := 0
  μ := gaussianReal (1 / (2 * z ^ 2)) (Real.toNNReal (1 / z ^ 2))
  fin := inferInstance
  inf_nonneg := le_rfl
  mass := by simp

lemma gaussLaw_conv (m m' : ℝ) (v v' : ℝ≥0) : (gaussianReal m v).conv (gaussianReal m' v') = gaussianReal (m + m') (v + v') :=
  gaussianReal_conv_gaussianReal

lemma gaussLaw_pow {z : ℝ} (hz : 0 < z) (n : ℕ) (hn : 0 < n) : (gaussLaw z).pow n = gaussLaw (z / Real.sqrt n) := by
  have key : ∀ n : ℕ, ((gaussLaw z).pow n).inf = 0 ∧
      ((gaussLaw z).pow n).μ = gaussianReal (n * (1 / (2 * z ^ 2))) (Real.toNNReal (n * (1 / z ^ 2))) := by
    intro n
    induction n with
    | zero =>
      refine ⟨rfl, ?_⟩
      show Measure.dirac 0 = _
      simp
    | succ n ih =>
      refine ⟨?_, ?_⟩
      · show 1 - (1 - 0) * (1 - ((gaussLaw z).pow n).inf) = 0
        rw [ih.1]; ring
      · show (gaussianReal (1 / (2 * z ^ 2)) (Real.toNNReal (1 / z ^ 2))).conv ((gaussLaw z).pow n).μ = _
        rw [ih.2, gaussLaw_conv, ← Real.toNNReal_add (by positivity) (by positivity)]
        push_cast
        congr 2 <;> ring
  obtain ⟨h1, h2⟩ := key n
  have hn' : (0 : ℝ) < n := by exact_mod_cast hn
  apply LossLaw.ext
  · exact h1
  · rw [h2]
    show _ = gaussianReal (1 / (2 * (z / Real.sqrt n) ^ 2)) (Real.toNNReal (1 / (z / Real.sqrt n) ^ 2))
    rw [div_pow, Real.sq_sqrt hn'.le, show (n : ℝ) * (1 / (2 * z ^ 2)) = 1 / (2 * (z ^ 2 / n)) by field_simp,
      show (n : ℝ) * (1 / z ^ 2) = 1 / (z ^ 2 / n) by field_simp]

lemma gaussLaw_of {z t : ℝ} (hz : 0 < z) (ht : t ≠ 0) :
    (gaussLaw z).Of (gaussianReal t (Real.toNNReal ((z * t) ^ 2))) (gaussianReal 0 (Real.toNNReal ((z * t) ^ 2))) := by
  have hp : 0 < (z * t) ^ 2 := by positivity
  have hv : Real.toNNReal ((z * t) ^ 2) ≠ 0 := by
    rw [Ne, Real.toNNReal_eq_zero]; exact not_le.2 hp
  have hvc : ((Real.toNNReal ((z * t) ^ 2) : ℝ≥0) : ℝ) = (z * t) ^ 2 := Real.coe_toNNReal _ hp.le
  refine ⟨∅, gaussLR t (Real.toNNReal ((z * t) ^ 2)), MeasurableSet.empty, measurable_gaussLR _ _, fun x => (gaussLR_pos _ _ x).le, by simp,
    by simp [gaussLaw], ?_, ?_⟩
  · rw [Set.compl_empty, Measure.restrict_univ]
    exact gaussian_withDensity t hv
  · rw [Set.compl_empty, Measure.restrict_univ]
    have e : (fun x => Real.log (gaussLR t (Real.toNNReal ((z * t) ^ 2)) x)) =
        (fun y => y + -(1 / (2 * z ^ 2))) ∘ fun x => (1 / (z ^ 2 * t)) * x := by
      ext x
      rw [gaussLR, Real.log_exp, hvc]
      simp only [Function.comp]
      field_simp
      ring
    rw [e, ← Measure.map_map (by fun_prop) (by fun_prop), gaussianReal_map_const_mul, gaussianReal_map_add_const]
    show gaussianReal (1 / (2 * z ^ 2)) (Real.toNNReal (1 / z ^ 2)) = _
    congr 1
    · field_simp; ring
    · ext
      rw [NNReal.coe_mul, hvc, Real.coe_toNNReal _ (by positivity)]
      simp only [NNReal.coe_mk]
      field_simp

end Verif.Spec

namespace Verif.Mech
open Verif.Spec MeasureTheory ProbabilityTheory Verif.Pld Verif.PldPmf

lemma upper_gauss (s : ℝ) (v : NNReal) : upper (gaussianReal 0 v) s 1 .remove = gaussianReal (-s) v := by
  simp only [upper]
  rw [mixShift_one, gaussianReal_map_add_const]; simp

lemma gaussLaw_isHs {z s : ℝ} (hz : 0 < z) (hs : 0 < s) (e : ℝ) :
    IsHs (upper (gaussianReal 0 (Real.toNNReal ((z * s) ^ 2))) s 1 .remove) (lower (gaussianReal 0 (Real.toNNReal ((z * s) ^ 2))) s 1 .remove) e
      ((gaussLaw z).hs e) := by
  rw [upper_gauss]
  have := (gaussLaw_of hz (neg_ne_zero.2 hs.ne')).isHs e
  rw [mul_neg, neg_sq] at this
  exact this

lemma sampledGaussian_one {σ s : ℝ} (hs : 0 ≤ s) {d : ℕ} (a b : Vec d) (hab : ‖a - b‖ ≤ s) :
    SampledGaussian σ s 1 (Vec d) (gaussianVec a σ) (gaussianVec b σ) := by
  have := SampledGaussian.mk (σ := σ) (s := s) (q := 1) (R := Unit) (fun S => if () ∈ S then a else b) (by
    intro S r
    by_cases hS : () ∈ S
    · simp [hS, hs]
    · simp [hS, hab]) ∅ () (by simp)
  simpa [poissonMech_one] using this

lemma sampledLaplace_one {b s : ℝ} (hs : 0 ≤ s) {d : ℕ} (x y : Fin d → ℝ) (hxy : ∑ i, |x i - y i| ≤ s) :
    SampledLaplace b s 1 (Fin d → ℝ) (laplaceVec x b) (laplaceVec y b) := by
  have := SampledLaplace.mk (b := b) (s := s) (q := 1) (R := Unit) (fun S => if () ∈ S then x else y) (by
    intro S r
    by_cases hS : () ∈ S
    · simp [hS, hs]
    · simpa [hS] using hxy) ∅ () (by simp)
  simpa [poissonMech_one] using this

/-- The exact law covers every Gaussian mechanism with the noise multiplier. -/
lemma gaussLaw_lawFor {z : ℝ} (hz : 0 < z) : LawFor (gaussLaw z) (GaussianPair z) := by
  intro Ω _ P Q _ _ h e
  cases h with
  | mk a b Δ hΔ hab =>
    exact (sampledGaussian_indist (mul_pos hz hΔ) hΔ zero_le_one le_rfl (sampledGaussian_one hΔ.le a b hab) e _).1
      (gaussLaw_isHs hz hΔ e).1

lemma GaussianPair.swap {z : ℝ} {Ω : Type} [MeasurableSpace Ω] {P Q : Measure Ω} (h : GaussianPair z Ω P Q) : GaussianPair z Ω Q P := by
  cases h with
  | mk a b Δ hΔ hab => exact .mk b a Δ hΔ (by rw [norm_sub_rev]; exact hab)

/-! ### Scaling by the sensitivity -/

lemma Indist.map {Ω Ω' : Type*} [MeasurableSpace Ω] [MeasurableSpace Ω'] {P Q : Measure Ω} {e d : ℝ} (h : Indist P Q e d) {g : Ω → Ω'}
    (hg : Measurable g) : Indist (P.map g) (Q.map g) e d := by
  intro S hS
  rw [measureReal_def, measureReal_def, Measure.map_apply hg hS, Measure.map_apply hg hS]
  exact h _ (hg hS)

lemma prob_of_map {Ω Ω' : Type*} [MeasurableSpace Ω] [MeasurableSpace Ω'] {P : Measure Ω} {g : Ω → Ω'} (hg : Measurable g)
    (h : IsProbabilityMeasure (P.map g)) : IsProbabilityMeasure P :=
  ⟨by have := h.measure_univ; rwa [Measure.map_apply hg MeasurableSet.univ, Set.preimage_univ] at this⟩

/-- If every pair of `C'` is an image of a pair of `C`, a PLD for `C` is one for `C'`. -/
lemma dominatesAll_of_map {p : Pld} {C C' : PairProp} (hp : DominatesAll p C)
    (h : ∀ (Ω : Type) [MeasurableSpace Ω] (P Q : Measure Ω), C' Ω P Q → ∃ (P' Q' : Measure Ω) (g : Ω → Ω), Measurable g ∧
      C Ω P' Q' ∧ P = P'.map g ∧ Q = Q'.map g) : DominatesAll p C' := by
  intro Ω _ P Q h1 h2 hC
  obtain ⟨P', Q', g, hg, hC', rfl, rfl⟩ := h Ω P Q hC
  have := prob_of_map hg h1
  have := prob_of_map hg h2
  obtain ⟨k1, k2⟩ := hp Ω P' Q' hC'
  exact ⟨fun e => Indist.map (k1 e) hg, fun e => Indist.map (k2 e) hg⟩

lemma gaussianVec_scale {d : ℕ} (a : Vec d) (z : ℝ) {Δ : ℝ} (hΔ : 0 < Δ) :
    gaussianVec a (z * Δ) = (gaussianVec (Δ⁻¹ • a) z).map fun x => Δ • x := by
  unfold gaussianVec
  rw [Measure.map_map (by fun_prop) (by fun_prop)]
  congr 1
  ext x i
  simp only [Function.comp, PiLp.add_apply, PiLp.smul_apply, smul_eq_mul]
  field_simp

lemma laplace_scale (μ s : ℝ) {Δ : ℝ} (hΔ : 0 < Δ) : (laplace μ s).map (fun x => Δ * x) = laplace (Δ * μ) (s * Δ) := by
  have hm : Measurable fun x : ℝ => Δ * x := by fun_prop
  have hvol : (volume : Measure ℝ).map (fun x => Δ * x) = ENNReal.ofReal Δ⁻¹ • volume := by
    rw [Real.map_volume_mul_left hΔ.ne', abs_of_pos (inv_pos.2 hΔ)]
  have hpd : Measurable fun x => ENNReal.ofReal (0.5 / (s * Δ) * Real.exp (-|x - Δ * μ| / (s * Δ))) := by fun_prop
  ext t ht
  rw [Measure.map_apply hm ht]
  unfold laplace
  rw [withDensity_apply _ ht, withDensity_apply _ (hm ht)]
  have h1 : ∫⁻ x in (fun x => Δ * x) ⁻¹' t, ENNReal.ofReal (0.5 / s * Real.exp (-|x - μ| / s)) =
      ∫⁻ x in (fun x => Δ * x) ⁻¹' t, ENNReal.ofReal Δ * ENNReal.ofReal (0.5 / (s * Δ) * Real.exp (-|Δ * x - Δ * μ| / (s * Δ))) := by
    refine lintegral_congr fun x => ?_
    rw [← ENNReal.ofReal_mul hΔ.le, ← mul_sub, abs_mul, abs_of_pos hΔ]
    congr 1
    rw [← mul_assoc]
    congr 1
    · by_cases hs : s = 0
      · simp [hs]
      · field_simp
    · congr 1
      by_cases hs : s = 0
      · simp [hs]
      · field_simp
  have hpd' : Measurable fun x => ENNReal.ofReal (0.5 / (s * Δ) * Real.exp (-|Δ * x - Δ * μ| / (s * Δ))) := hpd.comp hm
  rw [h1, lintegral_const_mul _ hpd']
  have h2 : ∫⁻ x in (fun x => Δ * x) ⁻¹' t, ENNReal.ofReal (0.5 / (s * Δ) * Real.exp (-|Δ * x - Δ * μ| / (s * Δ))) =
      ∫⁻ y in t, ENNReal.ofReal (0.5 / (s * Δ) * Real.exp (-|y - Δ * μ| / (s * Δ))) ∂((volume : Measure ℝ).map fun x => Δ * x) := by
    rw [setLIntegral_map ht hpd hm]
  rw [h2, hvol, Measure.restrict_smul, lintegral_smul_measure, smul_eq_mul, ← mul_assoc, ← ENNReal.ofReal_mul hΔ.le, mul_inv_cancel₀ hΔ.ne',
    ENNReal.ofReal_one, one_mul]

lemma laplaceVec_scale {d : ℕ} (a : Fin d → ℝ) {z : ℝ} (hz : 0 < z) {Δ : ℝ} (hΔ : 0 < Δ) :
    laplaceVec a (z * Δ) = (laplaceVec (fun i => Δ⁻¹ * a i) z).map fun x i => Δ * x i := by
  unfold laplaceVec
  have h1 : ∀ i, laplace (a i) (z * Δ) = (laplace (Δ⁻¹ * a i) z).map fun x => Δ * x := by
    intro i
    rw [laplace_scale _ _ hΔ, ← mul_assoc, mul_inv_cancel₀ hΔ.ne', one_mul]
  have hp : ∀ i, IsProbabilityMeasure (laplace (Δ⁻¹ * a i) z) := fun i => laplace_prob _ hz
  have hp' : ∀ i, IsProbabilityMeasure ((laplace (Δ⁻¹ * a i) z).map fun x => Δ * x) := fun i =>
    Measure.isProbabilityMeasure_map (by fun_prop)
  have h2 := (Measure.pi_map_pi (μ := fun i => laplace (Δ⁻¹ * a i) z) (f := fun _ x => Δ * x) fun i => (by fun_prop))
  rw [h2]
  congr 1
  ext1 i
  exact h1 i

lemma poissonMech_map {R : Type} {Ω Ω' : Type} [MeasurableSpace Ω] [MeasurableSpace Ω'] (q : ℝ) (K : Finset R → Measure Ω) (D : Finset R)
    {g : Ω → Ω'} (hg : Measurable g) : (poissonMech q K D).map g = poissonMech q (fun S => (K S).map g) D := by
  unfold poissonMech
  exact map_finsetSum_smul _ _ _ hg

lemma sampledGaussianPair_map {z q : ℝ} (Ω : Type) [MeasurableSpace Ω] (P Q : Measure Ω) (hC : SampledGaussianPair z q Ω P Q) :
    ∃ (P' Q' : Measure Ω) (g : Ω → Ω), Measurable g ∧ SampledGaussian z 1 q Ω P' Q' ∧ P = P'.map g ∧ Q = Q'.map g := by
  obtain ⟨Δ, hΔ, h⟩ := hC
  cases h with
  | @mk R _ d f hf D r hr =>
    refine ⟨poissonMech q (fun S => gaussianVec (Δ⁻¹ • f S) z) (insert r D), poissonMech q (fun S => gaussianVec (Δ⁻¹ • f S) z) D,
      fun x => Δ • x, by fun_prop, ?_, ?_, ?_⟩
    · refine SampledGaussian.mk (fun S => Δ⁻¹ • f S) (fun S r => ?_) D r hr
      rw [← smul_sub, norm_smul, Real.norm_eq_abs, abs_of_pos (inv_pos.2 hΔ), inv_mul_le_iff₀ hΔ, mul_one]
      exact hf S r
    · rw [poissonMech_map _ _ _ (by fun_prop)]
      congr 1; ext1 S; exact gaussianVec_scale _ _ hΔ
    · rw [poissonMech_map _ _ _ (by fun_prop)]
      congr 1; ext1 S; exact gaussianVec_scale _ _ hΔ

lemma dominatesAll_sampledGaussian {p : Pld} {z q : ℝ} (hp : DominatesAll p (SampledGaussian z 1 q)) :
    DominatesAll p (SampledGaussianPair z q) := dominatesAll_of_map hp sampledGaussianPair_map

lemma sampledLaplacePair_map {z q : ℝ} (hz : 0 < z) (Ω : Type) [MeasurableSpace Ω] (P Q : Measure Ω) (hC : SampledLaplacePair z q Ω P Q) :
    ∃ (P' Q' : Measure Ω) (g : Ω → Ω), Measurable g ∧ SampledLaplace z 1 q Ω P' Q' ∧ P = P'.map g ∧ Q = Q'.map g := by
  obtain ⟨Δ, hΔ, h⟩ := hC
  have hm : ∀ d, Measurable fun (x : Fin d → ℝ) i => Δ * x i := fun d => by fun_prop
  cases h with
  | @mk R _ d f hf D r hr =>
    refine ⟨poissonMech q (fun S => laplaceVec (fun i => Δ⁻¹ * f S i) z) (insert r D), poissonMech q (fun S => laplaceVec (fun i => Δ⁻¹ * f S i) z) D,
      fun x i => Δ * x i, hm d, ?_, ?_, ?_⟩
    · refine SampledLaplace.mk (fun S i => Δ⁻¹ * f S i) (fun S r => ?_) D r hr
      have : ∀ i, |Δ⁻¹ * f (insert r S) i - Δ⁻¹ * f S i| = Δ⁻¹ * |f (insert r S) i - f S i| := fun i => by
        rw [← mul_sub, abs_mul, abs_of_pos (inv_pos.2 hΔ)]
      rw [Finset.sum_congr rfl fun i _ => this i, ← Finset.mul_sum, inv_mul_le_iff₀ hΔ, mul_one]
      exact hf S r
    · rw [poissonMech_map _ _ _ (hm d)]
      congr 1; ext1 S; exact laplaceVec_scale _ hz hΔ
    · rw [poissonMech_map _ _ _ (hm d)]
      congr 1; ext1 S; exact laplaceVec_scale _ hz hΔ

lemma dominatesAll_sampledLaplace {p : Pld} {z q : ℝ} (hz : 0 < z) (hp : DominatesAll p (SampledLaplace z 1 q)) :
    DominatesAll p (SampledLaplacePair z q) := dominatesAll_of_map hp (sampledLaplacePair_map hz)

lemma dominatesAll_laplace {p : Pld} {z : ℝ} (hz : 0 < z) (hp : DominatesAll p (SampledLaplace z 1 1)) : DominatesAll p (LaplacePair z) := by
  intro Ω _ P Q _ _ h
  refine dominatesAll_sampledLaplace hz hp Ω P Q ?_
  cases h with
  | mk a b Δ hΔ hab => exact ⟨Δ, hΔ, sampledLaplace_one hΔ.le a b hab⟩

end Verif.Mech
