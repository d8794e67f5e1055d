import Verif.Proofs.DiscreteLaplaceLaw
import Verif.Props.AdditiveNoise
import Mathlib.Analysis.SpecialFunctions.ImproperIntegrals

/-! # Proofs: the exact privacy curve of the Laplace mechanism -/

namespace Verif.Mech
open MeasureTheory ProbabilityTheory Verif.Spec Verif.Pld

lemma laplace_Iic {b x : ℝ} (hb : 0 < b) (hx : x ≤ 0) : (laplace 0 b).real (Set.Iic x) = 0.5 * Real.exp (x / b) := by
  unfold laplace
  rw [measureReal_def, withDensity_apply _ measurableSet_Iic]
  rw [← ofReal_integral_eq_lintegral_ofReal, ENNReal.toReal_ofReal]
  · rw [setIntegral_congr_fun (g := fun t => 0.5 / b * Real.exp (1 / b * t)) measurableSet_Iic]
    · rw [integral_const_mul, integral_exp_mul_Iic (by positivity)]
      rw [show 1 / b * x = x / b by ring]
      field_simp
    · intro t ht
      have : t ≤ 0 := le_trans ht hx
      simp only [sub_zero, abs_of_nonpos this]
      congr 2; ring
  · exact integral_nonneg fun t => by positivity
  · refine (IntegrableOn.congr_fun (f := fun t => 0.5 / b * Real.exp (1 / b * t)) ?_ ?_ measurableSet_Iic)
    · exact (integrableOn_exp_mul_Iic (by positivity) x).const_mul _
    · intro t ht
      have : t ≤ 0 := le_trans ht hx
      simp only [sub_zero, abs_of_nonpos this]
      congr 2; ring
  · exact ae_of_all _ fun t => by positivity

lemma laplace_Iic_nonneg {b x : ℝ} (hb : 0 < b) (hx : 0 ≤ x) : (laplace 0 b).real (Set.Iic x) = 1 - 0.5 * Real.exp (-x / b) := by
  have hp := laplace_prob 0 hb
  have h : (laplace 0 b).real (Set.Ioi x) = 0.5 * Real.exp (-x / b) := by
    unfold laplace
    rw [measureReal_def, withDensity_apply _ measurableSet_Ioi]
    rw [← ofReal_integral_eq_lintegral_ofReal, ENNReal.toReal_ofReal]
    · rw [setIntegral_congr_fun (g := fun t => 0.5 / b * Real.exp (-(1 / b) * t)) measurableSet_Ioi]
      · rw [integral_const_mul, integral_exp_mul_Ioi (by have : 0 < 1 / b := by positivity
                                                         linarith)]
        rw [show -(1 / b) * x = -x / b by ring]
        field_simp
      · intro t ht
        have : 0 ≤ t := le_trans hx (le_of_lt ht)
        simp only [sub_zero, abs_of_nonneg this]
        congr 2; ring
    · exact integral_nonneg fun t => by positivity
    · refine (IntegrableOn.congr_fun (f := fun t => 0.5 / b * Real.exp (-(1 / b) * t)) ?_ ?_ measurableSet_Ioi)
      · exact (integrableOn_exp_mul_Ioi (by have : 0 < 1 / b := by positivity
                                            linarith) x).const_mul _
      · intro t ht
        have : 0 ≤ t := le_trans hx (le_of_lt ht)
        simp only [sub_zero, abs_of_nonneg this]
        congr 2; ring
    · exact ae_of_all _ fun t => by positivity
  have h2 := probReal_compl_eq_one_sub (μ := laplace 0 b) (measurableSet_Iic (a := x))
  rw [Set.compl_Iic, h] at h2
  linarith

lemma laplace_hs {b ε : ℝ} (hb : 0 < b) (h1 : -(1 / b) < ε) (h2 : ε ≤ 1 / b) :
    IsHs (upper (laplace 0 b) 1 1 .remove) (lower (laplace 0 b) 1 1 .remove) ε (1 - Real.exp ((ε - 1 / b) / 2)) := by
  have hm : ∃ m, mkLaplace b 1 1 .remove = .ok m ∧ m.getDelta ε = .ok (1 - Real.exp ((ε - 1 / b) / 2)) := by
    unfold mkLaplace
    rw [if_neg (not_le.2 hb)]
    have hc : checkBase 1 1 = .ok () := by unfold checkBase; norm_num
    rw [hc]
    refine ⟨_, rfl, ?_⟩
    unfold AdditiveNoise.getDelta AdditiveNoise.deltaAtCutoff AdditiveNoise.inversePrivacyLoss
    simp only [if_true]
    have hb1 : ε * b ≤ 1 := by rw [le_div_iff₀ hb] at h2; exact h2
    have hb2 : -1 < ε * b := by rw [neg_lt, lt_div_iff₀ hb] at h1; linarith
    have hi : laplaceInvNo b 1 .remove ((ε : ℝ) : EReal) = ((0.5 * (-1 - ε * b) : ℝ) : EReal) := by
      show (if ε * b > 1 then (⊥ : EReal) else if ε * b ≤ -1 then ⊤ else ((0.5 * (-1 - ε * b) : ℝ) : EReal)) = _
      rw [if_neg (by linarith), if_neg (by linarith)]
    rw [hi]
    simp only [Except.map, Except.ok.injEq]
    unfold AdditiveNoise.muUpperCdf AdditiveNoise.muLowerLogCdf
    simp only [if_true, cdfOf, id, AddMonoidHom.id_apply, ← EReal.coe_add, EReal.coe_le_coe_iff]
    have e1 : {y : ℝ | y ≤ 0.5 * (-1 - ε * b) + 1} = Set.Iic (0.5 * (-1 - ε * b) + 1) := rfl
    have e2 : {y : ℝ | y ≤ 0.5 * (-1 - ε * b)} = Set.Iic (0.5 * (-1 - ε * b)) := rfl
    rw [e1, e2, laplace_Iic_nonneg hb (by linarith), laplace_Iic hb (by linarith)]
    have hne : (0.5 * Real.exp (0.5 * (-1 - ε * b) / b)) ≠ 0 := by positivity
    unfold logOf
    rw [if_neg hne]
    have e3 : expLog (((ε : ℝ) : LogProb) + ((Real.log (0.5 * Real.exp (0.5 * (-1 - ε * b) / b)) : ℝ) : LogProb)) =
        0.5 * Real.exp ((ε - 1 / b) / 2) := by
      rw [← WithBot.coe_add]
      show Real.exp _ = _
      rw [Real.exp_add, Real.exp_log (by positivity), mul_left_comm, ← Real.exp_add]
      congr 2
      field_simp
      ring
    rw [e3]
    have e4 : -(0.5 * (-1 - ε * b) + 1) / b = (ε - 1 / b) / 2 := by field_simp; ring
    rw [e4]
    have h3 : Real.exp ((ε - 1 / b) / 2) ≤ 1 := Real.exp_le_one_iff.2 (by linarith)
    have h4 := Real.exp_pos ((ε - 1 / b) / 2)
    unfold AdditiveNoise.clip01
    rw [max_eq_right (by linarith), min_eq_right (by linarith)]
    ring
  obtain ⟨m, hm, hd⟩ := hm
  obtain ⟨d, hd', h⟩ := Verif.Props.C31_laplace_partial hm ε (.inl rfl)
  rw [hd] at hd'
  cases hd'
  exact h

lemma laplace_shift (b v : ℝ) : (laplace 0 b).map (fun x => x + v) = laplace v b := by
  have hm : Measurable fun x : ℝ => x + v := by fun_prop
  ext t ht
  rw [Measure.map_apply hm ht]
  unfold laplace
  rw [withDensity_apply _ ht, withDensity_apply _ (hm ht)]
  have hv : (volume : Measure ℝ).map (fun x => x + v) = volume := map_add_right_eq_self volume v
  conv_rhs => rw [← hv, setLIntegral_map ht (by fun_prop) hm]
  refine lintegral_congr fun x => ?_
  simp

lemma laplace_density {b : ℝ} (hb : 0 < b) (v : ℝ) :
    laplace v b = (laplace 0 b).withDensity fun x => ENNReal.ofReal (Real.exp ((|x| - |x - v|) / b)) := by
  unfold laplace
  rw [← withDensity_mul _ (by fun_prop) (by fun_prop)]
  congr 1
  funext x
  rw [Pi.mul_apply, ← ENNReal.ofReal_mul (by positivity), mul_assoc, ← Real.exp_add, sub_zero]
  congr 3
  ring

/-- The law of the privacy loss for a positive density. -/
noncomputable def densLaw {Ω : Type*} [MeasurableSpace Ω] (P : Measure Ω) [IsProbabilityMeasure P] (f : Ω → ℝ) (hf : Measurable f) : LossLaw where
  inf := 0
  μ := P.map fun x => Real.log (f x)
  fin := by infer_instance
  inf_nonneg := le_rfl
  mass := by
    have := Measure.isProbabilityMeasure_map (μ := P) (f := fun x => Real.log (f x)) (by fun_prop)
    simp

lemma densLaw_of {Ω : Type*} [MeasurableSpace Ω] (P Q : Measure Ω) [IsProbabilityMeasure P] (f : Ω → ℝ) (hf : Measurable f) (h0 : ∀ x, 0 ≤ f x)
    (hd : P = Q.withDensity fun x => ENNReal.ofReal (f x)) : (densLaw P f hf).Of P Q := by
  refine ⟨∅, f, MeasurableSet.empty, hf, h0, by simp, by simp [densLaw], ?_, ?_⟩
  · rw [Set.compl_empty, Measure.restrict_univ]; exact hd
  · rw [Set.compl_empty, Measure.restrict_univ]; rfl

/-- The exact law covers every Laplace mechanism with the noise multiplier. -/
lemma exists_laplaceLaw {b : ℝ} (hb : 0 < b) : ∃ L : LossLaw, LawFor L (LaplacePair b) ∧
    ∀ ε, -(1 / b) < ε → ε ≤ 1 / b → L.hs ε = 1 - Real.exp ((ε - 1 / b) / 2) := by
  have hp := laplace_prob (-1) hb
  have hp0 := laplace_prob 0 hb
  have hu : upper (laplace 0 b) 1 1 .remove = laplace (-1) b := by
    simp only [upper]
    rw [mixShift_one, laplace_shift]
  have hof := densLaw_of (laplace (-1) b) (laplace 0 b) (fun x => Real.exp ((|x| - |x - -1|) / b)) (by fun_prop) (fun x => (Real.exp_pos _).le)
    (laplace_density hb (-1))
  refine ⟨densLaw (laplace (-1) b) (fun x => Real.exp ((|x| - |x - -1|) / b)) (by fun_prop), ?_, fun ε h1 h2 => ?_⟩
  rotate_left
  · have h := laplace_hs hb h1 h2
    rw [hu] at h
    exact (hof.isHs ε).unique h
  · intro Ω _ P Q _ _ h e
    cases h with
    | @mk d a c Δ hΔ hab =>
      rw [laplaceVec_scale a hb hΔ, laplaceVec_scale c hb hΔ]
      refine Indist.map ?_ (by fun_prop)
      have hs := sampledLaplace_one (b := b) zero_le_one (fun i => Δ⁻¹ * a i) (fun i => Δ⁻¹ * c i) (by
        have : ∀ i, |Δ⁻¹ * a i - Δ⁻¹ * c i| = Δ⁻¹ * |a i - c i| := fun i => by
          rw [← mul_sub, abs_mul, abs_of_pos (inv_pos.2 hΔ)]
        rw [Finset.sum_congr rfl fun i _ => this i, ← Finset.mul_sum, inv_mul_le_iff₀ hΔ, mul_one]
        exact hab)
      refine (sampledLaplace_indist hb zero_le_one le_rfl hs e _).1 ?_
      rw [hu]
      exact (hof.isHs e).1

end Verif.Mech

namespace Verif.Spec
open MeasureTheory ProbabilityTheory Verif.Pld

/-- Basic composition with a mechanism that is `(0, δ)`-private. -/
lemma conv_hs_le_add (A B : LossLaw) (ε : ℝ) : (A.conv B).hs ε ≤ A.hs ε + B.hs 0 := by
  have hfA := A.fin
  have hfB := B.fin
  rw [conv_hs]
  have key : ∀ y : ℝ, A.hs (ε - y) ≤ A.hs ε + hinge ((0 : ℝ) : EReal) y := by
    intro y
    unfold LossLaw.hs lossHs
    have hp : ∀ x : ℝ, hinge ((ε - y : ℝ) : EReal) x ≤ hinge (ε : EReal) x + hinge ((0 : ℝ) : EReal) y := by
      intro x
      rw [hinge_coe, hinge_coe, hinge_coe]
      have e1 : Real.exp (ε - y - x) = Real.exp (0 - y) * Real.exp (ε - x) := by rw [← Real.exp_add]; congr 1; ring
      rw [e1]
      have h1 := Real.exp_pos (0 - y)
      have h2 := Real.exp_pos (ε - x)
      have h3 := le_max_left 0 (1 - Real.exp (ε - x))
      have h4 := le_max_right 0 (1 - Real.exp (ε - x))
      have h5 := le_max_left 0 (1 - Real.exp (0 - y))
      have h6 := le_max_right 0 (1 - Real.exp (0 - y))
      refine max_le (by linarith) ?_
      rcases le_total (Real.exp (0 - y)) 1 with h | h
      · nlinarith
      · nlinarith
    have hm : A.μ.real Set.univ ≤ 1 := by have := A.mass; have := A.inf_nonneg; linarith
    have h0 := hinge_nonneg ((0 : ℝ) : EReal) y
    have := integral_mono (integrable_hinge A.μ ((ε - y : ℝ) : EReal))
      ((integrable_hinge A.μ (ε : EReal)).add (integrable_const (hinge ((0 : ℝ) : EReal) y))) hp
    rw [integral_add' (integrable_hinge A.μ _) (integrable_const _), integral_const, smul_eq_mul] at this
    nlinarith
  have hi : Integrable (fun y => A.hs (ε - y)) B.μ := Integrable.of_bound
    ((measurable_lossHs A).comp (measurable_const.sub measurable_id)).aestronglyMeasurable 1
    (ae_of_all _ fun y => by rw [Real.norm_eq_abs, abs_of_nonneg (hs_bounds A _).1]; exact (hs_bounds A _).2)
  have := integral_mono hi ((integrable_const (A.hs ε)).add (integrable_hinge B.μ ((0 : ℝ) : EReal))) key
  rw [integral_add' (integrable_const _) (integrable_hinge B.μ _), integral_const, smul_eq_mul] at this
  have hm : B.μ.real Set.univ ≤ 1 := by have := B.mass; have := B.inf_nonneg; linarith
  have h0 := (hs_bounds A ε).1
  show _ ≤ A.hs ε + (B.inf + ∫ y, hinge ((0 : ℝ) : EReal) y ∂B.μ)
  nlinarith

/-- The total variation of the Gaussian mechanism vanishes with growing noise. -/
lemma gauss_hs_zero {z : ℝ} (hz : 1 ≤ z) : (gaussLaw z).hs 0 ≤ 2 / z := by
  have hz0 : 0 < z := by linarith
  have hpr : IsProbabilityMeasure (gaussLaw z).μ := by unfold gaussLaw; infer_instance
  unfold LossLaw.hs lossHs
  have hle : ∀ x : ℝ, hinge ((0 : ℝ) : EReal) x ≤ 1 / z + z / 4 * x ^ 2 := by
    intro x
    rw [hinge_coe]
    have h1 : 1 - Real.exp (0 - x) ≤ x := by have := Real.add_one_le_exp (0 - x); linarith
    have h2 : x ≤ 1 / z + z / 4 * x ^ 2 := by
      have : 0 ≤ (z * x / 2 - 1) ^ 2 := sq_nonneg _
      have h3 : 1 / z + z / 4 * x ^ 2 - x = (z * x / 2 - 1) ^ 2 / z := by field_simp; ring
      have : 0 ≤ (z * x / 2 - 1) ^ 2 / z := by positivity
      linarith
    exact max_le (by positivity) (h1.trans h2)
  have hsq : Integrable (fun x : ℝ => x ^ 2) (gaussLaw z).μ := by
    have : MemLp id 2 (gaussLaw z).μ := memLp_id_gaussianReal 2
    exact this.integrable_sq
  have hval : ∫ x, x ^ 2 ∂(gaussLaw z).μ = 1 / z ^ 2 + (1 / (2 * z ^ 2)) ^ 2 := by
    have hv := variance_eq_sub (X := id) (μ := (gaussLaw z).μ) (memLp_id_gaussianReal 2)
    have h1 : Var[id; (gaussLaw z).μ] = 1 / z ^ 2 := by
      show Var[id; gaussianReal (1 / (2 * z ^ 2)) (Real.toNNReal (1 / z ^ 2))] = _
      rw [variance_id_gaussianReal, Real.coe_toNNReal _ (by positivity)]
    have h2 : ∫ x, id x ∂(gaussLaw z).μ = 1 / (2 * z ^ 2) := integral_id_gaussianReal
    rw [h1, h2] at hv
    have h3 : ∫ x, x ^ 2 ∂(gaussLaw z).μ = ∫ x, (id ^ 2 : ℝ → ℝ) x ∂(gaussLaw z).μ := rfl
    rw [h3]
    linarith
  have := integral_mono (integrable_hinge (gaussLaw z).μ ((0 : ℝ) : EReal)) ((integrable_const (1 / z)).add (hsq.const_mul (z / 4))) hle
  rw [integral_add' (integrable_const _) (hsq.const_mul _), integral_const_mul, hval, integral_const, probReal_univ, one_smul] at this
  show 0 + _ ≤ _
  rw [zero_add]
  refine this.trans ?_
  have h1 : z / 4 * (1 / z ^ 2 + (1 / (2 * z ^ 2)) ^ 2) = 1 / (4 * z) + 1 / (16 * z ^ 3) := by field_simp; ring
  rw [h1]
  have h2 : 1 / (16 * z ^ 3) ≤ 1 / (16 * z) := by
    refine one_div_le_one_div_of_le (by positivity) ?_
    have : 1 ≤ z ^ 2 := one_le_pow₀ hz
    nlinarith [pow_succ z 2]
  have h3 : 1 / z + (1 / (4 * z) + 1 / (16 * z)) ≤ 2 / z := by
    have : 1 / z + (1 / (4 * z) + 1 / (16 * z)) = (21 / 16) / z := by field_simp; norm_num
    rw [this]
    exact div_le_div_of_nonneg_right (by norm_num) hz0.le
  linarith

end Verif.Spec
