import Verif.Proofs.AdditiveNoiseInst
import Verif.Proofs.PldAdvanced
import Verif.Proofs.LossOf
import Verif.Proofs.PldEventLaws
import Mathlib.MeasureTheory.Integral.Pi

/-! # Proofs: the privacy loss of a count with discrete Laplace noise -/

namespace Verif.Spec
open MeasureTheory ProbabilityTheory Verif.Advanced Verif.Pld
open scoped ENNReal

/-- The density. -/
noncomputable def dlRho (a : ℝ) (k : ℤ) : ℝ := (Real.exp a - 1) / (Real.exp a + 1) * Real.exp (-a * |(k : ℝ)|)

lemma dlRho_nonneg {a : ℝ} (ha : 0 < a) (k : ℤ) : 0 ≤ dlRho a k := by
  have : 1 < Real.exp a := Real.one_lt_exp_iff.2 ha
  exact mul_nonneg (div_nonneg (by linarith) (by linarith)) (Real.exp_pos _).le

lemma dl_eq (a : ℝ) : discreteLaplace a = Measure.count.withDensity fun k => ENNReal.ofReal (dlRho a k) := rfl

lemma dl_singleton (a : ℝ) (k : ℤ) : discreteLaplace a {k} = ENNReal.ofReal (dlRho a k) := by
  rw [dl_eq, withDensity_apply _ (measurableSet_singleton k), Measure.restrict_singleton, lintegral_smul_measure, lintegral_dirac]
  simp

lemma dl_shift (a : ℝ) (m : ℤ) : (discreteLaplace a).map (m + ·) = Measure.count.withDensity fun k => ENNReal.ofReal (dlRho a (k - m)) := by
  refine Measure.ext_of_singleton fun k => ?_
  rw [Measure.map_apply (measurable_of_countable _) (measurableSet_singleton k),
    withDensity_apply _ (measurableSet_singleton k), Measure.restrict_singleton, lintegral_smul_measure, lintegral_dirac]
  have : (fun x : ℤ => m + x) ⁻¹' {k} = {k - m} := by
    ext x; simp; omega
  rw [this, dl_singleton]
  simp

lemma dl_shift_shift (a : ℝ) (m n : ℤ) : ((discreteLaplace a).map (n + ·)).map (m + ·) = (discreteLaplace a).map (m + n + ·) := by
  rw [Measure.map_map (measurable_of_countable _) (measurable_of_countable _)]
  congr 1
  funext x
  simp [add_assoc]

/-- The density of the noise with respect to the noise of a count that is one larger. -/
noncomputable def dlRatio (a : ℝ) (k : ℤ) : ℝ := if k ≤ 0 then Real.exp a else Real.exp (-a)

lemma dlRatio_spec (a : ℝ) (k : ℤ) : dlRho a k = dlRatio a k * dlRho a (k - 1) := by
  unfold dlRho dlRatio
  split_ifs with h
  · rw [mul_left_comm, ← Real.exp_add]
    congr 2
    have h1 : (k : ℝ) ≤ 0 := by exact_mod_cast h
    push_cast
    rw [abs_of_nonpos h1, abs_of_nonpos (by linarith)]; ring
  · rw [mul_left_comm, ← Real.exp_add]
    congr 2
    have h1 : (1 : ℝ) ≤ k := by exact_mod_cast (by omega : 1 ≤ k)
    push_cast
    rw [abs_of_nonneg (by linarith), abs_of_nonneg (by linarith)]; ring

lemma dl_density (a : ℝ) (ha : 0 < a) :
    discreteLaplace a = ((discreteLaplace a).map (1 + ·)).withDensity fun k => ENNReal.ofReal (dlRatio a k) := by
  rw [dl_shift, ← withDensity_mul _ (measurable_of_countable _) (measurable_of_countable _), dl_eq]
  congr 1
  funext k
  rw [dlRatio_spec, Pi.mul_apply, mul_comm, ENNReal.ofReal_mul (dlRho_nonneg ha _)]

lemma dl_neg {a : ℝ} : (discreteLaplace a).map (fun k => -k) = discreteLaplace a := by
  refine Measure.ext_of_singleton fun k => ?_
  rw [Measure.map_apply (measurable_of_countable _) (measurableSet_singleton k)]
  have : (fun x : ℤ => -x) ⁻¹' {k} = {-k} := by
    ext x; simp
  rw [this, dl_singleton, dl_singleton]
  simp [dlRho]

/-- The probability that the noise is not positive. -/
lemma dl_nonpos {a : ℝ} (ha : 0 < a) : (discreteLaplace a).real (Set.Iic 0) = Real.exp a / (Real.exp a + 1) := by
  have := Verif.Mech.discreteLaplace_prob ha
  set A := (discreteLaplace a).real (Set.Iic 0) with hA
  have h1 : (discreteLaplace a).real (Set.Iic 0)ᶜ = Real.exp (-a) * A := by
    have hr : discreteLaplace a (Set.Iic 0)ᶜ = ENNReal.ofReal (Real.exp (-a)) * discreteLaplace a (Set.Iic 0) := by
      conv_lhs => rw [dl_density a ha]
      rw [withDensity_apply _ (measurableSet_Iic.compl),
        setLIntegral_congr_fun (g := fun _ => ENNReal.ofReal (Real.exp (-a))) measurableSet_Iic.compl]
      · rw [setLIntegral_const, Measure.map_apply (measurable_of_countable _) measurableSet_Iic.compl]
        congr 1
        conv_rhs => rw [← dl_neg, Measure.map_apply (measurable_of_countable _) measurableSet_Iic]
        congr 1
        ext x
        simp
        omega
      · intro k hk
        simp only [Set.mem_compl_iff, Set.mem_Iic] at hk
        simp [dlRatio, hk]
    rw [measureReal_def, hr, ENNReal.toReal_mul, ENNReal.toReal_ofReal (Real.exp_pos _).le]
    rfl
  have h2 : (discreteLaplace a).real (Set.Iic 0)ᶜ = 1 - A := probReal_compl_eq_one_sub measurableSet_Iic
  have h3 : A * (1 + Real.exp (-a)) = 1 := by linarith
  rw [Real.exp_neg] at h3
  have := Real.exp_pos a
  field_simp at h3 ⊢
  linarith

/-- The exact loss law of a count with discrete Laplace noise is the one of randomized response. -/
lemma dl_of {a : ℝ} (ha : 0 < a) : (ddpLaw a 0 le_rfl zero_le_one).Of (discreteLaplace a) ((discreteLaplace a).map (1 + ·)) := by
  have := Verif.Mech.discreteLaplace_prob ha
  refine ⟨∅, dlRatio a, MeasurableSet.empty, measurable_of_countable _, fun k => by unfold dlRatio; split_ifs <;> positivity, by simp,
    by simp [ddpLaw], ?_, ?_⟩
  · rw [Set.compl_empty, Measure.restrict_univ]
    exact dl_density a ha
  · rw [Set.compl_empty, Measure.restrict_univ]
    have hl : ∀ x, Real.log (dlRatio a x) = if x ≤ 0 then a else -a := by
      intro x; unfold dlRatio; split_ifs <;> simp
    have hneg : (discreteLaplace a).real (Set.Iic 0)ᶜ = 1 / (Real.exp a + 1) := by
      rw [probReal_compl_eq_one_sub measurableSet_Iic, dl_nonpos ha]
      have := Real.exp_pos a
      field_simp
      ring
    have e1 : ((discreteLaplace a).restrict (Set.Iic 0)).map (fun x => Real.log (dlRatio a x)) =
        ENNReal.ofReal (Real.exp a / (Real.exp a + 1)) • Measure.dirac a := by
      rw [Measure.map_congr (g := fun _ => a), Measure.map_const, Measure.restrict_apply_univ, ← dl_nonpos ha, ofReal_measureReal]
      filter_upwards [ae_restrict_mem measurableSet_Iic] with x hx
      rw [hl, if_pos (Set.mem_Iic.1 hx)]
    have e2 : ((discreteLaplace a).restrict (Set.Iic 0)ᶜ).map (fun x => Real.log (dlRatio a x)) =
        ENNReal.ofReal (1 / (Real.exp a + 1)) • Measure.dirac (-a) := by
      rw [Measure.map_congr (g := fun _ => -a), Measure.map_const, Measure.restrict_apply_univ, ← hneg, ofReal_measureReal]
      filter_upwards [ae_restrict_mem measurableSet_Iic.compl] with x hx
      rw [hl, if_neg fun h => hx (Set.mem_Iic.2 h)]
    conv_rhs => rw [← Measure.restrict_add_restrict_compl (μ := discreteLaplace a) (s := Set.Iic 0) measurableSet_Iic,
      Measure.map_add _ _ (measurable_of_countable _), e1, e2]
    simp [ddpLaw, ptsMeasure, ddpPts, add_comm (Real.exp a)]

/-- A count and the count of a data set with one record more are indistinguishable at level `a`. -/
lemma dl_indist {a : ℝ} (ha : 0 < a) : Indist (discreteLaplace a) ((discreteLaplace a).map (1 + ·)) a 0 ∧
    Indist ((discreteLaplace a).map (1 + ·)) (discreteLaplace a) a 0 := by
  have := Verif.Mech.discreteLaplace_prob ha
  have hp : IsProbabilityMeasure ((discreteLaplace a).map (1 + ·)) := Measure.isProbabilityMeasure_map (measurable_of_countable _).aemeasurable
  have hle : ∀ {P Q : Measure ℤ} [IsProbabilityMeasure P] [IsProbabilityMeasure Q], P ≤ ENNReal.ofReal (Real.exp a) • Q → Indist P Q a 0 := by
    intro P Q _ _ h S hS
    rw [add_zero, measureReal_def, measureReal_def, ← ENNReal.toReal_ofReal (Real.exp_pos a).le, ← ENNReal.toReal_mul]
    exact ENNReal.toReal_mono (ENNReal.mul_ne_top ENNReal.ofReal_ne_top (measure_ne_top _ _)) (h S)
  have hrho : ∀ k, dlRho a (k - 1) ≤ Real.exp a * dlRho a k := by
    intro k
    rw [dlRatio_spec a k, ← mul_assoc]
    refine le_mul_of_one_le_left (dlRho_nonneg ha _) ?_
    unfold dlRatio
    split_ifs
    · have := Real.one_lt_exp_iff.2 ha; nlinarith
    · rw [← Real.exp_add]; simp
  have hrho' : ∀ k, dlRho a k ≤ Real.exp a * dlRho a (k - 1) := by
    intro k
    rw [dlRatio_spec a k]
    refine mul_le_mul_of_nonneg_right ?_ (dlRho_nonneg ha _)
    unfold dlRatio
    split_ifs
    · exact le_rfl
    · exact Real.exp_le_exp.2 (by linarith)
  constructor
  · apply hle
    rw [dl_shift, ← withDensity_smul _ (measurable_of_countable _), dl_eq]
    refine withDensity_mono (ae_of_all _ fun k => ?_)
    rw [Pi.smul_apply, smul_eq_mul, ← ENNReal.ofReal_mul (Real.exp_pos a).le]
    exact ENNReal.ofReal_le_ofReal (hrho' k)
  · apply hle
    rw [dl_shift, dl_eq, ← withDensity_smul _ (measurable_of_countable _)]
    refine withDensity_mono (ae_of_all _ fun k => ?_)
    rw [Pi.smul_apply, smul_eq_mul, ← ENNReal.ofReal_mul (Real.exp_pos a).le]
    exact ENNReal.ofReal_le_ofReal (hrho k)

/-- Noisy counts that differ by one. -/
lemma dl_dominates {a : ℝ} (ha : 0 < a) (m : ℤ) :
    (ddpLaw a 0 le_rfl zero_le_one).Dominates ((discreteLaplace a).map (m + ·)) ((discreteLaplace a).map (m + 1 + ·)) ∧
    (ddpLaw a 0 le_rfl zero_le_one).Dominates ((discreteLaplace a).map (m + 1 + ·)) ((discreteLaplace a).map (m + ·)) := by
  have := Verif.Mech.discreteLaplace_prob ha
  have hp : IsProbabilityMeasure ((discreteLaplace a).map (1 + ·)) := Measure.isProbabilityMeasure_map (measurable_of_countable _).aemeasurable
  obtain ⟨h1, h2⟩ := dl_indist ha
  rw [← dl_shift_shift]
  exact ⟨fun e => Verif.Mech.Indist.map (ddp_dominates a 0 ha.le le_rfl zero_le_one _ _ h1 h2 e) (measurable_of_countable _),
    fun e => Verif.Mech.Indist.map (ddp_dominates a 0 ha.le le_rfl zero_le_one _ _ h2 h1 e) (measurable_of_countable _)⟩

lemma LossLaw.Of.equiv {Ω Ω' : Type*} [MeasurableSpace Ω] [MeasurableSpace Ω'] {L : LossLaw} {P Q : Measure Ω} (h : L.Of P Q) (e : Ω ≃ᵐ Ω') :
    L.Of (P.map e) (Q.map e) := by
  obtain ⟨S, f, hS, hf, h0, hQ, hP, hd, hμ⟩ := h
  have hpre : e ⁻¹' (e.symm ⁻¹' S) = S := by ext x; simp
  have hm : MeasurableSet (e.symm ⁻¹' S) := e.symm.measurable hS
  have hr : (P.map e).restrict (e.symm ⁻¹' S)ᶜ = (P.restrict Sᶜ).map e := by
    rw [Measure.restrict_map e.measurable hm.compl, Set.preimage_compl, hpre]
  refine ⟨e.symm ⁻¹' S, f ∘ e.symm, hm, hf.comp e.symm.measurable, fun x => h0 _, ?_, ?_, ?_, ?_⟩
  · rw [Measure.map_apply e.measurable hm, hpre, hQ]
  · rw [map_measureReal_apply e.measurable hm, hpre, hP]
  · rw [hr, hd]
    ext A hA
    rw [Measure.map_apply e.measurable hA, withDensity_apply _ (e.measurable hA), withDensity_apply _ hA, setLIntegral_map hA (by fun_prop) e.measurable]
    simp
  · rw [hr, Measure.map_map (by fun_prop) e.measurable, hμ]
    congr 1
    funext x
    simp

lemma LossLaw.Of.pi {X : Type*} [MeasurableSpace X] {L : LossLaw} {P Q : Measure X} [IsProbabilityMeasure P] [IsProbabilityMeasure Q]
    (h : L.Of P Q) : ∀ n : ℕ, (L.pow n).Of (Measure.pi fun _ : Fin n => P) (Measure.pi fun _ : Fin n => Q)
  | 0 => by
    rw [Measure.pi_of_empty, Measure.pi_of_empty]
    refine ⟨∅, fun _ => 1, MeasurableSet.empty, measurable_const, fun _ => zero_le_one, by simp, by simp [LossLaw.zero, LossLaw.pow], by simp, ?_⟩
    simp [LossLaw.zero, LossLaw.pow]
  | n + 1 => by
    have ih := h.prod (LossLaw.Of.pi h n)
    have e : ∀ R : Measure X, IsProbabilityMeasure R → (Measure.pi fun _ : Fin (n + 1) => R) =
        (R.prod (Measure.pi fun _ : Fin n => R)).map (MeasurableEquiv.piFinSuccAbove (fun _ => X) 0).symm := by
      intro R hR
      have := (measurePreserving_piFinSuccAbove (fun _ : Fin (n + 1) => R) 0).map_eq
      rw [← this, MeasurableEquiv.map_symm_map]
    rw [e P inferInstance, e Q inferInstance]
    exact ih.equiv _

lemma hs_antitone (A : LossLaw) : Antitone A.hs := by
  intro x y hxy
  unfold LossLaw.hs lossHs
  have := A.fin
  have hn : ∀ e z : ℝ, ‖hinge (e : EReal) z‖ ≤ 1 := fun e z => by
    rw [Real.norm_eq_abs, abs_of_nonneg (hinge_nonneg _ _)]; exact hinge_le_one _ _
  refine add_le_add_right (integral_mono ?_ ?_ fun z => hinge_antitone (by exact_mod_cast hxy) z) _
  · exact (integrable_const (1 : ℝ)).mono' (measurable_hinge _).aestronglyMeasurable (ae_of_all _ (hn y))
  · exact (integrable_const (1 : ℝ)).mono' (measurable_hinge _).aestronglyMeasurable (ae_of_all _ (hn x))

/-- Pure differential privacy shifts the curve. -/
lemma ddp_conv_hs {a : ℝ} (ha : 0 ≤ a) (B : LossLaw) (e : ℝ) : ((ddpLaw a 0 le_rfl zero_le_one).conv B).hs e ≤ B.hs (e - a) := by
  rw [conv_comm, conv_hs]
  have hmeas : Measurable fun y => B.hs (e - y) :=
    (hs_antitone B).measurable.comp (measurable_const.sub measurable_id)
  rw [ddp_atLeast a 0 le_rfl zero_le_one _ hmeas]
  simp only [ddpPts, expect, List.map_cons, List.map_nil, List.sum_cons, List.sum_nil]
  have h1 : B.hs (e - ((-1 : ℤ) : ℝ) * a) ≤ B.hs (e - a) := hs_antitone B (by push_cast; linarith)
  have h2 : B.hs (e - ((1 : ℤ) : ℝ) * a) = B.hs (e - a) := by push_cast; rw [one_mul]
  have hE := Real.exp_pos a
  rw [h2]
  have h3 : (1 - 0) / (1 + Real.exp a) * B.hs (e - ((-1 : ℤ) : ℝ) * a) ≤ (1 - 0) / (1 + Real.exp a) * B.hs (e - a) :=
    mul_le_mul_of_nonneg_left h1 (by positivity)
  have h4 : (1 - 0) * (Real.exp a / (1 + Real.exp a)) * B.hs (e - a) + (1 - 0) / (1 + Real.exp a) * B.hs (e - a) = B.hs (e - a) := by
    field_simp; ring
  linarith

lemma ddp_pow_conv_hs {a : ℝ} (ha : 0 ≤ a) (n : ℕ) (B : LossLaw) (e : ℝ) :
    (((ddpLaw a 0 le_rfl zero_le_one).pow n).conv B).hs e ≤ B.hs (e - n * a) := by
  induction n generalizing e with
  | zero => show (LossLaw.zero.conv B).hs e ≤ _; rw [zero_conv]; simp
  | succ n ih =>
    show (((ddpLaw a 0 le_rfl zero_le_one).conv ((ddpLaw a 0 le_rfl zero_le_one).pow n)).conv B).hs e ≤ _
    rw [conv_assoc]
    refine (ddp_conv_hs ha _ e).trans ((ih _).trans (le_of_eq ?_))
    push_cast
    congr 1; ring

end Verif.Spec
