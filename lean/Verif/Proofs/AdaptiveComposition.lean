import Verif.Spec.LossLaw
import Verif.Proofs.LossDist
import Verif.Proofs.PldCdf
import Mathlib.MeasureTheory.Integral.Prod
import Mathlib.MeasureTheory.Measure.Decomposition.IntegralRNDeriv
import Mathlib.Probability.Kernel.Composition.IntegralCompProd

/-! # Adaptive composition theorem for privacy loss laws -/

namespace Verif.Spec
open MeasureTheory ProbabilityTheory Verif.Pld

lemma integrable_hinge (μ : Measure ℝ) [IsFiniteMeasure μ] (e : EReal) : Integrable (hinge e) μ :=
  Integrable.of_bound (measurable_hinge e).aestronglyMeasurable 1
    (ae_of_all _ fun x => by rw [Real.norm_eq_abs, abs_of_nonneg (hinge_nonneg e x)]; exact hinge_le_one e x)

/-- scaling the hinge by a density -/
lemma mul_hinge {p q ε y : ℝ} (hp : 0 < p) (hq : 0 < q) :
    p * hinge ((ε + Real.log q - Real.log p : ℝ) : EReal) y = max 0 (p - Real.exp (ε - y) * q) := by
  rw [hinge_coe, mul_max_of_nonneg _ _ hp.le, mul_zero, mul_sub, mul_one]
  congr 2
  have : ε + Real.log q - Real.log p - y = (ε - y) + Real.log q - Real.log p := by ring
  rw [this, Real.exp_sub, Real.exp_add, Real.exp_log hp, Real.exp_log hq]
  field_simp

/-- the pointwise bound -/
lemma pointwise {Ω : Type*} [MeasurableSpace Ω] {P Q : Measure Ω} [IsProbabilityMeasure P] (B : LossLaw) {τ : ℝ} (hτ : 0 ≤ τ)
    (h : CurveValid P Q fun e => B.hs e + τ) {S : Set Ω} (hS : MeasurableSet S) {p q : ℝ} (hp : 0 ≤ p) (hq : 0 ≤ q) (ε : ℝ) :
    p * P.real S - Real.exp ε * (q * Q.real S) ≤ (B.inf + τ) * p + ∫ y, max 0 (p - Real.exp (ε - y) * q) ∂B.μ := by
  rcases hp.eq_or_lt with rfl | hp'
  · have h1 : 0 ≤ ∫ y, max 0 (0 - Real.exp (ε - y) * q) ∂B.μ := integral_nonneg fun y => le_max_left _ _
    have h2 : 0 ≤ Real.exp ε * (q * Q.real S) := by positivity
    simp only [zero_mul, mul_zero, zero_sub, zero_add]
    simp only [zero_sub] at h1
    linarith
  rcases hq.eq_or_lt with rfl | hq'
  · have h1 : P.real S ≤ 1 := measureReal_le_one
    have : ∫ y, max 0 (p - Real.exp (ε - y) * 0) ∂B.μ = p * B.μ.real Set.univ := by
      simp [max_eq_right hp, mul_comm]
    rw [this]
    have hb := B.mass
    have : (B.inf + τ) * p + p * B.μ.real Set.univ = p + τ * p := by
      rw [add_mul, show B.inf * p + τ * p + p * B.μ.real Set.univ = p * (B.inf + B.μ.real Set.univ) + τ * p by ring, hb, mul_one]
    rw [this]
    simp only [zero_mul, mul_zero, sub_zero]
    nlinarith
  · have := h (ε + Real.log q - Real.log p) S hS
    unfold LossLaw.hs lossHs at this
    have e1 : p * Real.exp (ε + Real.log q - Real.log p) = Real.exp ε * q := by
      rw [Real.exp_sub, Real.exp_add, Real.exp_log hp', Real.exp_log hq']; field_simp
    have e2 : p * ∫ y, hinge ((ε + Real.log q - Real.log p : ℝ) : EReal) y ∂B.μ =
        ∫ y, max 0 (p - Real.exp (ε - y) * q) ∂B.μ := by
      rw [← integral_const_mul]
      exact integral_congr_ae (ae_of_all _ fun y => mul_hinge hp' hq')
    rw [← e2]
    have h3 := mul_le_mul_of_nonneg_left this hp
    rw [mul_add, mul_add, mul_add, ← mul_assoc, e1] at h3
    linarith

lemma compProd_real {Ω₁ Ω₂ : Type*} [MeasurableSpace Ω₁] [MeasurableSpace Ω₂] (P : Measure Ω₁) [IsFiniteMeasure P]
    (κ : Kernel Ω₁ Ω₂) [IsMarkovKernel κ] {S : Set (Ω₁ × Ω₂)} (hS : MeasurableSet S) :
    (P ⊗ₘ κ).real S = ∫ x, (κ x).real (Prod.mk x ⁻¹' S) ∂P := by
  rw [measureReal_def, Measure.compProd_apply hS]
  simp only [measureReal_def]
  rw [integral_toReal]
  · exact (Kernel.measurable_kernel_prodMk_left hS).aemeasurable
  · exact ae_of_all _ fun x => measure_lt_top _ _

lemma measurable_slice {Ω₁ Ω₂ : Type*} [MeasurableSpace Ω₁] [MeasurableSpace Ω₂] (κ : Kernel Ω₁ Ω₂) [IsMarkovKernel κ]
    {S : Set (Ω₁ × Ω₂)} (hS : MeasurableSet S) : Measurable fun x => (κ x).real (Prod.mk x ⁻¹' S) :=
  (Kernel.measurable_kernel_prodMk_left hS).ennreal_toReal

/-- Adaptive composition: if the delta curve `f` is valid for the first pair and the law `B` dominates every continuation up to `τ`,
then `B.inf + τ + ∫ f(eps - y) dB(y)` is valid for the composition. -/
lemma adaptive_near {Ω₁ Ω₂ : Type*} [MeasurableSpace Ω₁] [MeasurableSpace Ω₂] (P Q : Measure Ω₁) [IsProbabilityMeasure P]
    [IsProbabilityMeasure Q] (κ η : Kernel Ω₁ Ω₂) [IsMarkovKernel κ] [IsMarkovKernel η] (f : ℝ → ℝ) (B : LossLaw)
    {τ : ℝ} (hτ : 0 ≤ τ) (hf : CurveValid P Q f) (hB : ∀ x, CurveValid (κ x) (η x) fun e => B.hs e + τ) (ε : ℝ)
    (hint : Integrable (fun y => f (ε - y)) B.μ) : Indist (P ⊗ₘ κ) (Q ⊗ₘ η) ε (B.inf + τ + ∫ y, f (ε - y) ∂B.μ) := by
  intro S hS
  set ν := P + Q with hν
  have hP : P ≪ ν := Measure.absolutelyContinuous_of_le (Measure.le_add_right le_rfl)
  have hQ : Q ≪ ν := Measure.absolutelyContinuous_of_le (Measure.le_add_left le_rfl)
  set p := fun x => (P.rnDeriv ν x).toReal with hp
  set q := fun x => (Q.rnDeriv ν x).toReal with hq
  have hp0 : ∀ x, 0 ≤ p x := fun x => ENNReal.toReal_nonneg
  have hq0 : ∀ x, 0 ≤ q x := fun x => ENNReal.toReal_nonneg
  have mp : Measurable p := (Measure.measurable_rnDeriv P ν).ennreal_toReal
  have mq : Measurable q := (Measure.measurable_rnDeriv Q ν).ennreal_toReal
  have ip : Integrable p ν := Measure.integrable_toReal_rnDeriv
  have iq : Integrable q ν := Measure.integrable_toReal_rnDeriv
  have tP : ∀ g : Ω₁ → ℝ, ∫ x, g x ∂P = ∫ x, p x * g x ∂ν := fun g => (integral_rnDeriv_smul hP).symm
  have tQ : ∀ g : Ω₁ → ℝ, ∫ x, g x ∂Q = ∫ x, q x * g x ∂ν := fun g => (integral_rnDeriv_smul hQ).symm
  have bdd : ∀ (κ : Kernel Ω₁ Ω₂) [IsMarkovKernel κ] x, ‖(κ x).real (Prod.mk x ⁻¹' S)‖ ≤ 1 := by
    intro κ _ x
    rw [Real.norm_eq_abs, abs_of_nonneg measureReal_nonneg]; exact measureReal_le_one
  have i1 : Integrable (fun x => p x * (κ x).real (Prod.mk x ⁻¹' S)) ν :=
    ip.mul_bdd (c := 1) (measurable_slice κ hS).aestronglyMeasurable (ae_of_all _ fun x => bdd κ x)
  have i2 : Integrable (fun x => q x * (η x).real (Prod.mk x ⁻¹' S)) ν :=
    iq.mul_bdd (c := 1) (measurable_slice η hS).aestronglyMeasurable (ae_of_all _ fun x => bdd η x)
  -- the hinge of the densities
  set G : Ω₁ → ℝ → ℝ := fun x y => max 0 (p x - Real.exp (ε - y) * q x) with hG
  have mG : Measurable (Function.uncurry G) := by
    apply Measurable.max measurable_const
    apply Measurable.sub (mp.comp measurable_fst)
    exact ((Real.measurable_exp.comp (measurable_const.sub measurable_snd))).mul (mq.comp measurable_fst)
  have gle : ∀ x y, G x y ≤ p x := fun x y => max_le (hp0 x) (by
    have : 0 ≤ Real.exp (ε - y) * q x := mul_nonneg (Real.exp_pos _).le (hq0 x)
    linarith)
  have iG : Integrable (Function.uncurry G) (ν.prod B.μ) := by
    refine Integrable.mono' (ip.comp_fst B.μ) mG.aestronglyMeasurable (ae_of_all _ fun z => ?_)
    rw [Real.norm_eq_abs, abs_of_nonneg (le_max_left _ _)]
    exact gle z.1 z.2
  have iGx : ∀ y, Integrable (fun x => G x y) ν := fun y => by
    refine Integrable.mono' ip (mG.comp (measurable_id.prodMk measurable_const)).aestronglyMeasurable (ae_of_all _ fun x => ?_)
    rw [Real.norm_eq_abs, abs_of_nonneg (le_max_left _ _)]
    exact gle x y
  have step1 : (P ⊗ₘ κ).real S - Real.exp ε * (Q ⊗ₘ η).real S ≤ ∫ x, ((B.inf + τ) * p x + ∫ y, G x y ∂B.μ) ∂ν := by
    rw [compProd_real P κ hS, compProd_real Q η hS, tP, tQ, ← integral_const_mul, ← integral_sub i1 (i2.const_mul _)]
    refine integral_mono (i1.sub (i2.const_mul _)) ((ip.const_mul _).add iG.integral_prod_left) fun x => ?_
    exact pointwise B hτ (hB x) (measurable_prodMk_left hS) (hp0 x) (hq0 x) ε
  have step2 : ∫ x, ((B.inf + τ) * p x + ∫ y, G x y ∂B.μ) ∂ν = B.inf + τ + ∫ y, (∫ x, G x y ∂ν) ∂B.μ := by
    have i3 : Integrable (fun x => ∫ y, G x y ∂B.μ) ν := iG.integral_prod_left
    rw [integral_add (ip.const_mul _) i3, integral_const_mul, integral_integral_swap iG]
    congr 1
    have := tP fun _ => 1
    simp only [mul_one] at this
    rw [← this]; simp
  have step3 : ∀ y, ∫ x, G x y ∂ν ≤ f (ε - y) := by
    intro y
    set A := {x | Real.exp (ε - y) * q x < p x} with hA
    have mA : MeasurableSet A := measurableSet_lt (mq.const_mul _) mp
    have e1 : ∀ x, G x y = p x * A.indicator (fun _ => 1) x - Real.exp (ε - y) * (q x * A.indicator (fun _ => 1) x) := by
      intro x
      by_cases hx : x ∈ A
      · rw [Set.indicator_of_mem hx, mul_one, mul_one]
        exact max_eq_right (by have : Real.exp (ε - y) * q x < p x := hx; linarith)
      · rw [Set.indicator_of_notMem hx, mul_zero, mul_zero, mul_zero, sub_zero]
        exact max_eq_left (by have : ¬ Real.exp (ε - y) * q x < p x := hx; linarith)
    have bi : ∀ x, ‖A.indicator (fun _ => (1 : ℝ)) x‖ ≤ 1 := by
      intro x; by_cases hx : x ∈ A <;> simp [hx]
    have mi : Measurable (A.indicator fun _ => (1 : ℝ)) := measurable_const.indicator mA
    have j1 : Integrable (fun x => p x * A.indicator (fun _ => (1 : ℝ)) x) ν :=
      ip.mul_bdd (c := 1) mi.aestronglyMeasurable (ae_of_all _ bi)
    have j2 : Integrable (fun x => q x * A.indicator (fun _ => (1 : ℝ)) x) ν :=
      iq.mul_bdd (c := 1) mi.aestronglyMeasurable (ae_of_all _ bi)
    rw [integral_congr_ae (ae_of_all _ e1), integral_sub j1 (j2.const_mul _), integral_const_mul, ← tP, ← tQ]
    have r1 : ∀ M : Measure Ω₁, ∫ x, A.indicator (fun _ => (1 : ℝ)) x ∂M = M.real A := by
      intro M
      rw [integral_indicator mA]; simp
    rw [r1, r1]
    have := hf (ε - y) A mA
    linarith
  have step4 : ∫ y, (∫ x, G x y ∂ν) ∂B.μ ≤ ∫ y, f (ε - y) ∂B.μ :=
    integral_mono iG.integral_prod_right hint step3
  linarith

lemma adaptive_core {Ω₁ Ω₂ : Type*} [MeasurableSpace Ω₁] [MeasurableSpace Ω₂] (P Q : Measure Ω₁) [IsProbabilityMeasure P]
    [IsProbabilityMeasure Q] (κ η : Kernel Ω₁ Ω₂) [IsMarkovKernel κ] [IsMarkovKernel η] (f : ℝ → ℝ) (B : LossLaw)
    (hf : CurveValid P Q f) (hB : ∀ x, B.Dominates (κ x) (η x)) (ε : ℝ) (hint : Integrable (fun y => f (ε - y)) B.μ) :
    Indist (P ⊗ₘ κ) (Q ⊗ₘ η) ε (B.inf + ∫ y, f (ε - y) ∂B.μ) := by
  have := adaptive_near P Q κ η f B le_rfl hf (fun x => by simp only [add_zero]; exact hB x) ε hint
  rwa [add_zero] at this

lemma measurable_lossHs (A : LossLaw) : Measurable A.hs := by
  have : Antitone A.hs := by
    intro x y hxy
    unfold LossLaw.hs lossHs
    refine add_le_add le_rfl (integral_mono (integrable_hinge _ _) (integrable_hinge _ _) fun z => ?_)
    exact hinge_antitone (by exact_mod_cast hxy) z
  exact this.measurable

lemma hs_bounds (A : LossLaw) (e : ℝ) : 0 ≤ A.hs e ∧ A.hs e ≤ 1 := by
  unfold LossLaw.hs lossHs
  have h1 : 0 ≤ ∫ x, hinge (e : EReal) x ∂A.μ := integral_nonneg fun x => hinge_nonneg _ _
  have h2 : ∫ x, hinge (e : EReal) x ∂A.μ ≤ ∫ _, (1 : ℝ) ∂A.μ :=
    integral_mono (integrable_hinge _ _) (integrable_const _) fun x => hinge_le_one _ _
  have h3 : ∫ _, (1 : ℝ) ∂A.μ = A.μ.real Set.univ := by simp
  have := A.mass
  have := A.inf_nonneg
  constructor <;> linarith

lemma hinge_shift (ε x y : ℝ) : hinge ((ε - y : ℝ) : EReal) x = hinge (ε : EReal) (x + y) := by
  rw [hinge_coe, hinge_coe]; congr 3; ring

lemma integral_conv_real (μ ν : Measure ℝ) [IsFiniteMeasure μ] [IsFiniteMeasure ν] {φ : ℝ → ℝ} (hφ : Measurable φ)
    (hb : ∀ x, ‖φ x‖ ≤ 1) : ∫ z, φ z ∂(μ.conv ν) = ∫ y, ∫ x, φ (x + y) ∂μ ∂ν := by
  have m2 : Measurable fun z : ℝ × ℝ => φ (z.1 + z.2) := hφ.comp (measurable_fst.add measurable_snd)
  have hi : Integrable (fun z : ℝ × ℝ => φ (z.1 + z.2)) (μ.prod ν) :=
    Integrable.of_bound m2.aestronglyMeasurable 1 (ae_of_all _ fun z => hb _)
  rw [Measure.conv, integral_map (by fun_prop) hφ.aestronglyMeasurable, integral_prod _ hi]
  exact integral_integral_swap (f := fun x y => φ (x + y)) hi

lemma conv_hs (A B : LossLaw) (ε : ℝ) : (A.conv B).hs ε = B.inf + ∫ y, A.hs (ε - y) ∂B.μ := by
  unfold LossLaw.hs lossHs
  have hn : ∀ x, ‖hinge (ε : EReal) x‖ ≤ 1 := fun x => by
    rw [Real.norm_eq_abs, abs_of_nonneg (hinge_nonneg _ _)]; exact hinge_le_one _ _
  have e1 : ∫ z, hinge (ε : EReal) z ∂(A.conv B).μ = ∫ y, ∫ x, hinge (ε : EReal) (x + y) ∂A.μ ∂B.μ :=
    integral_conv_real A.μ B.μ (measurable_hinge _) hn
  rw [e1]
  simp only [hinge_shift]
  have m2 : Measurable fun z : ℝ × ℝ => hinge (ε : EReal) (z.2 + z.1) :=
    (measurable_hinge _).comp (measurable_snd.add measurable_fst)
  have hi : Integrable (fun z : ℝ × ℝ => hinge (ε : EReal) (z.2 + z.1)) (B.μ.prod A.μ) :=
    Integrable.of_bound m2.aestronglyMeasurable 1 (ae_of_all _ fun z => hn _)
  rw [integral_add (integrable_const _) hi.integral_prod_left]
  have b : B.μ.real Set.univ = 1 - B.inf := by linarith [B.mass]
  simp only [LossLaw.conv, integral_const, smul_eq_mul, b]
  ring

/-- Adaptive composition of curves that are valid up to an error: the errors add up. -/
theorem CurveValid.adaptive {Ω₁ Ω₂ : Type*} [MeasurableSpace Ω₁] [MeasurableSpace Ω₂] {P Q : Measure Ω₁}
    [IsProbabilityMeasure P] [IsProbabilityMeasure Q] {κ η : Kernel Ω₁ Ω₂} [IsMarkovKernel κ] [IsMarkovKernel η]
    {A B : LossLaw} {τ τ' : ℝ} (h0 : 0 ≤ τ) (h0' : 0 ≤ τ') (hA : CurveValid P Q fun e => A.hs e + τ)
    (hB : ∀ x, CurveValid (κ x) (η x) fun e => B.hs e + τ') :
    CurveValid (P ⊗ₘ κ) (Q ⊗ₘ η) fun e => (A.conv B).hs e + (τ + τ') := by
  intro ε
  have hi : Integrable (fun y => A.hs (ε - y)) B.μ :=
    Integrable.of_bound ((measurable_lossHs A).comp (measurable_const.sub measurable_id)).aestronglyMeasurable 1
      (ae_of_all _ fun y => by rw [Real.norm_eq_abs, abs_of_nonneg (hs_bounds A _).1]; exact (hs_bounds A _).2)
  have key := adaptive_near P Q κ η (fun e => A.hs e + τ) B h0' hA hB ε (hi.add (integrable_const _))
  intro S hS
  refine (key S hS).trans ?_
  have e : ∫ y, (A.hs (ε - y) + τ) ∂B.μ = ∫ y, A.hs (ε - y) ∂B.μ + B.μ.real Set.univ * τ := by
    rw [integral_add hi (integrable_const _), integral_const, smul_eq_mul]
  simp only [e, conv_hs]
  have : B.μ.real Set.univ ≤ 1 := by linarith [B.mass, B.inf_nonneg]
  nlinarith

/-- **Adaptive composition theorem.** -/
theorem LossLaw.Dominates.adaptive {Ω₁ Ω₂ : Type*} [MeasurableSpace Ω₁] [MeasurableSpace Ω₂] {P Q : Measure Ω₁}
    [IsProbabilityMeasure P] [IsProbabilityMeasure Q] {κ η : Kernel Ω₁ Ω₂} [IsMarkovKernel κ] [IsMarkovKernel η]
    {A B : LossLaw} (hA : A.Dominates P Q) (hB : ∀ x, B.Dominates (κ x) (η x)) :
    (A.conv B).Dominates (P ⊗ₘ κ) (Q ⊗ₘ η) := by
  intro ε
  rw [conv_hs]
  refine adaptive_core P Q κ η A.hs B hA hB ε ?_
  refine Integrable.of_bound ((measurable_lossHs A).comp (measurable_const.sub measurable_id)).aestronglyMeasurable 1
    (ae_of_all _ fun y => ?_)
  rw [Real.norm_eq_abs, abs_of_nonneg (hs_bounds A _).1]
  exact (hs_bounds A _).2

end Verif.Spec
