import Verif.Proofs.Laplace
import Verif.Proofs.RenyiGauss
import Verif.Proofs.RenyiKl
import Verif.Proofs.RdpConvList

/-! # Rényi divergence of Laplace distributions -/

namespace Verif.Spec
open MeasureTheory Set ProbabilityTheory

lemma lintegral_Ioc_deriv {m : ℝ} (hm : 0 ≤ m) {f F : ℝ → ℝ} (hf : Continuous f) (h0 : ∀ x ∈ Ioc 0 m, 0 ≤ f x)
    (hF : ∀ x, HasDerivAt F (f x) x) : ∫⁻ x in Ioc 0 m, ENNReal.ofReal (f x) = ENNReal.ofReal (F m - F 0) := by
  rw [← ofReal_integral_eq_lintegral_ofReal, ← intervalIntegral.integral_of_le hm,
    intervalIntegral.integral_eq_sub_of_hasDerivAt (fun x _ => hF x) (hf.intervalIntegrable _ _)]
  · exact (hf.integrableOn_Icc).mono_set Ioc_subset_Icc_self
  · exact (ae_restrict_iff' measurableSet_Ioc).2 (Filter.Eventually.of_forall h0)

/-- `∫ (dP/dQ)^α dQ` for `P = laplace m s`, `Q = laplace 0 s`, `ε = m / s`. -/
noncomputable def lapMoment (α ε : ℝ) : ℝ := α / (2 * α - 1) * Real.exp ((α - 1) * ε) + (α - 1) / (2 * α - 1) * Real.exp (-(α * ε))

lemma lapMoment_pos {α : ℝ} (hα : 1 ≤ α) (ε : ℝ) : 0 < lapMoment α ε := by
  unfold lapMoment
  have h1 : 0 < α / (2 * α - 1) := div_pos (by linarith) (by linarith)
  have h2 : 0 ≤ (α - 1) / (2 * α - 1) := div_nonneg (by linarith) (by linarith)
  positivity

lemma laplace_ac (m : ℝ) {s : ℝ} (hs : 0 < s) : laplace m s ≪ laplace 0 s := by
  rw [laplace_withDensity m s hs]
  exact withDensity_absolutelyContinuous _ _

lemma laplace_moment {α : ℝ} (hα : 1 < α) {m s : ℝ} (hs : 0 < s) (hm : 0 ≤ m) :
    renyiMoment α (laplace m s) (laplace 0 s) = ENNReal.ofReal (lapMoment α (m / s)) := by
  have := laplace_prob 0 hs
  have hml := measurable_laplaceLoss m s
  have e1 : renyiMoment α (laplace m s) (laplace 0 s) =
      ∫⁻ x, (fun u => ENNReal.ofReal (Real.exp ((α - 1) * u))) (laplaceLoss m s x) ∂laplace m s := by
    conv_rhs => rw [laplace_withDensity m s hs]
    rw [lintegral_withDensity_eq_lintegral_mul _ hml.exp.ennreal_ofReal (by fun_prop)]
    conv_lhs => rw [laplace_withDensity m s hs]
    rw [renyiMoment_withDensity _ _ hml.exp.ennreal_ofReal]
    refine lintegral_congr fun x => ?_
    rw [ENNReal.ofReal_rpow_of_nonneg (Real.exp_pos _).le (by linarith), Pi.mul_apply, ← ENNReal.ofReal_mul (Real.exp_pos _).le,
      ← Real.exp_mul, ← Real.exp_add]
    congr 2; ring
  rw [e1, lintegral_laplaceLoss (g := fun u => ENNReal.ofReal (Real.exp ((α - 1) * u))) hs hm (by fun_prop)]
  have h21 : 0 < 2 * α - 1 := by linarith
  have e2 : ∫⁻ x in Ioc 0 m, ENNReal.ofReal (0.5 / s * Real.exp ((x - m) / s)) * ENNReal.ofReal (Real.exp ((α - 1) * ((2 * x - m) / s))) =
      ENNReal.ofReal (0.5 / (2 * α - 1) * (Real.exp ((α - 1) * (m / s)) - Real.exp (-(α * (m / s))))) := by
    have : ∀ x, ENNReal.ofReal (0.5 / s * Real.exp ((x - m) / s)) * ENNReal.ofReal (Real.exp ((α - 1) * ((2 * x - m) / s))) =
        ENNReal.ofReal (0.5 / s * Real.exp ((2 * α - 1) / s * x - α * (m / s))) := by
      intro x
      rw [← ENNReal.ofReal_mul (by positivity), mul_assoc, ← Real.exp_add]
      congr 3; ring
    simp_rw [this]
    rw [lintegral_Ioc_deriv hm (F := fun x => 0.5 / (2 * α - 1) * Real.exp ((2 * α - 1) / s * x - α * (m / s))) (by fun_prop)
      (fun x _ => by positivity)]
    · congr 1
      rw [← mul_sub]
      congr 3
      · congr 1; field_simp; ring
      · congr 1; ring
    · intro x
      have h := ((((hasDerivAt_id x).const_mul ((2 * α - 1) / s)).sub_const (α * (m / s))).exp).const_mul (0.5 / (2 * α - 1))
      refine h.congr_deriv ?_
      simp only [id]
      field_simp
  rw [e2, ← ENNReal.ofReal_mul (by norm_num), ← ENNReal.ofReal_mul (by positivity), ← ENNReal.ofReal_add (by positivity) (by positivity),
    ← ENNReal.ofReal_add (by positivity)]
  · congr 1
    unfold lapMoment
    rw [show Real.exp (-(m / s)) / 2 * Real.exp ((α - 1) * -(m / s)) = Real.exp (-(α * (m / s))) / 2 by
      rw [div_mul_eq_mul_div, ← Real.exp_add]; congr 2; ring]
    field_simp
    ring
  · have : Real.exp (-(α * (m / s))) ≤ Real.exp ((α - 1) * (m / s)) := by
      rw [Real.exp_le_exp]
      have : 0 ≤ m / s := by positivity
      nlinarith
    have h3 : 0 < 0.5 / (2 * α - 1) := by positivity
    exact mul_nonneg h3.le (by linarith)

lemma renyi_laplace {α : ℝ} (hα : 1 < α) {m s : ℝ} (hs : 0 < s) (hm : 0 ≤ m) :
    renyiDiv α (laplace m s) (laplace 0 s) = ((Real.log (lapMoment α (m / s)) / (α - 1) : ℝ) : EReal) := by
  refine renyiDiv_eq hα (laplace_ac m hs) ?_
  rw [laplace_moment hα hs hm, mul_div_cancel₀ _ (by linarith), Real.exp_log (lapMoment_pos hα.le _)]

lemma abs_laplaceLoss_le (m : ℝ) {s : ℝ} (hs : 0 < s) (x : ℝ) : |laplaceLoss m s x| ≤ |m| / s := by
  rw [laplaceLoss, abs_div, abs_of_pos hs]
  refine div_le_div_of_nonneg_right ?_ hs.le
  have := abs_abs_sub_abs_le x (x - m)
  simpa using this

lemma kl_laplace {m s : ℝ} (hs : 0 < s) (hm : 0 ≤ m) :
    renyiDiv 1 (laplace m s) (laplace 0 s) = ((m / s + (Real.exp (-(m / s)) - 1) : ℝ) : EReal) := by
  have hac := laplace_ac m hs
  have hp := laplace_prob m hs
  have hp0 := laplace_prob 0 hs
  have hml := measurable_laplaceLoss m s
  have hll : llr (laplace m s) (laplace 0 s) =ᵐ[laplace m s] laplaceLoss m s := by
    have h1 := Measure.rnDeriv_withDensity (laplace 0 s) hml.exp.ennreal_ofReal
    rw [← laplace_withDensity m s hs] at h1
    filter_upwards [hac.ae_eq h1] with x hx
    rw [llr, hx, ENNReal.toReal_ofReal (Real.exp_pos _).le, Real.log_exp]
  have hi : Integrable (laplaceLoss m s) (laplace m s) := integrable_of_bdd hml (abs_laplaceLoss_le m hs)
  have hint := hi.congr hll.symm
  have hpos : ∀ x, 0 ≤ laplaceLoss m s x + m / s := by
    intro x
    have := (abs_le.1 (abs_laplaceLoss_le m hs x)).1
    rw [abs_of_nonneg hm] at this
    linarith
  have hval : ∫ x, laplaceLoss m s x ∂laplace m s = m / s + (Real.exp (-(m / s)) - 1) := by
    have h1 : ∫ x, (laplaceLoss m s x + m / s) ∂laplace m s = (∫ x, laplaceLoss m s x ∂laplace m s) + m / s := by
      rw [integral_add hi (integrable_const _)]; simp
    have h2 : ∫ x, (laplaceLoss m s x + m / s) ∂laplace m s = m / s + (m / s - 1 + Real.exp (-(m / s))) := by
      rw [integral_eq_lintegral_of_nonneg_ae (Filter.Eventually.of_forall hpos) (by fun_prop)]
      have := lintegral_laplaceLoss (g := fun u => ENNReal.ofReal (u + m / s)) hs hm (by fun_prop)
      rw [this]
      have e2 : ∫⁻ x in Ioc 0 m, ENNReal.ofReal (0.5 / s * Real.exp ((x - m) / s)) * ENNReal.ofReal ((2 * x - m) / s + m / s) =
          ENNReal.ofReal (m / s - 1 + Real.exp (-(m / s))) := by
        have : ∀ x, ENNReal.ofReal (0.5 / s * Real.exp ((x - m) / s)) * ENNReal.ofReal ((2 * x - m) / s + m / s) =
            ENNReal.ofReal (Real.exp ((x - m) / s) * (x / s ^ 2)) := by
          intro x
          rw [← ENNReal.ofReal_mul (by positivity)]
          congr 1
          field_simp; ring
        simp_rw [this]
        rw [lintegral_Ioc_deriv hm (F := fun x => Real.exp ((x - m) / s) * (x / s - 1)) (by fun_prop)
          (fun x hx => by have := hx.1; positivity)]
        · congr 1
          rw [sub_self, zero_div, Real.exp_zero, show (0 - m) / s = -(m / s) by ring]
          ring
        · intro x
          have h := ((((hasDerivAt_id x).sub_const m).div_const s).exp).mul (((hasDerivAt_id x).div_const s).sub_const 1)
          refine h.congr_deriv ?_
          field_simp
          simp only [id]
          ring
      rw [e2, ← ENNReal.ofReal_mul (by norm_num), neg_add_cancel, ENNReal.ofReal_zero, mul_zero, add_zero,
        ← ENNReal.ofReal_add (by positivity), ENNReal.toReal_ofReal]
      · ring
      · have := Real.add_one_le_exp (-(m / s))
        have : 0 ≤ m / s := by positivity
        nlinarith
      · have := Real.add_one_le_exp (-(m / s))
        linarith
    linarith
  unfold renyiDiv
  rw [if_pos rfl, InformationTheory.klDiv_of_ac_of_integrable hac hint, integral_congr_ae hll, hval]
  simp only [measureReal_def, measure_univ, ENNReal.toReal_one, add_sub_cancel_right]
  rw [EReal.coe_ennreal_ofReal, max_eq_left]
  have := Real.add_one_le_exp (-(m / s))
  linarith

/-- Rényi divergence of two Laplace distributions at distance `ε` scales. -/
noncomputable def lapDiv (α ε : ℝ) : ℝ := if α = 1 then ε + (Real.exp (-ε) - 1) else Real.log (lapMoment α ε) / (α - 1)

lemma renyi_laplace' {α : ℝ} (hα : 1 ≤ α) {m s : ℝ} (hs : 0 < s) (hm : 0 ≤ m) :
    renyiDiv α (laplace m s) (laplace 0 s) = ((lapDiv α (m / s) : ℝ) : EReal) := by
  unfold lapDiv
  rcases hα.eq_or_lt with rfl | h
  · rw [if_pos rfl]; exact kl_laplace hs hm
  · rw [if_neg h.ne']; exact renyi_laplace h hs hm

lemma renyi_laplace_pair {α : ℝ} (hα : 1 ≤ α) (a b : ℝ) {s : ℝ} (hs : 0 < s) :
    renyiDiv α (laplace a s) (laplace b s) ≤ ((lapDiv α (|a - b| / s) : ℝ) : EReal) := by
  obtain ⟨f, hf, h1, h2⟩ := laplace_reduce a b s
  have := laplace_prob (|a - b|) hs
  have := laplace_prob 0 hs
  rw [h1, h2]
  exact renyi_map hα hf (renyi_laplace' hα hs (abs_nonneg _)).le

lemma lapDiv_zero {α : ℝ} (hα : 1 ≤ α) : lapDiv α 0 = 0 := by
  unfold lapDiv
  split_ifs
  · simp
  · have : lapMoment α 0 = 1 := by
      have : 2 * α - 1 ≠ 0 := by linarith
      unfold lapMoment; simp only [mul_zero, neg_zero, Real.exp_zero, mul_one]; rw [← add_div, div_eq_one_iff_eq this]; ring
    rw [this]; simp

/-- Superadditivity: spreading an `ℓ₁` budget over coordinates does not increase the divergence. -/
lemma lapDiv_add {α : ℝ} (hα : 1 ≤ α) {x y : ℝ} (hx : 0 ≤ x) (hy : 0 ≤ y) : lapDiv α x + lapDiv α y ≤ lapDiv α (x + y) := by
  unfold lapDiv
  rcases hα.eq_or_lt with rfl | h
  · rw [if_pos rfl, if_pos rfl, if_pos rfl, neg_add, Real.exp_add]
    have h1 : Real.exp (-x) ≤ 1 := by rw [Real.exp_le_one_iff]; linarith
    have h2 : Real.exp (-y) ≤ 1 := by rw [Real.exp_le_one_iff]; linarith
    nlinarith
  · rw [if_neg h.ne', if_neg h.ne', if_neg h.ne', ← add_div]
    refine div_le_div_of_nonneg_right ?_ (by linarith)
    rw [← Real.log_mul (lapMoment_pos hα x).ne' (lapMoment_pos hα y).ne']
    refine Real.log_le_log (mul_pos (lapMoment_pos hα x) (lapMoment_pos hα y)) ?_
    unfold lapMoment
    have h21 : 0 < 2 * α - 1 := by linarith
    have hA : 0 ≤ α / (2 * α - 1) := by positivity
    have hB : 0 ≤ (α - 1) / (2 * α - 1) := div_nonneg (by linarith) h21.le
    have hAB : α / (2 * α - 1) + (α - 1) / (2 * α - 1) = 1 := by rw [← add_div, div_eq_one_iff_eq h21.ne']; ring
    have hX : Real.exp (-(α * x)) ≤ Real.exp ((α - 1) * x) := by rw [Real.exp_le_exp]; nlinarith
    have hY : Real.exp (-(α * y)) ≤ Real.exp ((α - 1) * y) := by rw [Real.exp_le_exp]; nlinarith
    rw [mul_add (α - 1) x y, Real.exp_add, mul_add α x y, neg_add, Real.exp_add]
    generalize α / (2 * α - 1) = A at *
    generalize (α - 1) / (2 * α - 1) = B at *
    obtain rfl : B = 1 - A := by linarith
    have := mul_nonneg (mul_nonneg hA hB) (mul_nonneg (sub_nonneg.2 hX) (sub_nonneg.2 hY))
    nlinarith

lemma lapDiv_nonneg {α : ℝ} (hα : 1 ≤ α) {x : ℝ} (hx : 0 ≤ x) : 0 ≤ lapDiv α x := by
  have h1 := renyi_laplace' hα one_pos hx
  have := laplace_prob x one_pos
  have := laplace_prob 0 one_pos
  have h2 := RdpConv.renyi_nonneg hα (P := laplace x 1) (Q := laplace 0 1)
  rw [h1, div_one] at h2
  exact_mod_cast h2

lemma lapDiv_mono {α : ℝ} (hα : 1 ≤ α) {x y : ℝ} (hx : 0 ≤ x) (hxy : x ≤ y) : lapDiv α x ≤ lapDiv α y := by
  have h := lapDiv_add hα hx (sub_nonneg.2 hxy)
  have := lapDiv_nonneg hα (sub_nonneg.2 hxy)
  rw [add_sub_cancel] at h
  linarith

/-- Product measures. -/
lemma renyi_pi {α : ℝ} (hα : 1 ≤ α) : ∀ {d : ℕ} (P Q : Fin d → Measure ℝ) [∀ i, IsProbabilityMeasure (P i)]
    [∀ i, IsProbabilityMeasure (Q i)] (r : Fin d → ℝ), (∀ i, renyiDiv α (P i) (Q i) ≤ (r i : EReal)) →
    renyiDiv α (Measure.pi P) (Measure.pi Q) ≤ ((∑ i, r i : ℝ) : EReal)
  | 0, P, Q, _, _, r, _ => by
    have : Measure.pi P = Measure.pi Q := by congr 1; funext i; exact i.elim0
    rw [this, RdpConv.renyi_self α hα]; simp
  | d + 1, P, Q, _, _, r, h => by
    have ih := renyi_pi hα (fun i => P i.succ) (fun i => Q i.succ) (fun i => r i.succ) (fun i => h i.succ)
    have e : ∀ (P : Fin (d + 1) → Measure ℝ) [∀ i, IsProbabilityMeasure (P i)], Measure.pi P =
        ((P 0).prod (Measure.pi fun i => P i.succ)).map (MeasurableEquiv.piFinSuccAbove (fun _ => ℝ) 0).symm := by
      intro P _
      have := (measurePreserving_piFinSuccAbove P 0).symm
      rw [← this.map_eq]
      simp only [Fin.succAbove_zero]
    rw [e P, e Q]
    refine renyi_map hα (MeasurableEquiv.measurable _) ?_
    rw [← Measure.compProd_const, ← Measure.compProd_const, Fin.sum_univ_succ, EReal.coe_add]
    refine renyi_adaptive hα (h 0) fun x => ?_
    rw [Kernel.const_apply, Kernel.const_apply]
    exact ih

lemma sum_lapDiv_le {α : ℝ} (hα : 1 ≤ α) {ι : Type*} (T : Finset ι) (x : ι → ℝ) (hx : ∀ i, 0 ≤ x i) :
    ∑ i ∈ T, lapDiv α (x i) ≤ lapDiv α (∑ i ∈ T, x i) := by
  classical
  induction T using Finset.induction_on with
  | empty => simp [lapDiv_zero hα]
  | insert i T hi ih =>
    rw [Finset.sum_insert hi, Finset.sum_insert hi]
    exact (add_le_add_right ih _).trans (lapDiv_add hα (hx i) (Finset.sum_nonneg fun j _ => hx j))

/-- The Laplace mechanism on vectors. -/
lemma renyi_laplacePair {α : ℝ} (hα : 1 ≤ α) {z : ℝ} (hz : 0 < z) {Ω : Type} [MeasurableSpace Ω] (P Q : Measure Ω)
    (h : LaplacePair z Ω P Q) : renyiDiv α P Q ≤ ((lapDiv α (1 / z) : ℝ) : EReal) := by
  cases h with
  | mk a b Δ hΔ h =>
    have hs : 0 < z * Δ := mul_pos hz hΔ
    have := fun i => laplace_prob (a i) hs
    have := fun i => laplace_prob (b i) hs
    refine (renyi_pi hα _ _ (fun i => lapDiv α (|a i - b i| / (z * Δ))) fun i => renyi_laplace_pair hα _ _ hs).trans ?_
    rw [EReal.coe_le_coe_iff]
    refine (sum_lapDiv_le hα _ _ fun i => by positivity).trans (lapDiv_mono hα (Finset.sum_nonneg fun i _ => by positivity) ?_)
    rw [← Finset.sum_div, div_le_div_iff₀ hs hz]
    nlinarith

end Verif.Spec
