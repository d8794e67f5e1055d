import Verif.Spec.Mechanisms
import Mathlib.Analysis.SpecialFunctions.ImproperIntegrals
import Mathlib.Analysis.SpecialFunctions.Integrals.Basic
import Mathlib.MeasureTheory.Measure.Lebesgue.Integral

/-! # The Laplace distribution and its privacy loss -/

namespace Verif.Spec
open MeasureTheory Set

/-- The density. -/
noncomputable def laplacePdf (μ s x : ℝ) : ℝ := 0.5 / s * Real.exp (-|x - μ| / s)

lemma laplacePdf_nonneg (μ : ℝ) {s : ℝ} (hs : 0 < s) (x : ℝ) : 0 ≤ laplacePdf μ s x := by unfold laplacePdf; positivity

lemma measurable_laplacePdf (μ s : ℝ) : Measurable (laplacePdf μ s) := by unfold laplacePdf; fun_prop

/-- The privacy loss of `laplace m s` against `laplace 0 s` at output `x`. -/
noncomputable def laplaceLoss (m s x : ℝ) : ℝ := (|x| - |x - m|) / s

lemma measurable_laplaceLoss (m s : ℝ) : Measurable (laplaceLoss m s) := by unfold laplaceLoss; fun_prop

lemma laplace_withDensity (m s : ℝ) (hs : 0 < s) :
    laplace m s = (laplace 0 s).withDensity fun x => ENNReal.ofReal (Real.exp (laplaceLoss m s x)) := by
  unfold laplace
  rw [← withDensity_mul]
  · congr 1
    ext x
    rw [Pi.mul_apply, ← ENNReal.ofReal_mul (by positivity), mul_assoc, ← Real.exp_add, laplaceLoss]
    congr 3
    rw [sub_zero]; ring
  · exact (measurable_laplacePdf 0 s).ennreal_ofReal
  · exact (measurable_laplaceLoss m s).exp.ennreal_ofReal

lemma lintegral_laplace (m s : ℝ) {g : ℝ → ENNReal} (hg : Measurable g) :
    ∫⁻ x, g x ∂laplace m s = ∫⁻ x, ENNReal.ofReal (laplacePdf m s x) * g x := by
  unfold laplace
  rw [lintegral_withDensity_eq_lintegral_mul _ _ hg]
  · rfl
  · exact (measurable_laplacePdf m s).ennreal_ofReal

lemma lintegral_pdf_Iic (m : ℝ) {s : ℝ} (hs : 0 < s) {c : ℝ} (hc : c ≤ m) :
    ∫⁻ x in Iic c, ENNReal.ofReal (laplacePdf m s x) = ENNReal.ofReal (Real.exp ((c - m) / s) / 2) := by
  have e : ∀ x ∈ Iic c, ENNReal.ofReal (laplacePdf m s x) = ENNReal.ofReal (0.5 / s * Real.exp (-m / s) * Real.exp (1 / s * x)) := by
    intro x hx
    rw [laplacePdf, mul_assoc, ← Real.exp_add, abs_of_nonpos (by have : x ≤ c := hx; linarith)]
    congr 3; ring
  have hpos : 0 < 1 / s := by positivity
  rw [setLIntegral_congr_fun measurableSet_Iic e, ← ofReal_integral_eq_lintegral_ofReal
    ((integrableOn_exp_mul_Iic hpos c).const_mul _) (Filter.Eventually.of_forall fun x => by positivity), integral_const_mul,
    integral_exp_mul_Iic hpos]
  congr 1
  rw [show (c - m) / s = -m / s + 1 / s * c by ring, Real.exp_add]
  field_simp; norm_num

lemma lintegral_pdf_Ioi (m : ℝ) {s : ℝ} (hs : 0 < s) {c : ℝ} (hc : m ≤ c) :
    ∫⁻ x in Ioi c, ENNReal.ofReal (laplacePdf m s x) = ENNReal.ofReal (Real.exp ((m - c) / s) / 2) := by
  have e : ∀ x ∈ Ioi c, ENNReal.ofReal (laplacePdf m s x) = ENNReal.ofReal (0.5 / s * Real.exp (m / s) * Real.exp (-(1 / s) * x)) := by
    intro x hx
    rw [laplacePdf, mul_assoc, ← Real.exp_add, abs_of_nonneg (by have : c < x := hx; linarith)]
    congr 3; ring
  have hpos : -(1 / s) < 0 := by simp [hs]
  rw [setLIntegral_congr_fun measurableSet_Ioi e, ← ofReal_integral_eq_lintegral_ofReal
    ((integrableOn_exp_mul_Ioi hpos c).const_mul _) (Filter.Eventually.of_forall fun x => by positivity), integral_const_mul,
    integral_exp_mul_Ioi hpos]
  congr 1
  rw [show (m - c) / s = m / s + -(1 / s) * c by ring, Real.exp_add]
  field_simp; norm_num

lemma laplace_univ (m : ℝ) {s : ℝ} (hs : 0 < s) : laplace m s univ = 1 := by
  rw [← setLIntegral_one, Measure.restrict_univ, lintegral_laplace m s measurable_const]
  simp only [mul_one]
  rw [← setLIntegral_univ, ← Iic_union_Ioi (a := m), lintegral_union measurableSet_Ioi (by
    rw [Set.disjoint_left]; intro x hx hx'; exact lt_irrefl _ (lt_of_le_of_lt (mem_Iic.1 hx) (mem_Ioi.1 hx'))), lintegral_pdf_Iic m hs le_rfl, lintegral_pdf_Ioi m hs le_rfl]
  rw [← ENNReal.ofReal_add (by positivity) (by positivity)]
  simp only [sub_self, zero_div, Real.exp_zero]
  norm_num

lemma laplace_prob (m : ℝ) {s : ℝ} (hs : 0 < s) : IsProbabilityMeasure (laplace m s) := ⟨laplace_univ m hs⟩

/-- The law of the privacy loss: `m/s` with probability `1/2`, `-m/s` with probability `exp(-m/s)/2`, the rest in between. -/
lemma lintegral_laplaceLoss {m s : ℝ} (hs : 0 < s) (hm : 0 ≤ m) {g : ℝ → ENNReal} (hg : Measurable g) :
    ∫⁻ x, g (laplaceLoss m s x) ∂laplace m s = ENNReal.ofReal (1 / 2) * g (m / s) +
      ENNReal.ofReal (Real.exp (-(m / s)) / 2) * g (-(m / s)) +
      ∫⁻ x in Ioc 0 m, ENNReal.ofReal (0.5 / s * Real.exp ((x - m) / s)) * g ((2 * x - m) / s) := by
  rw [lintegral_laplace m s (g := fun x => g (laplaceLoss m s x)) (hg.comp (measurable_laplaceLoss m s)), ← setLIntegral_univ, ← Iic_union_Ioi (a := (0 : ℝ)),
    lintegral_union measurableSet_Ioi (by
      rw [Set.disjoint_left]; intro x hx hx'; exact lt_irrefl _ (lt_of_le_of_lt (mem_Iic.1 hx) (mem_Ioi.1 hx'))),
    ← Ioc_union_Ioi_eq_Ioi hm, lintegral_union measurableSet_Ioi (by
      rw [Set.disjoint_left]; intro x hx hx'; exact lt_irrefl _ (lt_of_le_of_lt hx.2 (mem_Ioi.1 hx')))]
  have e1 : ∫⁻ x in Iic 0, ENNReal.ofReal (laplacePdf m s x) * g (laplaceLoss m s x) =
      ENNReal.ofReal (Real.exp (-(m / s)) / 2) * g (-(m / s)) := by
    rw [setLIntegral_congr_fun measurableSet_Iic (g := fun x => ENNReal.ofReal (laplacePdf m s x) * g (-(m / s))),
      lintegral_mul_const _ (measurable_laplacePdf m s).ennreal_ofReal, lintegral_pdf_Iic m hs hm]
    · congr 4; ring
    · intro x hx
      have hx : x ≤ 0 := hx
      simp only
      rw [laplaceLoss, abs_of_nonpos hx, abs_of_nonpos (by linarith)]
      congr 2; ring
  have e3 : ∫⁻ x in Ioi m, ENNReal.ofReal (laplacePdf m s x) * g (laplaceLoss m s x) = ENNReal.ofReal (1 / 2) * g (m / s) := by
    rw [setLIntegral_congr_fun measurableSet_Ioi (g := fun x => ENNReal.ofReal (laplacePdf m s x) * g (m / s)),
      lintegral_mul_const _ (measurable_laplacePdf m s).ennreal_ofReal, lintegral_pdf_Ioi m hs le_rfl]
    · simp
    · intro x hx
      have hx : m < x := hx
      simp only
      rw [laplaceLoss, abs_of_nonneg (by linarith : 0 ≤ x), abs_of_nonneg (by linarith)]
      congr 2; ring
  have e2 : ∫⁻ x in Ioc 0 m, ENNReal.ofReal (laplacePdf m s x) * g (laplaceLoss m s x) =
      ∫⁻ x in Ioc 0 m, ENNReal.ofReal (0.5 / s * Real.exp ((x - m) / s)) * g ((2 * x - m) / s) := by
    refine setLIntegral_congr_fun measurableSet_Ioc fun x hx => ?_
    rw [laplaceLoss, laplacePdf, abs_of_nonneg hx.1.le, abs_of_nonpos (by linarith [hx.2])]
    congr 3
    · congr 2; ring
    · ring
  rw [e1, e2, e3]
  ring

/-- Translating and reflecting a Laplace distribution. -/
lemma laplace_map (m d c s : ℝ) (hc : c = 1 ∨ c = -1) : (laplace m s).map (fun x => c * x + d) = laplace (c * m + d) s := by
  have hmp : MeasurePreserving (fun x : ℝ => c * x + d) volume volume := by
    rcases hc with rfl | rfl
    · simpa using measurePreserving_add_right volume d
    · have := (measurePreserving_add_right volume d).comp (Measure.measurePreserving_neg (volume : Measure ℝ))
      convert this using 2
      simp
  ext t ht
  rw [Measure.map_apply hmp.measurable ht]
  unfold laplace
  rw [withDensity_apply _ ht, withDensity_apply _ (hmp.measurable ht), ← hmp.setLIntegral_comp_preimage ht]
  · refine lintegral_congr fun x => ?_
    congr 4
    rw [show c * x + d - (c * m + d) = c * (x - m) by ring, abs_mul]
    rcases hc with rfl | rfl <;> simp
  · exact (measurable_laplacePdf (c * m + d) s).ennreal_ofReal

/-- Any two Laplace distributions of the same scale are images of the same map. -/
lemma laplace_reduce (a b s : ℝ) : ∃ f : ℝ → ℝ, Measurable f ∧ laplace a s = (laplace |a - b| s).map f ∧
    laplace b s = (laplace 0 s).map f := by
  rcases le_total b a with h | h
  · refine ⟨fun x => 1 * x + b, by fun_prop, ?_, ?_⟩
    · rw [laplace_map _ _ _ _ (Or.inl rfl), abs_of_nonneg (by linarith)]; congr 1; ring
    · rw [laplace_map _ _ _ _ (Or.inl rfl)]; congr 1; ring
  · refine ⟨fun x => -1 * x + b, by fun_prop, ?_, ?_⟩
    · rw [laplace_map _ _ _ _ (Or.inr rfl), abs_of_nonpos (by linarith)]; congr 1; ring
    · rw [laplace_map _ _ _ _ (Or.inr rfl)]; congr 1; ring

end Verif.Spec
