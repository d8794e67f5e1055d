import Verif.Model.OneStepBudget
import Verif.Spec.ClusteringDemo
import Verif.Proofs.RdpTight

/-!
# C91: the Rényi budget of one step of gradient descent
-/

namespace Verif.Props
open MeasureTheory ProbabilityTheory Verif.Spec Verif.Rdp
open scoped RealInnerProductSpace

variable {d : ℕ}

/-- What one step of gradient descent releases: the sum of the gradients of the records, each clipped to norm `clip`, plus normal noise of
standard deviation `noiseMultiplier * clip`. -/
noncomputable def gradientStep (noiseMultiplier clip : ℝ) (gradients : List (Vec d)) : Measure (Vec d) :=
  gaussianVec (gradients.map (toBall clip)).sum (noiseMultiplier * clip)

lemma norm_toBall {r : ℝ} (hr : 0 < r) (x : Vec d) : ‖toBall r x‖ ≤ r := by
  unfold toBall
  split_ifs with hy
  · exact hy
  · have : 0 < ‖x‖ := hr.trans (not_le.1 hy)
    rw [norm_smul, norm_div, norm_norm, Real.norm_of_nonneg hr.le, div_mul_cancel₀ _ this.ne']

lemma step_single {nm clip : ℝ} (hn : 0 < nm) (hc : 0 < clip) (t : ℝ) :
    (gaussianVec ((t * clip) • (EuclideanSpace.single 0 1 : Vec 1)) (nm * clip)).map (fun x => ⟪(EuclideanSpace.single 0 1 : Vec 1), x⟫) =
      gaussianReal (t * clip) (Real.toNNReal ((nm * clip) ^ 2)) := gaussianVec_proj (mul_pos hn hc) _

lemma toBall_unit {clip : ℝ} (hc : 0 < clip) {t : ℝ} (ht : |t| = 1) :
    toBall clip ((t * clip) • (EuclideanSpace.single 0 1 : Vec 1)) = (t * clip) • EuclideanSpace.single 0 1 := by
  unfold toBall
  rw [if_pos]
  simp [norm_smul, ht, abs_of_pos hc]

lemma renyi_lower {α : ℝ} (hα : 1 < α) {nm clip : ℝ} (hn : 0 < nm) (hc : 0 < clip) (t : ℝ) :
    ((α * t ^ 2 / (2 * nm ^ 2) : ℝ) : EReal) ≤
      renyiDiv α (gaussianVec ((t * clip) • (EuclideanSpace.single 0 1 : Vec 1)) (nm * clip))
        (gaussianVec ((0 * clip) • (EuclideanSpace.single 0 1 : Vec 1)) (nm * clip)) := by
  have hv : Real.toNNReal ((nm * clip) ^ 2) ≠ 0 := by simpa using ⟨hn.ne', hc.ne'⟩
  have h := renyi_map_le hα.le (P := gaussianVec ((t * clip) • (EuclideanSpace.single 0 1 : Vec 1)) (nm * clip))
    (Q := gaussianVec ((0 * clip) • (EuclideanSpace.single 0 1 : Vec 1)) (nm * clip))
    (f := fun x => ⟪(EuclideanSpace.single 0 1 : Vec 1), x⟫) (by fun_prop)
  rw [step_single hn hc, step_single hn hc, zero_mul, renyi_gaussian' hα.le _ hv, Real.coe_toNNReal _ (sq_nonneg _)] at h
  refine le_trans (le_of_eq ?_) (le_trans h (by rw [zero_mul]))
  congr 1
  field_simp

/-- **C91.** If each record's gradient is clipped, the budget is exactly what adding or removing a record costs: the Rényi divergence is at
most the budget for all data and all dimensions, and equal to it for some. -/
theorem C91_add_remove {nm clip α : ℝ} (hn : 0 < nm) (hc : 0 < clip) (hα : 1 < α) {b : ℝ} (hb : wrongOneStepGdBudget nm α = .ok b) :
    (∀ (d : ℕ) (g : Vec d) (gs : List (Vec d)),
      renyiDiv α (gradientStep nm clip (g :: gs)) (gradientStep nm clip gs) ≤ b ∧
      renyiDiv α (gradientStep nm clip gs) (gradientStep nm clip (g :: gs)) ≤ b) ∧
    ∃ (g : Vec 1) (gs : List (Vec 1)), renyiDiv α (gradientStep nm clip (g :: gs)) (gradientStep nm clip gs) = b := by
  have hb' : b = α / (2 * nm ^ 2) := by
    unfold wrongOneStepGdBudget at hb
    rw [if_neg (by positivity)] at hb
    exact (Except.ok.inj hb).symm
  have up : ∀ (d : ℕ) (g : Vec d) (gs : List (Vec d)),
      renyiDiv α (gradientStep nm clip (g :: gs)) (gradientStep nm clip gs) ≤ b ∧
      renyiDiv α (gradientStep nm clip gs) (gradientStep nm clip (g :: gs)) ≤ b := by
    intro d g gs
    rw [hb']
    unfold gradientStep
    simp only [List.map_cons, List.sum_cons]
    exact ⟨renyi_gaussianVec hα.le hn _ _ hc (by simpa using norm_toBall hc g),
      renyi_gaussianVec hα.le hn _ _ hc (by simpa using norm_toBall hc g)⟩
  refine ⟨up, (1 * clip) • EuclideanSpace.single 0 1, [], le_antisymm (up 1 _ _).1 ?_⟩
  have h := renyi_lower hα hn hc 1
  unfold gradientStep
  rw [hb']
  simp only [List.map_cons, List.map_nil, List.sum_cons, List.sum_nil, add_zero, toBall_unit hc abs_one]
  simpa using h

/-- **C91.** For replacing a record, the cost is exactly four times the budget. -/
theorem C91_replace {nm clip α : ℝ} (hn : 0 < nm) (hc : 0 < clip) (hα : 1 < α) {b : ℝ} (hb : wrongOneStepGdBudget nm α = .ok b) :
    (∀ (d : ℕ) (g g' : Vec d) (gs : List (Vec d)),
      renyiDiv α (gradientStep nm clip (g :: gs)) (gradientStep nm clip (g' :: gs)) ≤ ((4 * b : ℝ) : EReal)) ∧
    ∃ (g g' : Vec 1) (gs : List (Vec 1)),
      renyiDiv α (gradientStep nm clip (g :: gs)) (gradientStep nm clip (g' :: gs)) = ((4 * b : ℝ) : EReal) := by
  have hb' : 4 * b = α / (2 * (nm / 2) ^ 2) := by
    unfold wrongOneStepGdBudget at hb
    rw [if_neg (by positivity)] at hb
    rw [← Except.ok.inj hb]
    field_simp
    ring
  have up : ∀ (d : ℕ) (g g' : Vec d) (gs : List (Vec d)),
      renyiDiv α (gradientStep nm clip (g :: gs)) (gradientStep nm clip (g' :: gs)) ≤ ((4 * b : ℝ) : EReal) := by
    intro d g g' gs
    rw [hb']
    unfold gradientStep
    simp only [List.map_cons, List.sum_cons]
    have hd : ‖(toBall clip g + (gs.map (toBall clip)).sum) - (toBall clip g' + (gs.map (toBall clip)).sum)‖ ≤ 2 * clip := by
      rw [add_sub_add_right_eq_sub]
      refine (norm_sub_le _ _).trans ?_
      linarith [norm_toBall hc g, norm_toBall hc g']
    have := renyi_gaussianVec hα.le (half_pos hn) _ _ (by linarith : (0 : ℝ) < 2 * clip) hd
    rwa [show nm / 2 * (2 * clip) = nm * clip by ring] at this
  refine ⟨up, (1 * clip) • EuclideanSpace.single 0 1, (-1 * clip) • EuclideanSpace.single 0 1, [(1 * clip) • EuclideanSpace.single 0 1],
    le_antisymm (up 1 _ _ _) ?_⟩
  have h := renyi_lower hα hn hc 2
  unfold gradientStep
  simp only [List.map_cons, List.map_nil, List.sum_cons, List.sum_nil, add_zero, toBall_unit hc abs_one,
    toBall_unit hc (show |(-1 : ℝ)| = 1 by simp)]
  rw [← add_smul, ← add_smul, show 1 * clip + 1 * clip = 2 * clip by ring, show -1 * clip + 1 * clip = 0 * clip by ring]
  refine le_trans (le_of_eq ?_) h
  rw [hb']
  congr 1
  field_simp

/-- **C91, finding.** So the budget is not a bound if a record is replaced. -/
theorem C91_replace_violated {nm clip α : ℝ} (hn : 0 < nm) (hc : 0 < clip) (hα : 1 < α) {b : ℝ} (hb : wrongOneStepGdBudget nm α = .ok b) :
    ¬ ∀ (g g' : Vec 1) (gs : List (Vec 1)), renyiDiv α (gradientStep nm clip (g :: gs)) (gradientStep nm clip (g' :: gs)) ≤ b := by
  intro h
  obtain ⟨g, g', gs, e⟩ := (C91_replace hn hc hα hb).2
  have h1 := h g g' gs
  rw [e, EReal.coe_le_coe_iff] at h1
  have hpos : 0 < b := by
    unfold wrongOneStepGdBudget at hb
    rw [if_neg (by positivity)] at hb
    rw [← Except.ok.inj hb]
    positivity
  linarith

/-- **C91.** Without noise there is no budget. -/
theorem C91_no_noise (α : ℝ) : wrongOneStepGdBudget 0 α = .error .zeroDivisionError := by simp [wrongOneStepGdBudget]

example : wrongOneStepGdBudget 2 8 = .ok 1 := by
  unfold wrongOneStepGdBudget
  rw [if_neg (by norm_num)]
  norm_num

end Verif.Props
