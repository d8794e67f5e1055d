import Mathlib.Probability.Moments.SubGaussian
import Mathlib.MeasureTheory.Constructions.Pi
import Mathlib.MeasureTheory.Integral.Pi
import Mathlib.MeasureTheory.Integral.Prod

/-!
# Concentration of functions with bounded differences

McDiarmid's inequality, by induction on the number of variables.
-/

namespace Verif

open MeasureTheory ProbabilityTheory Real

/-- `f` is bounded and its moment generating function about its mean is at most that of a Gaussian with variance `v`. -/
structure SubG {X : Type*} [MeasurableSpace X] (μ : Measure X) (f : X → ℝ) (v : ℝ) : Prop where
  measurable : Measurable f
  bounded : ∃ B, ∀ x, |f x| ≤ B
  mgf : ∀ t, ∫ x, exp (t * (f x - ∫ y, f y ∂μ)) ∂μ ≤ exp (t ^ 2 * v / 2)

variable {X Y : Type*} [MeasurableSpace X] [MeasurableSpace Y]

theorem integrable_bdd {μ : Measure X} [IsFiniteMeasure μ] {f : X → ℝ} (hm : Measurable f) {B : ℝ} (hB : ∀ x, |f x| ≤ B) : Integrable f μ :=
  Integrable.of_bound hm.aestronglyMeasurable B (Filter.Eventually.of_forall hB)

theorem integrable_exp_bdd {μ : Measure X} [IsFiniteMeasure μ] {f : X → ℝ} (hm : Measurable f) {B : ℝ} (hB : ∀ x, |f x| ≤ B) (t c : ℝ) :
    Integrable (fun x => exp (t * (f x - c))) μ := by
  refine integrable_bdd (B := exp (|t| * (B + |c|))) (by fun_prop) fun x => ?_
  rw [abs_of_pos (exp_pos _)]
  refine exp_le_exp.2 ((le_abs_self _).trans ?_)
  rw [abs_mul]
  refine mul_le_mul_of_nonneg_left ((abs_sub _ _).trans (add_le_add (hB x) le_rfl)) (abs_nonneg _)

/-- Hoeffding's lemma. -/
theorem SubG.of_diff {μ : Measure X} [IsProbabilityMeasure μ] {f : X → ℝ} (hm : Measurable f) {c : ℝ} (hc : ∀ x y, f x - f y ≤ c) :
    SubG μ f (c ^ 2 / 4) := by
  have hne : Nonempty X := by
    by_contra h
    rw [not_nonempty_iff] at h
    have := measure_univ (μ := μ)
    rw [Set.univ_eq_empty_iff.2 h] at this
    simp at this
  obtain ⟨x0⟩ := hne
  have hbdd : BddBelow (Set.range f) := ⟨f x0 - c, by rintro _ ⟨x, rfl⟩; linarith [hc x0 x]⟩
  set a := sInf (Set.range f) with ha
  have h1 : ∀ x, a ≤ f x := fun x => csInf_le hbdd ⟨x, rfl⟩
  have h2 : ∀ x, f x ≤ a + c := by
    intro x
    have : f x - c ≤ a := le_csInf ⟨f x0, x0, rfl⟩ (by rintro _ ⟨y, rfl⟩; linarith [hc x y])
    linarith
  refine ⟨hm, ⟨|a| + |a + c|, fun x => ?_⟩, fun t => ?_⟩
  · rw [abs_le]
    constructor
    · linarith [h1 x, neg_abs_le a, abs_nonneg (a + c)]
    · linarith [h2 x, le_abs_self (a + c), abs_nonneg a]
  · have := (hasSubgaussianMGF_of_mem_Icc (μ := μ) hm.aemeasurable (a := a) (b := a + c)
      (Filter.Eventually.of_forall fun x => ⟨h1 x, h2 x⟩)).mgf_le t
    rw [ProbabilityTheory.mgf] at this
    refine this.trans (exp_le_exp.2 (le_of_eq ?_))
    have : ‖a + c - a‖ ^ 2 = c ^ 2 := by
      rw [norm_eq_abs, sq_abs]; ring
    push_cast
    rw [div_pow, this]
    ring

theorem SubG.tail {μ : Measure X} [IsProbabilityMeasure μ] {f : X → ℝ} {v : ℝ} (h : SubG μ f v) (hv : 0 ≤ v) {t : ℝ} (ht : 0 ≤ t) :
    μ.real {x | ∫ y, f y ∂μ + t ≤ f x} ≤ exp (-t ^ 2 / (2 * v)) := by
  obtain ⟨B, hB⟩ := h.bounded
  have hs : HasSubgaussianMGF (fun x => f x - ∫ y, f y ∂μ) v.toNNReal μ :=
    ⟨fun t => integrable_exp_bdd h.measurable hB t _, fun t => by
      rw [ProbabilityTheory.mgf]
      refine (h.mgf t).trans (le_of_eq ?_)
      rw [Real.coe_toNNReal _ hv, mul_comm]⟩
  have := hs.measure_ge_le ht
  rw [Real.coe_toNNReal _ hv] at this
  refine le_trans (le_of_eq ?_) this
  congr 1
  ext x
  simp only [Set.mem_ofPred_eq]
  constructor <;> intro h <;> linarith

theorem SubG.neg {μ : Measure X} {f : X → ℝ} {v : ℝ} (h : SubG μ f v) : SubG μ (fun x => -f x) v := by
  refine ⟨h.measurable.neg, by simpa using h.bounded, fun t => ?_⟩
  have := h.mgf (-t)
  rw [integral_neg]
  refine le_trans (le_of_eq ?_) (this.trans (le_of_eq (by rw [neg_sq])))
  congr 1
  ext x
  ring_nf

theorem SubG.tail_neg {μ : Measure X} [IsProbabilityMeasure μ] {f : X → ℝ} {v : ℝ} (h : SubG μ f v) (hv : 0 ≤ v) {t : ℝ} (ht : 0 ≤ t) :
    μ.real {x | f x ≤ ∫ y, f y ∂μ - t} ≤ exp (-t ^ 2 / (2 * v)) := by
  refine le_trans (le_of_eq ?_) (h.neg.tail hv ht)
  congr 1
  ext x
  simp only [Set.mem_ofPred_eq]
  rw [integral_neg]
  constructor <;> intro h <;> linarith

theorem abs_integral_le {μ : Measure X} [IsProbabilityMeasure μ] {f : X → ℝ} {B : ℝ} (hB : ∀ x, |f x| ≤ B) : |∫ x, f x ∂μ| ≤ B := by
  have := norm_integral_le_of_norm_le_const (μ := μ) (f := f) (C := B) (Filter.Eventually.of_forall hB)
  simpa using this

/-- Two independent groups of variables. -/
theorem SubG.prod {μ : Measure X} {ν : Measure Y} [IsProbabilityMeasure μ] [IsProbabilityMeasure ν] {f : X × Y → ℝ} (hm : Measurable f) {B : ℝ}
    (hB : ∀ z, |f z| ≤ B) {v w : ℝ} (h1 : SubG μ (fun x => ∫ y, f (x, y) ∂ν) v) (h2 : ∀ x, SubG ν (fun y => f (x, y)) w) :
    SubG (μ.prod ν) f (v + w) := by
  refine ⟨hm, ⟨B, hB⟩, fun t => ?_⟩
  have hi : Integrable f (μ.prod ν) := integrable_bdd hm hB
  rw [integral_prod _ hi, integral_prod _ (integrable_exp_bdd hm hB t _)]
  set m := ∫ x, ∫ y, f (x, y) ∂ν ∂μ with hmdef
  set g : X → ℝ := fun x => ∫ y, f (x, y) ∂ν with hg
  have hstep : ∀ x, ∫ y, exp (t * (f (x, y) - m)) ∂ν ≤ exp (t ^ 2 * w / 2) * exp (t * (g x - m)) := by
    intro x
    have e : ∀ y, exp (t * (f (x, y) - m)) = exp (t * (f (x, y) - g x)) * exp (t * (g x - m)) := by
      intro y; rw [← exp_add]; ring_nf
    simp_rw [e]
    rw [integral_mul_const]
    exact mul_le_mul_of_nonneg_right ((h2 x).mgf t) (exp_pos _).le
  have hgB : ∀ x, |g x| ≤ B := fun x => abs_integral_le fun y => hB (x, y)
  calc ∫ x, ∫ y, exp (t * (f (x, y) - m)) ∂ν ∂μ ≤ ∫ x, exp (t ^ 2 * w / 2) * exp (t * (g x - m)) ∂μ := by
        refine integral_mono (integrable_exp_bdd hm hB t _).integral_prod_left ?_ hstep
        exact (integrable_exp_bdd h1.measurable hgB t m).const_mul _
    _ = exp (t ^ 2 * w / 2) * ∫ x, exp (t * (g x - m)) ∂μ := integral_const_mul _ _
    _ ≤ exp (t ^ 2 * w / 2) * exp (t ^ 2 * v / 2) := mul_le_mul_of_nonneg_left (h1.mgf t) (exp_pos _).le
    _ = exp (t ^ 2 * (v + w) / 2) := by rw [← exp_add]; ring_nf

theorem SubG.comp_preserving {μ : Measure X} {ν : Measure Y} (e : X ≃ᵐ Y) (he : MeasurePreserving e μ ν) {f : Y → ℝ} {v : ℝ}
    (h : SubG ν f v) : SubG μ (fun x => f (e x)) v := by
  refine ⟨h.measurable.comp e.measurable, ?_, fun t => ?_⟩
  · obtain ⟨B, hB⟩ := h.bounded
    exact ⟨B, fun x => hB _⟩
  · rw [he.integral_comp' f]
    have := he.integral_comp' (fun y => exp (t * (f y - ∫ y, f y ∂ν)))
    rw [this]
    exact h.mgf t

/-- McDiarmid's inequality for the moment generating function. -/
theorem SubG.pi_of {α : Type*} [MeasurableSpace α] (μ : Measure α) [IsProbabilityMeasure μ] (n : ℕ) (c : Fin n → ℝ) (f : (Fin n → α) → ℝ)
    (hm : Measurable f) (hB : ∃ B, ∀ x, |f x| ≤ B) (hc : ∀ x i a, f (Function.update x i a) - f x ≤ c i) :
    SubG (Measure.pi fun _ : Fin n => μ) f (∑ i, c i ^ 2 / 4) := by
  induction n with
  | zero =>
    have := SubG.of_diff (μ := Measure.pi fun _ : Fin 0 => μ) hm (c := 0) (fun x y => by rw [Subsingleton.elim x y]; simp)
    simpa using this
  | succ n ih =>
    obtain ⟨B, hB⟩ := hB
    have hp := measurePreserving_piFinSuccAbove (fun _ : Fin (n + 1) => μ) 0
    set e := MeasurableEquiv.piFinSuccAbove (fun _ : Fin (n + 1) => α) 0 with he
    have hmf : Measurable fun z => f (e.symm z) := hm.comp e.symm.measurable
    have key : SubG (μ.prod (Measure.pi fun _ : Fin n => μ)) (fun z => f (e.symm z)) (c 0 ^ 2 / 4 + ∑ i : Fin n, c i.succ ^ 2 / 4) := by
      refine SubG.prod hmf (B := B) (fun z => hB _) ?_ fun x => ?_
      · refine SubG.of_diff ?_ fun x x' => ?_
        · exact (hmf.stronglyMeasurable.integral_prod_right (ν := Measure.pi fun _ : Fin n => μ)).measurable
        · have hi : ∀ x, Integrable (fun y => f (e.symm (x, y))) (Measure.pi fun _ : Fin n => μ) := fun x =>
            integrable_bdd (hmf.comp (by fun_prop)) (fun y => hB _)
          rw [← integral_sub (hi x) (hi x')]
          have : ∀ y, f (e.symm (x, y)) - f (e.symm (x', y)) ≤ c 0 := by
            intro y
            have h := hc (e.symm (x', y)) 0 x
            have e1 : Function.update (e.symm (x', y)) 0 x = e.symm (x, y) := by
              funext j
              refine Fin.cases ?_ (fun j => ?_) j
              · simp [he, MeasurableEquiv.piFinSuccAbove]
              · simp [he, MeasurableEquiv.piFinSuccAbove]
            rwa [e1] at h
          calc _ ≤ ∫ y, c 0 ∂(Measure.pi fun _ : Fin n => μ) := integral_mono ((hi x).sub (hi x')) (integrable_const _) this
            _ = c 0 := by simp
      · refine ih (fun i => c i.succ) _ (hmf.comp (by fun_prop)) ⟨B, fun y => hB _⟩ fun y i a => ?_
        have h := hc (e.symm (x, y)) i.succ a
        have e1 : Function.update (e.symm (x, y)) i.succ a = e.symm (x, Function.update y i a) := by
          funext j
          refine Fin.cases ?_ (fun j => ?_) j
          · rw [Function.update_of_ne (Fin.succ_ne_zero i).symm]
            simp [he, MeasurableEquiv.piFinSuccAbove]
          · by_cases hj : j = i
            · subst hj; simp [he, MeasurableEquiv.piFinSuccAbove]
            · simp [he, MeasurableEquiv.piFinSuccAbove, hj]
        rwa [e1] at h
    have := key.comp_preserving e hp
    simp only [MeasurableEquiv.symm_apply_apply] at this
    rwa [Fin.sum_univ_succ]

theorem SubG.pi {α : Type*} [MeasurableSpace α] (μ : Measure α) [IsProbabilityMeasure μ] {c : ℝ} (n : ℕ) (f : (Fin n → α) → ℝ)
    (hm : Measurable f) (hB : ∃ B, ∀ x, |f x| ≤ B) (hc : ∀ x i a, f (Function.update x i a) - f x ≤ c) :
    SubG (Measure.pi fun _ : Fin n => μ) f (n * (c ^ 2 / 4)) := by
  have := SubG.pi_of μ n (fun _ => c) f hm hB hc
  simpa using this

theorem SubG.add_const {μ : Measure X} [IsProbabilityMeasure μ] {f : X → ℝ} {v : ℝ} (h : SubG μ f v) (c : ℝ) : SubG μ (fun x => f x + c) v := by
  obtain ⟨B, hB⟩ := h.bounded
  refine ⟨h.measurable.add_const c, ⟨B + |c|, fun x => (abs_add_le _ _).trans (by linarith [hB x])⟩, fun t => ?_⟩
  have e : ∫ x, (f x + c) ∂μ = ∫ x, f x ∂μ + c := by
    rw [integral_add (integrable_bdd h.measurable hB) (integrable_const _)]
    simp
  rw [e]
  refine le_trans (le_of_eq ?_) (h.mgf t)
  congr 1
  ext x
  ring_nf

/-- Sums of functions of independent variables. -/
theorem SubG.add {μ : Measure X} {ν : Measure Y} [IsProbabilityMeasure μ] [IsProbabilityMeasure ν] {f : X → ℝ} {g : Y → ℝ} {v w : ℝ}
    (hf : SubG μ f v) (hg : SubG ν g w) : SubG (μ.prod ν) (fun z => f z.1 + g z.2) (v + w) := by
  obtain ⟨B, hB⟩ := hf.bounded
  obtain ⟨B', hB'⟩ := hg.bounded
  refine SubG.prod (f := fun z => f z.1 + g z.2) ((hf.measurable.comp measurable_fst).add (hg.measurable.comp measurable_snd)) (B := B + B')
    (fun z => (abs_add_le _ _).trans (add_le_add (hB _) (hB' _))) ?_ fun x => ?_
  · have e : ∀ x, ∫ y, (f x + g y) ∂ν = f x + ∫ y, g y ∂ν := by
      intro x
      rw [integral_add (integrable_const _) (integrable_bdd hg.measurable hB')]
      simp
    simp_rw [e]
    exact hf.add_const _
  · have := hg.add_const (f x)
    simpa only [add_comm] using this

theorem integral_add_prod {μ : Measure X} {ν : Measure Y} [IsProbabilityMeasure μ] [IsProbabilityMeasure ν] {f : X → ℝ} {g : Y → ℝ} {v w : ℝ}
    (hf : SubG μ f v) (hg : SubG ν g w) : ∫ z, (f z.1 + g z.2) ∂(μ.prod ν) = ∫ x, f x ∂μ + ∫ y, g y ∂ν := by
  obtain ⟨B, hB⟩ := hf.bounded
  obtain ⟨B', hB'⟩ := hg.bounded
  have h1 := integrable_bdd (μ := μ) hf.measurable hB
  have h2 := integrable_bdd (μ := ν) hg.measurable hB'
  rw [integral_add (h1.comp_fst ν) (h2.comp_snd μ)]
  congr 1
  · rw [integral_fun_fst]; simp
  · rw [integral_fun_snd]; simp

end Verif
