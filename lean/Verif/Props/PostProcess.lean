import Verif.Model.PostProcess
import Verif.Props.FalseAlarm
import Mathlib.Analysis.SpecialFunctions.Trigonometric.Inverse
import Mathlib.MeasureTheory.Constructions.Polish.Basic

/-!
# C77: post-processing of samples before a privacy test
-/

namespace Verif.Props
open Verif.Spec MeasureTheory

lemma measurable_tanh : Measurable Real.tanh := by
  have : Real.tanh = fun x => Real.sinh x / Real.cosh x := funext Real.tanh_eq_sinh_div_cosh
  rw [this]
  exact Real.measurable_sinh.div Real.measurable_cosh

lemma evalChebyt_cos (θ : ℝ) : ∀ n : ℕ, evalChebyt n (Real.cos θ) = Real.cos (n * θ)
  | 0 => by simp [evalChebyt]
  | 1 => by simp [evalChebyt]
  | n + 2 => by
    rw [evalChebyt, evalChebyt_cos θ (n + 1), evalChebyt_cos θ n]
    have h1 : ((n + 2 : ℕ) : ℝ) * θ = (n + 1 : ℕ) * θ + θ := by push_cast; ring
    have h2 : (n : ℝ) * θ = (n + 1 : ℕ) * θ - θ := by push_cast; ring
    rw [h1, h2, Real.cos_add, Real.cos_sub]
    ring

lemma measurable_evalChebyt : ∀ n : ℕ, Measurable (evalChebyt n)
  | 0 => measurable_const
  | 1 => measurable_id
  | n + 2 => by
    have : evalChebyt (n + 2) = fun x => 2 * x * evalChebyt (n + 1) x - evalChebyt n x := rfl
    rw [this]
    exact ((measurable_id.const_mul 2).mul (measurable_evalChebyt (n + 1))).sub (measurable_evalChebyt n)

/-- A measurable map that forgets nothing neither hides nor creates a violation. -/
lemma indist_embedding {X Y : Type} [MeasurableSpace X] [MeasurableSpace Y] {f : X → Y} (hf : MeasurableEmbedding f) (P Q : Measure X)
    (ε δ : ℝ) : Indist (P.map f) (Q.map f) ε δ ↔ Indist P Q ε δ := by
  refine ⟨fun h A hA => ?_, fun h => Mech.Indist.map h hf.measurable⟩
  have := h (f '' A) (hf.measurableSet_image' hA)
  rwa [measureReal_def, measureReal_def, hf.map_apply, hf.map_apply, Set.preimage_image_eq _ hf.injective] at this

/-- **C77 (one number for each sample).** Without post-processing and with `TANH`, every sample is replaced by one number, and the laws of
the new samples are `(ε, δ)`-indistinguishable exactly if those of the mechanism are. -/
theorem C77_scalar {kind : PostProcessing} (h : kind = .none ∨ kind = .tanh) : ∃ f : ℝ → ℝ, (kind = .none → f = id) ∧
    (kind = .tanh → f = Real.tanh ∧ ∀ x, |f x| < 1) ∧
    (∃ g, getPostprocessFunction kind = .ok g ∧ ∀ samples, g samples = .flat (samples.map f)) ∧
    ∀ (P Q : Measure ℝ) (ε δ : ℝ), Indist (P.map f) (Q.map f) ε δ ↔ Indist P Q ε δ := by
  rcases h with rfl | rfl
  · exact ⟨id, (by simp), (by simp), ⟨_, rfl, by simp⟩, fun P Q ε δ => by rw [Measure.map_id, Measure.map_id]⟩
  · exact ⟨Real.tanh, (by simp), fun _ => ⟨rfl, Real.abs_tanh_lt_one⟩, ⟨_, rfl, fun _ => rfl⟩,
      fun P Q ε δ => indist_embedding (measurable_tanh.measurableEmbedding Real.tanh_injective) P Q ε δ⟩

/-- **C77 (Chebyshev polynomials).** `CHEBYSHEV_POLYNOMIALS_D5` replaces a sample `x` by the row of the six numbers `cos (i θ)` with
`cos θ = tanh x`, all of them between minus one and one, and the laws of the rows are `(ε, δ)`-indistinguishable exactly if those of the
mechanism are. -/
theorem C77_chebyshev : ∃ f : ℝ → Fin 6 → ℝ,
    (∀ x θ, Real.cos θ = Real.tanh x → ∀ i, f x i = Real.cos (i * θ)) ∧ (∀ x i, |f x i| ≤ 1) ∧
    (∃ g, getPostprocessFunction .chebyshevPolynomialsD5 = .ok g ∧ ∀ samples, g samples = .rows (samples.map fun x => List.ofFn (f x))) ∧
    ∀ (P Q : Measure ℝ) (ε δ : ℝ), Indist (P.map f) (Q.map f) ε δ ↔ Indist P Q ε δ := by
  have hcos : ∀ x θ, Real.cos θ = Real.tanh x → ∀ i : Fin 6, evalChebyt i (Real.tanh x) = Real.cos (i * θ) := by
    intro x θ h i
    rw [← h, evalChebyt_cos]
  refine ⟨fun x i => evalChebyt i (Real.tanh x), hcos, fun x i => ?_, ⟨_, rfl, fun samples => ?_⟩, ?_⟩
  · have hx := abs_lt.1 (Real.abs_tanh_lt_one x)
    simp only [hcos x (Real.arccos (Real.tanh x)) (Real.cos_arccos hx.1.le hx.2.le) i]
    exact Real.abs_cos_le_one _
  · unfold chebyshevProjectionD5
    simp only [List.map_map]
    rfl
  · refine fun P Q ε δ => indist_embedding ?_ P Q ε δ
    refine Measurable.measurableEmbedding (measurable_pi_iff.2 fun i => (measurable_evalChebyt _).comp measurable_tanh) fun x y h => ?_
    exact Real.tanh_injective (congrFun h 1)

/-- **C77.** Any other value of the field is refused when the runner is constructed. -/
theorem C77_unknown : getPostprocessFunction .other = .error .valueError := rfl

example : ∃ g, getPostprocessFunction .chebyshevPolynomialsD5 = .ok g ∧ g [0] = .rows [[1, 0, -1, 0, 1, 0]] := by
  refine ⟨_, rfl, ?_⟩
  norm_num [chebyshevProjectionD5, evalChebyt, List.range_succ]

end Verif.Props
