import Verif.Spec.FalseAlarm
import Verif.Spec.Testers

/-!
# Mechanisms that draw independent samples
-/

namespace Verif.Spec
open MeasureTheory

/-- With random bits of law `μ`, any number of samples for a data set `d` is a number of independent samples of `M d`. -/
def IndependentDraws {U D X : Type} [MeasurableSpace U] [MeasurableSpace X] (μ : Measure U) (sampler : D → U → ℕ → X) (M : D → Measure X) : Prop :=
  ∀ d (n : ℕ), Measurable (fun u (i : Fin n) => sampler d u i) ∧ μ.map (fun u (i : Fin n) => sampler d u i) = Measure.pi fun _ => M d

open Classical in
/-- A test of a mechanism that returns a list of samples; `post` is applied to every sample. -/
noncomputable def countingRunner {U G D X X' : Type} (generator : Option ℝ → Step G (D × D)) (sampler : D → U → ℕ → X) (post : X → X')
    (est : List X' → List X' → ℝ → Except Err ℝ) (rej : ℝ → Prop) : SampledRunner U G D (List X) (List X') where
  generator := generator
  mechanism d n u := .ok (List.ofFn fun i : Fin n.toNat => sampler d u i)
  postprocess l := .ok (l.map post)
  estimateLowerBound := est
  rejectProperty e := decide (rej e)

end Verif.Spec
