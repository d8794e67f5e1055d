import Verif.Spec.TestRunner
import Mathlib.Probability.ProductMeasure

/-!
# When does a privacy test accuse a mechanism?

The runner of `Model/TestRunner` with the randomness made explicit: every call of the mechanism uses new random bits, independent of
all others. The generator may be adaptive and keep a state (`G`); its own random choices are part of that state.
-/

namespace Verif.Spec
open MeasureTheory
variable {U G D S S' : Type}

/-- A generator, a mechanism that computes its samples from random bits in `U`, post-processing, and the two methods of a tester. -/
structure SampledRunner (U G D S S' : Type) where
  generator : Option ℝ → Step G (D × D)
  mechanism : D → ℤ → U → Except Err S
  postprocess : S → Except Err S'
  estimateLowerBound : S' → S' → ℝ → Except Err ℝ
  rejectProperty : ℝ → Bool

/-- The objects of a test in which the `k`-th call of the mechanism uses the random bits `ω k`. The state counts the calls. -/
def SampledRunner.parts (p : SampledRunner U G D S S') (ω : ℕ → U) : RunnerParts (G × ℕ) D S S' where
  generator last s := (((p.generator last s.1).1, s.2), (p.generator last s.1).2)
  mechanism d n s := ((s.1, s.2 + 1), p.mechanism d n (ω s.2))
  postprocess := p.postprocess
  estimateLowerBound y1 y2 fp s := (s, p.estimateLowerBound y1 y2 fp)
  rejectProperty := p.rejectProperty

/-- The test, started with the generator in state `g`, reports a privacy violation. -/
def SampledRunner.Accused (p : SampledRunner U G D S S') (cfg : RunnerConfig) (g : G) : Set (ℕ → U) :=
  {ω | ∃ s r, TestRunner.testPrivacy (p.parts ω) cfg (g, 0) = (s, .ok r) ∧ r.terminationReason = .foundPrivacyViolation}

/-- The tester rejects on samples for the data sets `d1`, `d2` drawn with random bits `u.1`, `u.2`. -/
def SampledRunner.Rejects (p : SampledRunner U G D S S') (cfg : RunnerConfig) (d1 d2 : D) : Set (U × U) :=
  {u | ∃ x1 x2 y1 y2 e, p.mechanism d1 cfg.numSamples u.1 = .ok x1 ∧ p.mechanism d2 cfg.numSamples u.2 = .ok x2 ∧
    p.postprocess x1 = .ok y1 ∧ p.postprocess x2 = .ok y2 ∧ p.estimateLowerBound y1 y2 cfg.failureProbability = .ok e ∧
    p.rejectProperty e = true}

end Verif.Spec
