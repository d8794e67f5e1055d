import Verif.Model.Builder
import Mathlib.Data.Real.Basic
import Mathlib.Order.Lattice

/-!
# Model of the privacy test runner (`dp_auditorium/privacy_test_runner.py`)

The dataset generator, the mechanism and the property tester are arbitrary (`interfaces.py`): functions that may change the state `σ` of
the world (their own attributes, random number generators, a Vizier study) and may raise. Estimates are reals: the model has no NaN.
-/

namespace Verif

/-- A step that changes the state and returns a value or raises. A call in `privacy_test_runner.py:113-143`. -/
abbrev Step (σ α : Type) := σ → σ × Except Err α

/-- Run `m`, and then `f` on its value unless it raised. Consecutive statements of `privacy_test_runner.py:113-156`. -/
def Step.andThen {σ α β : Type} (m : Step σ α) (f : α → Step σ β) : Step σ β := fun s =>
  match m s with
  | (s', .error e) => (s', .error e)
  | (s', .ok a) => f a s'

/-- `TerminationReason`, `configs/privacy_test_runner_config.py:63-73`. -/
inductive TerminationReason where
  | unknown
  | trialLimitReached
  | foundPrivacyViolation
  deriving DecidableEq

/-- `PrivacyTestRunnerConfig`, `configs/privacy_test_runner_config.py:40-60`, without the names of the tester and of the post-processing
function, which are `RunnerParts`. -/
structure RunnerConfig where
  maxNumTrials : ℤ
  failureProbability : ℝ
  numSamples : ℤ

/-- `PrivacyTestRunnerResults`, `configs/privacy_test_runner_config.py:88-125`, without the fields that are copied from the arguments. -/
structure RunnerResults where
  lowerBoundDivergenceEstimates : List ℝ
  terminationReason : TerminationReason
  foundPrivacyViolation : Option ℝ
  numInspectedTrials : ℤ

/-- The objects that a runner works with: generator, mechanism, `maybe_postprocess`, and the two methods of the property tester. `privacy_test_runner.py:75-84`. -/
structure RunnerParts (σ D S S' : Type) where
  generator : Option ℝ → Step σ (D × D)
  mechanism : D → ℤ → Step σ S
  postprocess : S → Except Err S'
  estimateLowerBound : S' → S' → ℝ → Step σ ℝ
  rejectProperty : ℝ → Bool

namespace TestRunner
variable {σ D S S' : Type}

/-- The body of the loop up to the estimate, lines 115-142. -/
noncomputable def trial (p : RunnerParts σ D S S') (cfg : RunnerConfig) (last : Option ℝ) : Step σ ℝ :=
  (p.generator last).andThen fun d =>
  (p.mechanism d.1 cfg.numSamples).andThen fun samples1 =>
  (p.mechanism d.2 cfg.numSamples).andThen fun samples2 =>
  Step.andThen (fun s => (s, p.postprocess samples1)) fun post1 =>
  Step.andThen (fun s => (s, p.postprocess samples2)) fun post2 =>
  (p.estimateLowerBound post1 post2 cfg.failureProbability).andThen fun e12 =>
  (p.estimateLowerBound post2 post1 cfg.failureProbability).andThen fun e21 =>
  fun s => (s, .ok (max e12 e21))

/-- The loop, lines 112-163, from the given trial on: `fuel` trials are left. -/
noncomputable def loop (p : RunnerParts σ D S S') (cfg : RunnerConfig) : (fuel : ℕ) → (trialIx : ℤ) → (last : Option ℝ) → (estimates : List ℝ) →
    Step σ RunnerResults
  | 0, _, _, estimates => fun s => (s, .ok ⟨estimates, .trialLimitReached, none, cfg.maxNumTrials⟩)
  | fuel + 1, t, last, estimates =>
    (trial p cfg last).andThen fun e =>
      if p.rejectProperty e then fun s => (s, .ok ⟨estimates ++ [e], .foundPrivacyViolation, some cfg.failureProbability, t + 1⟩)
      else loop p cfg fuel (t + 1) (some e) (estimates ++ [e])

/-- `PrivacyTestRunner.test_privacy`, lines 83-163; `range` of a negative number is empty. -/
noncomputable def testPrivacy (p : RunnerParts σ D S S') (cfg : RunnerConfig) : Step σ RunnerResults :=
  loop p cfg cfg.maxNumTrials.toNat 0 none []

end TestRunner
end Verif
