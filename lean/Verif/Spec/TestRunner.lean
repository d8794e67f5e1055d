import Verif.Model.TestRunner

/-!
# What a privacy test should do
-/

namespace Verif.Spec
variable {σ D S S' : Type}

/-- One trial: with the result `last` of the previous trial, the generator produces two data sets, the mechanism is run on both, and the
estimate `e` is the larger one of the estimates for the two orders of the samples. The states before and after are `s` and `s'`. -/
def TrialRun (p : RunnerParts σ D S S') (cfg : RunnerConfig) (last : Option ℝ) (s : σ) (e : ℝ) (s' : σ) : Prop :=
  ∃ s1 d1 d2, p.generator last s = (s1, .ok (d1, d2)) ∧
  ∃ s2 x1, p.mechanism d1 cfg.numSamples s1 = (s2, .ok x1) ∧
  ∃ s3 x2, p.mechanism d2 cfg.numSamples s2 = (s3, .ok x2) ∧
  ∃ y1, p.postprocess x1 = .ok y1 ∧
  ∃ y2, p.postprocess x2 = .ok y2 ∧
  ∃ s4 e12, p.estimateLowerBound y1 y2 cfg.failureProbability s3 = (s4, .ok e12) ∧
  ∃ e21, p.estimateLowerBound y2 y1 cfg.failureProbability s4 = (s', .ok e21) ∧
  e = max e12 e21

/-- Consecutive trials with the estimates `es`, each told the estimate of the one before. -/
inductive TrialRuns (p : RunnerParts σ D S S') (cfg : RunnerConfig) : Option ℝ → σ → List ℝ → σ → Prop
  | nil (last : Option ℝ) (s : σ) : TrialRuns p cfg last s [] s
  | cons {last : Option ℝ} {s s' s'' : σ} {e : ℝ} {es : List ℝ} :
    TrialRun p cfg last s e s' → TrialRuns p cfg (some e) s' es s'' → TrialRuns p cfg last s (e :: es) s''

end Verif.Spec
