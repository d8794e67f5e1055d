import Verif.Proofs.TestRunner

/-!
# The privacy test runner (C51)
-/

namespace Verif.Props
open Verif.Spec Verif.TestRunner
variable {σ D S S' : Type}

/-- C51: a test that returns has run consecutive trials, recorded one estimate for each and rejected none but possibly the last. It
reports a violation exactly if an estimate was rejected; otherwise it ran exactly `max_num_trials` trials. -/
theorem C51_report {p : RunnerParts σ D S S'} {cfg : RunnerConfig} {s s' : σ} {r : RunnerResults} (h : testPrivacy p cfg s = (s', .ok r)) :
    TrialRuns p cfg none s r.lowerBoundDivergenceEstimates s' ∧
    (∀ e ∈ r.lowerBoundDivergenceEstimates.dropLast, p.rejectProperty e = false) ∧
    (r.terminationReason = .foundPrivacyViolation ↔ ∃ e ∈ r.lowerBoundDivergenceEstimates, p.rejectProperty e = true) ∧
    (r.terminationReason ≠ .foundPrivacyViolation →
      r.terminationReason = .trialLimitReached ∧ r.lowerBoundDivergenceEstimates.length = cfg.maxNumTrials.toNat) ∧
    (r.foundPrivacyViolation = if r.terminationReason = .foundPrivacyViolation then some cfg.failureProbability else none) ∧
    (0 ≤ cfg.maxNumTrials → r.numInspectedTrials = r.lowerBoundDivergenceEstimates.length) ∧
    r.lowerBoundDivergenceEstimates.length ≤ cfg.maxNumTrials.toNat := by
  rcases (loop_iff _ _ _ _ _ _ _).1 h with ⟨es, h1, h2, h3, rfl⟩ | ⟨es, e, h1, h2, h3, h4, rfl⟩
  · simp only [List.nil_append]
    refine ⟨h1, fun e he => h3 e (List.dropLast_subset _ he), ⟨fun h => by simp at h, fun ⟨e, he, hr⟩ => ?_⟩, fun _ => ⟨trivial, h2⟩, by simp,
      fun h0 => ?_, h2.le⟩
    · rw [h3 e he] at hr; simp at hr
    · rw [h2]; omega
  · simp only [List.nil_append]
    refine ⟨h1, fun x hx => h3 x (by simpa using hx), ⟨fun _ => ⟨e, by simp, h4⟩, fun _ => trivial⟩, fun h => absurd rfl h, by simp, fun _ => ?_, ?_⟩
    · simp
    · simp; omega

/-- C51: conversely, if consecutive trials run and no estimate but the last is rejected, and either the last is rejected or there are
`max_num_trials` of them, then the test returns these estimates. -/
theorem C51_complete {p : RunnerParts σ D S S'} {cfg : RunnerConfig} {s s' : σ} {es : List ℝ} (hr : TrialRuns p cfg none s es s')
    (hn : ∀ e ∈ es.dropLast, p.rejectProperty e = false)
    (hlen : es.length ≤ cfg.maxNumTrials.toNat) (hlast : (∃ e, es.getLast? = some e ∧ p.rejectProperty e = true) ∨ es.length = cfg.maxNumTrials.toNat) :
    ∃ r, testPrivacy p cfg s = (s', .ok r) ∧ r.lowerBoundDivergenceEstimates = es := by
  by_cases hv : ∃ e, es.getLast? = some e ∧ p.rejectProperty e = true
  · obtain ⟨e, h1, h2⟩ := hv
    obtain ⟨l, rfl⟩ := List.getLast?_eq_some_iff.1 h1
    simp only [List.dropLast_concat] at hn
    refine ⟨_, (loop_iff _ _ _ _ _ _ _).2 (Or.inr ⟨l, e, hr, by simp at hlen; omega, hn, h2, rfl⟩), by simp⟩
  · have hl : es.length = cfg.maxNumTrials.toNat := hlast.resolve_left hv
    refine ⟨_, (loop_iff _ _ _ _ _ _ _).2 (Or.inl ⟨es, hr, hl, fun e he => ?_, rfl⟩), by simp⟩
    rcases List.eq_nil_or_concat es with rfl | ⟨l, x, rfl⟩
    · simp at he
    · simp only [List.concat_eq_append, List.mem_append, List.mem_singleton] at he
      rcases he with he | rfl
      · exact hn e (by simpa using he)
      · by_contra hc
        exact hv ⟨e, by simp, by simpa using hc⟩

/-- A generator that counts its calls, a mechanism that returns its data, a tester whose estimate is the difference of its samples and
that rejects estimates above 2. -/
noncomputable def runnerExample : RunnerParts ℕ ℝ ℝ ℝ where
  generator := fun _ s => (s + 1, .ok (0, s))
  mechanism := fun d _ s => (s, .ok d)
  postprocess := fun x => .ok x
  estimateLowerBound := fun x y _ s => (s, .ok (x - y))
  rejectProperty := fun e => by classical exact decide (2 < e)

/-- A run that finds a violation in the fourth trial of at most ten. -/
example : ∃ r, testPrivacy runnerExample ⟨10, 1 / 10, 1⟩ 0 = (4, .ok r) ∧ r.lowerBoundDivergenceEstimates = [0, 1, 2, 3] := by
  have step : ∀ (last : Option ℝ) (n : ℕ), TrialRun runnerExample ⟨10, 1 / 10, 1⟩ last n n (n + 1) := by
    intro last n
    refine ⟨n + 1, 0, n, rfl, n + 1, 0, rfl, n + 1, n, rfl, 0, rfl, n, rfl, n + 1, 0 - n, rfl, n - 0, rfl, ?_⟩
    have : (0 : ℝ) ≤ n := Nat.cast_nonneg n
    rw [max_eq_right (by linarith)]
    ring
  refine C51_complete (es := [0, 1, 2, 3]) ?_ ?_ (by simp) (Or.inl ⟨3, by simp, by simp [runnerExample]; norm_num⟩)
  · have h0 := step none 0
    have h1 := step (some 0) 1
    have h2 := step (some 1) 2
    have h3 := step (some 2) 3
    push_cast at h0 h1 h2 h3
    exact .cons h0 (.cons h1 (.cons h2 (.cons h3 (.nil _ _))))
  · intro e he
    simp only [List.dropLast_cons_cons, List.dropLast_singleton, List.mem_cons, List.not_mem_nil, or_false] at he
    rcases he with rfl | rfl | rfl <;> simp [runnerExample]

end Verif.Props
