import Verif.Spec.TestRunner

/-! # The privacy test runner -/

namespace Verif.TestRunner
open Verif.Spec
variable {σ D S S' : Type}

lemma andThen_ok {α β : Type} {m : Step σ α} {f : α → Step σ β} {s s' : σ} {b : β} :
    m.andThen f s = (s', .ok b) ↔ ∃ s1 a, m s = (s1, .ok a) ∧ f a s1 = (s', .ok b) := by
  unfold Step.andThen
  rcases h : m s with ⟨s1, _ | a⟩
  · simp
  · simp only []
    constructor
    · intro h'; exact ⟨s1, a, rfl, h'⟩
    · rintro ⟨s2, a', h1, h2⟩
      injection h1 with h3 h4
      injection h4 with h4
      subst h3; subst h4
      exact h2

lemma trial_iff {p : RunnerParts σ D S S'} {cfg : RunnerConfig} {last : Option ℝ} {s s' : σ} {e : ℝ} :
    trial p cfg last s = (s', .ok e) ↔ TrialRun p cfg last s e s' := by
  unfold trial TrialRun
  simp only [andThen_ok, Prod.mk.injEq, Except.ok.injEq]
  constructor
  · rintro ⟨s1, ⟨d1, d2⟩, h1, s2, x1, h2, s3, x2, h3, s4, y1, ⟨rfl, h4⟩, s5, y2, ⟨rfl, h5⟩, s6, e12, h6, s7, e21, h7, rfl, rfl⟩
    exact ⟨s1, d1, d2, h1, s2, x1, h2, _, x2, h3, y1, h4, y2, h5, s6, e12, h6, e21, h7, rfl⟩
  · rintro ⟨s1, d1, d2, h1, s2, x1, h2, s3, x2, h3, y1, h4, y2, h5, s6, e12, h6, e21, h7, rfl⟩
    exact ⟨s1, ⟨d1, d2⟩, h1, s2, x1, h2, s3, x2, h3, s3, y1, ⟨rfl, h4⟩, s3, y2, ⟨rfl, h5⟩, s6, e12, h6, s', e21, h7, rfl, rfl⟩

/-- What the loop returns. -/
lemma loop_iff {p : RunnerParts σ D S S'} {cfg : RunnerConfig} (fuel : ℕ) : ∀ (t : ℤ) (last : Option ℝ) (pre : List ℝ) (s s' : σ) (r : RunnerResults),
    loop p cfg fuel t last pre s = (s', .ok r) ↔
      (∃ es, TrialRuns p cfg last s es s' ∧ es.length = fuel ∧ (∀ e ∈ es, p.rejectProperty e = false) ∧
        r = ⟨pre ++ es, .trialLimitReached, none, cfg.maxNumTrials⟩) ∨
      (∃ es e, TrialRuns p cfg last s (es ++ [e]) s' ∧ es.length < fuel ∧ (∀ e ∈ es, p.rejectProperty e = false) ∧ p.rejectProperty e = true ∧
        r = ⟨pre ++ es ++ [e], .foundPrivacyViolation, some cfg.failureProbability, t + es.length + 1⟩) := by
  induction fuel with
  | zero =>
    intro t last pre s s' r
    unfold loop
    simp only [Prod.mk.injEq, Except.ok.injEq]
    constructor
    · rintro ⟨rfl, rfl⟩
      exact Or.inl ⟨[], .nil _ _, rfl, by simp, by simp⟩
    · rintro (⟨es, h1, h2, h3, rfl⟩ | ⟨es, e, h1, h2, _⟩)
      · have : es = [] := List.length_eq_zero_iff.1 h2
        subst this
        cases h1
        simp
      · omega
  | succ fuel ih =>
    intro t last pre s s' r
    unfold loop
    rw [andThen_ok]
    constructor
    · rintro ⟨s1, e, h1, h2⟩
      have h1' := trial_iff.1 h1
      by_cases hr : p.rejectProperty e = true
      · rw [if_pos hr] at h2
        simp only [Prod.mk.injEq, Except.ok.injEq] at h2
        obtain ⟨rfl, rfl⟩ := h2
        exact Or.inr ⟨[], e, .cons h1' (.nil _ _), by simp, by simp, hr, by simp⟩
      · rw [if_neg hr] at h2
        rcases (ih _ _ _ _ _ _).1 h2 with ⟨es, a, b, c, rfl⟩ | ⟨es, e', a, b, c, d, rfl⟩
        · refine Or.inl ⟨e :: es, .cons h1' a, by simp [b], ?_, by simp⟩
          intro x hx
          rcases List.mem_cons.1 hx with rfl | hx
          · simpa using hr
          · exact c x hx
        · refine Or.inr ⟨e :: es, e', .cons h1' a, by simp [b], ?_, d, ?_⟩
          · intro x hx
            rcases List.mem_cons.1 hx with rfl | hx
            · simpa using hr
            · exact c x hx
          · simp only [List.append_assoc, List.cons_append, List.nil_append, List.length_cons, Nat.cast_add, Nat.cast_one]
            congr 1
            ring
    · rintro (⟨es, h1, h2, h3, rfl⟩ | ⟨es, e, h1, h2, h3, h4, rfl⟩)
      · cases h1 with
        | nil => simp at h2
        | @cons _ _ s1 _ e es' a b =>
          have he : p.rejectProperty e = false := h3 e (by simp)
          refine ⟨s1, e, trial_iff.2 a, ?_⟩
          rw [if_neg (by simp [he]), ih]
          exact Or.inl ⟨es', b, by simpa using h2, fun x hx => h3 x (List.mem_cons_of_mem _ hx), by simp⟩
      · cases es with
        | nil =>
          cases h1 with
          | @cons _ _ s1 _ _ _ a b =>
            cases b
            exact ⟨s', e, trial_iff.2 a, by rw [if_pos h4]; simp⟩
        | cons e0 es =>
          cases h1 with
          | @cons _ _ s1 _ _ _ a b =>
            have he : p.rejectProperty e0 = false := h3 e0 (by simp)
            refine ⟨s1, e0, trial_iff.2 a, ?_⟩
            rw [if_neg (by simp [he]), ih]
            refine Or.inr ⟨es, e, b, by simpa using h2, fun x hx => h3 x (List.mem_cons_of_mem _ hx), h4, ?_⟩
            simp only [List.append_assoc, List.cons_append, List.nil_append, List.length_cons, Nat.cast_add, Nat.cast_one]
            congr 1
            ring

end Verif.TestRunner
