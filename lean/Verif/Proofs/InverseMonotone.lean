import Verif.Model.InverseMonotone
import Mathlib.Tactic.Linarith
import Mathlib.Tactic.Positivity

/-! Helper lemmas about `inverse_monotone_function`. -/

namespace Verif.InverseMonotone

variable {inc discrete : Bool} {func : ℝ → ℝ} {value tol : ℝ}

theorem guessLoop_spec {upper : EReal} (fuel : ℕ) {lower : EReal} {guess : ℝ} {l' : EReal} {g' : ℝ}
    (h : guessLoop inc func value upper fuel lower guess = some (l', g')) :
    (l' = lower ∨ ∃ r : ℝ, l' = r ∧ check inc (func r) value ∧ (r : EReal) < upper) ∧
    (upper ≤ g' ∨ ¬ check inc (func g') value) ∧
    (0 < guess → guess ≤ g' ∧ (lower ≤ guess → lower ≤ l' ∧ l' ≤ g')) ∧
    (∀ z : ℤ, guess = z → ∃ z' : ℤ, g' = z' ∧ (l' = lower ∨ ∃ w : ℤ, l' = ((w : ℝ) : EReal))) := by
  induction fuel generalizing lower guess with
  | zero =>
    unfold guessLoop at h
    split_ifs at h with hc
    · simp only [Option.some.injEq, Prod.mk.injEq] at h
      obtain ⟨rfl, rfl⟩ := h
      refine ⟨Or.inl rfl, ?_, fun _ => ⟨le_rfl, fun h => ⟨le_rfl, h⟩⟩, fun z hz => ⟨z, hz, Or.inl rfl⟩⟩
      by_cases h1 : upper ≤ (guess : EReal)
      · exact Or.inl h1
      · exact Or.inr (fun h2 => hc ⟨not_le.1 h1, h2⟩)
  | succ fuel ih =>
    unfold guessLoop at h
    split_ifs at h with hc
    · simp only at h
      obtain ⟨h1, h2, h3, h4⟩ := ih h
      refine ⟨?_, h2, fun hg => ?_, fun z hz => ?_⟩
      · rcases h1 with h1 | h1
        · exact Or.inr ⟨guess, h1, hc.2, hc.1⟩
        · exact Or.inr h1
      · obtain ⟨h5, h6⟩ := h3 (by linarith)
        obtain ⟨h7, h8⟩ := h6 (by rw [EReal.coe_le_coe_iff]; linarith)
        exact ⟨by linarith, fun hl => ⟨hl.trans h7, h8⟩⟩
      · obtain ⟨z', hz', hl⟩ := h4 (z * 2) (by rw [hz]; push_cast; ring)
        refine ⟨z', hz', Or.inr ?_⟩
        rcases hl with hl | hl
        · exact ⟨z, by rw [hl, hz]⟩
        · exact hl
    · simp only [Option.some.injEq, Prod.mk.injEq] at h
      obtain ⟨rfl, rfl⟩ := h
      refine ⟨Or.inl rfl, ?_, fun _ => ⟨le_rfl, fun h => ⟨le_rfl, h⟩⟩, fun z hz => ⟨z, hz, Or.inl rfl⟩⟩
      by_cases h1 : upper ≤ (guess : EReal)
      · exact Or.inl h1
      · exact Or.inr (fun h2 => hc ⟨not_le.1 h1, h2⟩)

/-- Ends of the interval are integers in discrete mode. -/
def IntEnds (discrete : Bool) (lower upper : ℝ) : Prop :=
  discrete = true → ∃ l u : ℤ, lower = l ∧ upper = u

theorem mid_spec {lower upper : ℝ} (hI : IntEnds discrete lower upper) (hle : lower ≤ upper) :
    lower ≤ mid discrete lower upper ∧ mid discrete lower upper ≤ upper ∧
    IntEnds discrete lower (mid discrete lower upper) ∧ IntEnds discrete (mid discrete lower upper) upper := by
  cases discrete with
  | false =>
    simp only [mid, Bool.false_eq_true, if_false]
    exact ⟨by linarith, by linarith, by simp [IntEnds], by simp [IntEnds]⟩
  | true =>
    obtain ⟨l, u, rfl, rfl⟩ := hI rfl
    simp only [mid, if_true]
    refine ⟨?_, ?_, fun _ => ⟨l, _, rfl, rfl⟩, fun _ => ⟨_, u, rfl, rfl⟩⟩
    · have : l ≤ ⌊((u : ℝ) + l) / 2⌋ := by rw [Int.le_floor]; linarith
      exact_mod_cast this
    · have := Int.floor_le (((u : ℝ) + l) / 2)
      linarith

theorem searchLoop_spec (fuel : ℕ) {lower upper l' u' : ℝ}
    (h : searchLoop inc discrete func value tol fuel lower upper = some (l', u')) :
    (l' = lower ∨ check inc (func l') value) ∧ (u' = upper ∨ ¬ check inc (func u') value) ∧ u' - l' ≤ tol ∧
    (lower ≤ upper → IntEnds discrete lower upper → lower ≤ l' ∧ l' ≤ u' ∧ u' ≤ upper ∧ IntEnds discrete l' u') := by
  induction fuel generalizing lower upper with
  | zero =>
    unfold searchLoop at h
    split_ifs at h with hc
    · simp only [Option.some.injEq, Prod.mk.injEq] at h
      obtain ⟨rfl, rfl⟩ := h
      exact ⟨Or.inl rfl, Or.inl rfl, not_lt.1 hc, fun h hI => ⟨le_rfl, h, le_rfl, hI⟩⟩
  | succ fuel ih =>
    unfold searchLoop at h
    split_ifs at h with hc hk
    · simp only at h
      obtain ⟨h1, h2, h3, h4⟩ := ih h
      refine ⟨?_, h2, h3, fun hle hI => ?_⟩
      · rcases h1 with h1 | h1
        · exact Or.inr (h1 ▸ hk)
        · exact Or.inr h1
      · obtain ⟨m1, m2, m3, m4⟩ := mid_spec hI hle
        obtain ⟨a, b, c, d⟩ := h4 m2 m4
        exact ⟨m1.trans a, b, c, d⟩
    · simp only at h
      obtain ⟨h1, h2, h3, h4⟩ := ih h
      refine ⟨h1, ?_, h3, fun hle hI => ?_⟩
      · rcases h2 with h2 | h2
        · exact Or.inr (h2 ▸ hk)
        · exact Or.inr h2
      · obtain ⟨m1, m2, m3, m4⟩ := mid_spec hI hle
        obtain ⟨a, b, c, d⟩ := h4 m1 m3
        exact ⟨a, b, c.trans m2, d⟩
    · simp only [Option.some.injEq, Prod.mk.injEq] at h
      obtain ⟨rfl, rfl⟩ := h
      exact ⟨Or.inl rfl, Or.inl rfl, not_lt.1 hc, fun h hI => ⟨le_rfl, h, le_rfl, hI⟩⟩

theorem finish_found {fuel : ℕ} {p : SearchParams} {lower upper : EReal} {x : ℝ}
    (h : finish fuel inc func value p lower upper = .found x) :
    ∃ l u l' u' : ℝ, lower = l ∧ upper = u ∧
      searchLoop inc p.discrete func value (if p.discrete then 1 else p.tolerance) fuel l u = some (l', u') ∧
      x = (if inc then l' else u') := by
  unfold finish at h
  by_cases hc : lower = ⊥ ∨ lower = ⊤ ∨ upper = ⊥ ∨ upper = ⊤
  · rw [if_pos hc] at h; cases h
  rw [if_neg hc] at h
  push Not at hc
  obtain ⟨h1, h2, h3, h4⟩ := hc
  split at h
  · cases h
  · rename_i l' u' hs
    cases h
    exact ⟨_, _, l', u', (EReal.coe_toReal h2 h1).symm, (EReal.coe_toReal h4 h3).symm, hs, rfl⟩

/-- Everything the code guarantees about a found value, in one statement. -/
theorem inverse_spec {fuel : ℕ} {p : SearchParams} {x : ℝ} (h : inverse fuel func value p inc = .found x) :
    ¬ infeasible inc func value p ∧
    ∃ (l u l' u' : ℝ),
      (l = p.lowerBound ∨ check inc (func l) value) ∧
      (u = p.upperBound ∨ ¬ check inc (func u) value) ∧
      searchLoop inc p.discrete func value (if p.discrete then 1 else p.tolerance) fuel l u = some (l', u') ∧
      x = (if inc then l' else u') ∧
      (p.lowerBound ≤ p.upperBound → (∀ g, p.initialGuess = some g → 0 < g ∧ p.lowerBound ≤ g) →
        p.lowerBound ≤ l ∧ u ≤ p.upperBound ∧ l ≤ u) ∧
      ((∃ a b : ℤ, p.lowerBound = ((a : ℝ) : EReal) ∧ (p.upperBound = ((b : ℝ) : EReal) ∨ p.upperBound = ⊤)) →
        (∀ g, p.initialGuess = some g → ∃ z : ℤ, g = z) → ∃ a b : ℤ, l = a ∧ u = b) := by
  unfold inverse at h
  split_ifs at h with hinf
  refine ⟨hinf, ?_⟩
  cases hg : p.initialGuess with
  | none =>
    simp only [hg] at h
    obtain ⟨l, u, l', u', hl, hu, hs, hx⟩ := finish_found h
    refine ⟨l, u, l', u', Or.inl hl.symm, Or.inl hu.symm, hs, hx, fun hle _ => ?_, ?_⟩
    · refine ⟨hl.le, hu.ge, ?_⟩
      rw [hl, hu] at hle
      exact EReal.coe_le_coe_iff.1 hle
    · rintro ⟨a, b, ha, hb⟩ -
      refine ⟨a, b, ?_, ?_⟩
      · rw [hl] at ha; exact EReal.coe_eq_coe_iff.1 ha
      · rw [hu] at hb
        rcases hb with hb | hb
        · exact EReal.coe_eq_coe_iff.1 hb
        · exact absurd hb (EReal.coe_ne_top u)
  | some g =>
    simp only [hg] at h
    cases hgl : guessLoop inc func value p.upperBound fuel p.lowerBound g with
    | none => simp [hgl] at h
    | some q =>
      obtain ⟨lo, g'⟩ := q
      simp only [hgl] at h
      obtain ⟨h1, h2, h3, h4⟩ := guessLoop_spec fuel hgl
      obtain ⟨l, u, l', u', hl, hu, hs, hx⟩ := finish_found h
      refine ⟨l, u, l', u', ?_, ?_, hs, hx, fun hle hpos => ?_, ?_⟩
      · rcases h1 with h1 | ⟨r, hr, hc, -⟩
        · exact Or.inl (hl ▸ h1)
        · right
          rw [hl, EReal.coe_eq_coe_iff] at hr
          rwa [hr]
      · rcases h2 with h2 | h2
        · left; rw [← hu]; exact min_eq_left h2
        · rcases le_total p.upperBound (g' : EReal) with h5 | h5
          · left; rw [← hu]; exact min_eq_left h5
          · right
            rw [min_eq_right h5, EReal.coe_eq_coe_iff] at hu
            rwa [← hu]
      · obtain ⟨hg0, hlg⟩ := hpos g rfl
        obtain ⟨h5, h6⟩ := h3 hg0
        obtain ⟨h7, h8⟩ := h6 hlg
        refine ⟨hl ▸ h7, hu ▸ min_le_left _ _, ?_⟩
        rw [← EReal.coe_le_coe_iff, ← hu, ← hl]
        refine le_min ?_ h8
        rcases h1 with h1 | ⟨r, hr, -, hlt⟩
        · rw [h1]; exact hle
        · rw [hr]; exact hlt.le
      · rintro ⟨a, b, ha, hb⟩ hgi
        obtain ⟨z, hz⟩ := hgi g rfl
        obtain ⟨z', hz', hl'⟩ := h4 z hz
        have e1 : ∃ a : ℤ, l = a := by
          rcases hl' with hl' | ⟨w, hw⟩
          · rw [hl, ha, EReal.coe_eq_coe_iff] at hl'; exact ⟨a, hl'⟩
          · rw [hl, EReal.coe_eq_coe_iff] at hw; exact ⟨w, hw⟩
        have e2 : ∃ b : ℤ, u = b := by
          rcases min_choice p.upperBound (g' : EReal) with hm | hm
          · rw [hm] at hu
            rcases hb with hb | hb
            · rw [hb, EReal.coe_eq_coe_iff] at hu; exact ⟨b, hu.symm⟩
            · rw [hb] at hu; exact absurd hu.symm (EReal.coe_ne_top u)
          · rw [hm, EReal.coe_eq_coe_iff] at hu; exact ⟨z', by rw [← hu, hz']⟩
        obtain ⟨a', ha'⟩ := e1
        obtain ⟨b', hb'⟩ := e2
        exact ⟨a', b', ha', hb'⟩

theorem searchLoop_terminates_cont {func : ℝ → ℝ} (fuel : ℕ) {lower upper : ℝ}
    (hf : upper - lower ≤ tol * 2 ^ fuel) :
    ∃ r, searchLoop inc false func value tol fuel lower upper = some r := by
  induction fuel generalizing lower upper with
  | zero =>
    unfold searchLoop
    rw [if_neg (by simpa using hf)]
    exact ⟨_, rfl⟩
  | succ fuel ih =>
    unfold searchLoop
    rw [pow_succ] at hf
    split_ifs
    · exact ih (by simp only [mid, Bool.false_eq_true, if_false]; linarith)
    · exact ih (by simp only [mid, Bool.false_eq_true, if_false]; linarith)
    · exact ⟨_, rfl⟩

theorem searchLoop_terminates_disc {func : ℝ → ℝ} (fuel : ℕ) {lower upper : ℤ} (hf : upper - lower ≤ fuel + 1) :
    ∃ r, searchLoop inc true func value 1 fuel lower upper = some r := by
  induction fuel generalizing lower upper with
  | zero =>
    unfold searchLoop
    rw [if_neg (by rw [not_lt]; exact_mod_cast (by simpa using hf : upper - lower ≤ 1))]
    exact ⟨_, rfl⟩
  | succ fuel ih =>
    unfold searchLoop
    by_cases hc : (upper : ℝ) - lower > 1
    · have hc' : lower + 1 < upper := by
        have : (lower : ℝ) + 1 < upper := by linarith
        exact_mod_cast this
      rw [if_pos hc]
      have h1 : lower + 1 ≤ ⌊((upper : ℝ) + lower) / 2⌋ := by
        rw [Int.le_floor]
        have : ((lower + 2 : ℤ) : ℝ) ≤ upper := by exact_mod_cast (by omega)
        push_cast at this ⊢; linarith
      have h2 : ⌊((upper : ℝ) + lower) / 2⌋ + 1 ≤ upper := by
        have h3 : ⌊((upper : ℝ) + lower) / 2⌋ < upper := by
          rw [Int.floor_lt]; linarith
        omega
      push_cast at hf
      simp only
      split_ifs
      · exact ih (lower := ⌊((upper : ℝ) + lower) / 2⌋) (by omega)
      · exact ih (upper := ⌊((upper : ℝ) + lower) / 2⌋) (by omega)
    · rw [if_neg hc]; exact ⟨_, rfl⟩

theorem guessLoop_terminates {func : ℝ → ℝ} {upper : EReal} (fuel : ℕ) {lower : EReal} {guess : ℝ} (hg : 0 < guess)
    {B : ℝ} (hB : ∀ x, B ≤ x → upper ≤ x ∨ ¬ check inc (func x) value) (hf : B ≤ guess * 2 ^ fuel) :
    ∃ r, guessLoop inc func value upper fuel lower guess = some r := by
  induction fuel generalizing lower guess with
  | zero =>
    unfold guessLoop
    rw [if_neg (by
      rintro ⟨h1, h2⟩
      rcases hB guess (by simpa using hf) with h | h
      · exact absurd h1 (not_lt.2 h)
      · exact h h2)]
    exact ⟨_, rfl⟩
  | succ fuel ih =>
    unfold guessLoop
    split_ifs
    · exact ih (by linarith) (by rw [pow_succ] at hf; linarith)
    · exact ⟨_, rfl⟩

end Verif.InverseMonotone
