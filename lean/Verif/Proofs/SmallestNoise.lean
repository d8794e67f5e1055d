import Verif.Model.SmallestNoise
import Verif.Spec.SmallestNoise
import Verif.Props.InverseMonotone
import Verif.Proofs.PldEndToEnd

/-! # Helper lemmas for the searches for the smallest noise -/

namespace Verif.SmallestNoise
open Verif InverseMonotone

section
variable {inc discrete : Bool} {func : ℝ → Except Err ℝ} {f : ℝ → ℝ} {value tol : ℝ}

lemma guessLoopE_ok (hf : ∀ x v, func x = .ok v → f x = v) {upper : EReal} (fuel : ℕ) {lower : EReal} {guess : ℝ}
    {r : Option (EReal × ℝ)} (h : guessLoopE inc func value upper fuel lower guess = .ok r) :
    guessLoop inc f value upper fuel lower guess = r := by
  induction fuel generalizing lower guess with
  | zero =>
    unfold guessLoopE at h
    unfold guessLoop
    by_cases hu : (guess : EReal) < upper
    · rw [if_pos hu] at h
      cases hv : func guess with
      | error e => rw [hv] at h; cases h
      | ok v =>
        rw [hv] at h
        rw [hf _ _ hv]
        simp only at h
        by_cases hc : check inc v value
        · rw [if_pos hc] at h; rw [if_pos ⟨hu, hc⟩]; exact Except.ok.inj h
        · rw [if_neg hc] at h; rw [if_neg fun k => hc k.2]; exact Except.ok.inj h
    · rw [if_neg hu] at h; rw [if_neg fun k => hu k.1]; exact Except.ok.inj h
  | succ fuel ih =>
    unfold guessLoopE at h
    unfold guessLoop
    by_cases hu : (guess : EReal) < upper
    · rw [if_pos hu] at h
      cases hv : func guess with
      | error e => rw [hv] at h; cases h
      | ok v =>
        rw [hv] at h
        rw [hf _ _ hv]
        simp only at h
        by_cases hc : check inc v value
        · rw [if_pos hc] at h; rw [if_pos ⟨hu, hc⟩]; exact ih h
        · rw [if_neg hc] at h; rw [if_neg fun k => hc k.2]; exact Except.ok.inj h
    · rw [if_neg hu] at h; rw [if_neg fun k => hu k.1]; exact Except.ok.inj h

lemma searchLoopE_ok (hf : ∀ x v, func x = .ok v → f x = v) (fuel : ℕ) {lower upper : ℝ}
    {r : Option (ℝ × ℝ)} (h : searchLoopE inc discrete func value tol fuel lower upper = .ok r) :
    searchLoop inc discrete f value tol fuel lower upper = r := by
  induction fuel generalizing lower upper with
  | zero =>
    unfold searchLoopE at h
    unfold searchLoop
    split_ifs at h ⊢ <;> exact Except.ok.inj h
  | succ fuel ih =>
    unfold searchLoopE at h
    unfold searchLoop
    by_cases hu : upper - lower > tol
    · rw [if_pos hu] at h ⊢
      simp only at h ⊢
      cases hv : func (mid discrete lower upper) with
      | error e => rw [hv] at h; cases h
      | ok v =>
        rw [hv] at h
        rw [hf _ _ hv]
        simp only at h
        split_ifs at h ⊢
        · exact ih h
        · exact ih h
    · rw [if_neg hu] at h ⊢; exact Except.ok.inj h

lemma finishE_ok (hf : ∀ x v, func x = .ok v → f x = v) {fuel : ℕ} {p : SearchParams} {lower upper : EReal} {r : InvRes}
    (h : finishE fuel inc func value p lower upper = .ok r) : finish fuel inc f value p lower upper = r := by
  unfold finishE at h
  unfold finish
  by_cases hc : lower = ⊥ ∨ lower = ⊤ ∨ upper = ⊥ ∨ upper = ⊤
  · rw [if_pos hc] at h ⊢; exact Except.ok.inj h
  · rw [if_neg hc] at h ⊢
    cases hs : searchLoopE inc p.discrete func value (if p.discrete then 1 else p.tolerance) fuel lower.toReal upper.toReal with
    | error e => rw [hs] at h; cases h
    | ok r' =>
      rw [hs] at h
      rw [searchLoopE_ok hf _ hs]
      cases r' with
      | none => exact Except.ok.inj h
      | some x => exact Except.ok.inj h

lemma infeasibleE_ok (hf : ∀ x v, func x = .ok v → f x = v) {p : SearchParams} {b : Bool} (h : infeasibleE inc func value p = .ok b) :
    infeasible inc f value p ↔ b = true := by
  unfold infeasibleE at h
  have e : infeasible inc f value p ↔ ∃ x : ℝ, (if inc then p.lowerBound else p.upperBound) = (x : EReal) ∧ f x > value := by
    unfold infeasible; cases inc <;> simp
  rw [e]
  generalize (if inc then p.lowerBound else p.upperBound) = y at h ⊢
  cases y using EReal.rec with
  | bot => change Except.ok false = _ at h; cases h; simp
  | top => change Except.ok false = _ at h; cases h; simp
  | coe x =>
    change (func x).map (fun v => decide (v > value)) = _ at h
    cases hv : func x with
    | error e => rw [hv] at h; cases h
    | ok v =>
      rw [hv] at h
      cases h
      rw [decide_eq_true_eq]
      constructor
      · rintro ⟨x', hx', hg⟩
        rw [EReal.coe_eq_coe_iff] at hx'
        subst hx'
        rwa [hf _ _ hv] at hg
      · intro hg
        exact ⟨x, rfl, by rwa [hf _ _ hv]⟩

/-- A search that does not raise is the search for any function that agrees with the given one where the latter does not raise. -/
lemma inverseE_ok (hf : ∀ x v, func x = .ok v → f x = v) {fuel : ℕ} {p : SearchParams} {r : InvRes}
    (h : inverseE fuel func value p inc = .ok r) : inverse fuel f value p inc = r := by
  unfold inverseE at h
  unfold inverse
  cases hi : infeasibleE inc func value p with
  | error e => rw [hi] at h; cases h
  | ok b =>
    rw [hi] at h
    have hb := infeasibleE_ok hf hi
    cases b with
    | true => rw [if_pos (hb.2 rfl)]; exact Except.ok.inj h
    | false =>
      rw [if_neg (fun k => by simpa using hb.1 k)]
      simp only at h
      cases hg : p.initialGuess with
      | none => rw [hg] at h; exact finishE_ok hf h
      | some g =>
        rw [hg] at h
        simp only at h ⊢
        cases hl : guessLoopE inc func value p.upperBound fuel p.lowerBound g with
        | error e => rw [hl] at h; cases h
        | ok r' =>
          rw [hl] at h
          rw [guessLoopE_ok hf _ hl]
          cases r' with
          | none => exact Except.ok.inj h
          | some x => exact finishE_ok hf h

/-- The extension of a function that may raise by a value that is not feasible. -/
noncomputable def extend (func : ℝ → Except Err ℝ) (value : ℝ) (x : ℝ) : ℝ :=
  match func x with
  | .ok v => v
  | .error _ => value + 1

lemma extend_ok (func : ℝ → Except Err ℝ) (value x v : ℝ) (h : func x = .ok v) : extend func value x = v := by
  unfold extend; rw [h]

lemma extend_le {x : ℝ} (h : extend func value x ≤ value) : ∃ v, func x = .ok v ∧ v ≤ value := by
  unfold extend at h
  cases hv : func x with
  | error e => rw [hv] at h; simp only at h; linarith
  | ok v => rw [hv] at h; exact ⟨v, rfl, h⟩

/-- A value that is found is feasible, and the function did not raise there. -/
lemma inverseE_feasible {fuel : ℕ} {p : SearchParams} {x : ℝ} (h : inverseE fuel func value p inc = .ok (.found x)) :
    ∃ v, func x = .ok v ∧ v ≤ value :=
  extend_le (Props.C25_found_feasible fuel _ value p inc x (inverseE_ok (extend_ok func value) h))

/-- The extension of a function that may raise by a feasible value. -/
noncomputable def extendLow (func : ℝ → Except Err ℝ) (value : ℝ) (x : ℝ) : ℝ :=
  match func x with
  | .ok v => v
  | .error _ => value

lemma extendLow_ok (func : ℝ → Except Err ℝ) (value x v : ℝ) (h : func x = .ok v) : extendLow func value x = v := by
  unfold extendLow; rw [h]

lemma lt_extendLow {x : ℝ} (h : value < extendLow func value x) : ∃ v, func x = .ok v ∧ value < v := by
  unfold extendLow at h
  cases hv : func x with
  | error e => rw [hv] at h; simp at h
  | ok v => rw [hv] at h; exact ⟨v, rfl, h⟩

/-- Below the value that a decreasing search finds, and within the tolerance, there is the lower end or an infeasible point. -/
lemma inverseE_boundary {fuel : ℕ} {p : SearchParams} {x : ℝ} (hp : Props.GoodParams p) (hd : p.discrete = false)
    (h : inverseE fuel func value p false = .ok (.found x)) :
    ∃ y : ℝ, Props.InRange p y ∧ y ≤ x ∧ x - p.tolerance ≤ y ∧ ((y : EReal) = p.lowerBound ∨ ∃ v, func y = .ok v ∧ value < v) := by
  obtain ⟨hinf, l, u, l', u', hl, hu, hs, rfl, h1, -⟩ := inverse_spec (inverseE_ok (extendLow_ok func value) h)
  obtain ⟨a, b, c⟩ := h1 hp.nonempty hp.guess
  have hI : IntEnds p.discrete l u := fun hd' => by rw [hd] at hd'; cases hd'
  obtain ⟨s1, s2, s3, s4⟩ := searchLoop_spec fuel hs
  obtain ⟨r1, r2, r3, -⟩ := s4 c hI
  rw [hd] at s3
  simp only [Bool.false_eq_true, if_false] at s3 ⊢
  refine ⟨l', ⟨a.trans (EReal.coe_le_coe_iff.2 r1), (EReal.coe_le_coe_iff.2 (r2.trans r3)).trans b⟩, r2, by linarith, ?_⟩
  rcases s1 with rfl | s1
  · rcases hl with hl | hl
    · exact Or.inl hl
    · exact Or.inr (lt_extendLow (by simpa [check] using hl))
  · exact Or.inr (lt_extendLow (by simpa [check] using s1))

lemma inverseE_range {fuel : ℕ} {p : SearchParams} {x : ℝ} (hp : Props.GoodParams p) (hd : p.discrete = false)
    (h : inverseE fuel func value p inc = .ok (.found x)) : Props.InRange p x :=
  (Props.C25_found_in_range fuel _ value p inc x hp (fun k => by rw [hd] at k; cases k) (inverseE_ok (extendLow_ok func value) h)).1

lemma inverseE_none {fuel : ℕ} {p : SearchParams} (h : inverseE fuel func value p false = .ok .notFound) :
    ∃ u : ℝ, p.upperBound = u ∧ ∃ v, func u = .ok v ∧ value < v := by
  have := (Props.C25_none_iff fuel _ value p false).1 (inverseE_ok (extendLow_ok func value) h)
  simp only [Bool.false_eq_true, if_false] at this
  obtain ⟨u, hu, hv⟩ := this
  exact ⟨u, hu, lt_extendLow hv⟩

/-! ### A search on positive numbers where the function does not raise -/

lemma guessLoopE_total (hf : ∀ x, 0 < x → func x = .ok (f x)) {upper : EReal} (fuel : ℕ) {lower : EReal} {guess : ℝ} (hg : 0 < guess) :
    guessLoopE inc func value upper fuel lower guess = .ok (guessLoop inc f value upper fuel lower guess) := by
  induction fuel generalizing lower guess with
  | zero =>
    unfold guessLoopE guessLoop
    rw [hf _ hg]
    simp only
    by_cases hu : (guess : EReal) < upper <;> by_cases hc : check inc (f guess) value <;> simp [hu, hc]
  | succ fuel ih =>
    unfold guessLoopE guessLoop
    rw [hf _ hg]
    simp only
    by_cases hu : (guess : EReal) < upper <;> by_cases hc : check inc (f guess) value <;> simp [hu, hc]
    exact ih (by linarith)

lemma searchLoopE_total (hf : ∀ x, 0 < x → func x = .ok (f x)) (fuel : ℕ) {lower upper : ℝ} (hl : 0 ≤ lower) (hu : 0 < upper) :
    searchLoopE inc false func value tol fuel lower upper = .ok (searchLoop inc false f value tol fuel lower upper) := by
  induction fuel generalizing lower upper with
  | zero =>
    unfold searchLoopE searchLoop
    split_ifs <;> rfl
  | succ fuel ih =>
    unfold searchLoopE searchLoop
    have hm : 0 < mid false lower upper := by simp only [mid, Bool.false_eq_true, if_false]; linarith
    rw [hf _ hm]
    simp only
    split_ifs
    · exact ih hm.le hu
    · exact ih hl hm
    · rfl

lemma guessLoop_pos {upper : EReal} (fuel : ℕ) {lower : EReal} {guess : ℝ} (hg : 0 < guess) (hl : 0 ≤ lower) {l' : EReal} {g' : ℝ}
    (h : guessLoop inc f value upper fuel lower guess = some (l', g')) : 0 ≤ l' ∧ 0 < g' := by
  induction fuel generalizing lower guess with
  | zero =>
    unfold guessLoop at h
    split_ifs at h with hc
    cases h; exact ⟨hl, hg⟩
  | succ fuel ih =>
    unfold guessLoop at h
    split_ifs at h with hc
    · exact ih (by linarith) (EReal.coe_nonneg.2 hg.le) h
    · cases h; exact ⟨hl, hg⟩

lemma finishE_total (hf : ∀ x, 0 < x → func x = .ok (f x)) {fuel : ℕ} {p : SearchParams} (hd : p.discrete = false) {lower upper : EReal}
    (hl : 0 ≤ lower) (hu : 0 < upper) :
    finishE fuel inc func value p lower upper = .ok (finish fuel inc f value p lower upper) := by
  unfold finishE finish
  by_cases hc : lower = ⊥ ∨ lower = ⊤ ∨ upper = ⊥ ∨ upper = ⊤
  · rw [if_pos hc, if_pos hc]
  · rw [if_neg hc, if_neg hc]
    push Not at hc
    have h1 : 0 ≤ lower.toReal := EReal.toReal_nonneg hl
    have h2 : 0 < upper.toReal := EReal.toReal_pos hu hc.2.2.2
    rw [hd, searchLoopE_total hf fuel h1 h2]
    cases searchLoop inc false f value (if false = true then 1 else p.tolerance) fuel lower.toReal upper.toReal with
    | none => rfl
    | some x => rfl

lemma inverseE_total (hf : ∀ x, 0 < x → func x = .ok (f x)) {fuel : ℕ} {p : SearchParams} (hd : p.discrete = false)
    (hl : p.lowerBound = 0) (hu : 0 < p.upperBound) (hg : ∀ g, p.initialGuess = some g → 0 < g) :
    inverseE fuel func value p false = .ok (inverse fuel f value p false) := by
  unfold inverseE inverse
  have key : infeasibleE false func value p = .ok (open Classical in decide (infeasible false f value p)) := by
    unfold infeasibleE infeasible
    simp only [Bool.false_eq_true, if_false]
    cases h : p.upperBound using EReal.rec with
    | bot => rw [h] at hu; simp at hu
    | top =>
      change Except.ok false = _
      simp
    | coe x =>
      rw [h] at hu
      change (func x).map (fun v => decide (v > value)) = _
      rw [hf x (by exact_mod_cast hu)]
      simp [Except.map]
  rw [key]
  by_cases hi : infeasible false f value p
  · simp [hi]
  · simp only [hi, decide_false, if_false]
    cases h : p.initialGuess with
    | none => exact finishE_total hf hd hl.ge hu
    | some g =>
      simp only
      rw [guessLoopE_total hf fuel (hg g h)]
      cases h' : guessLoop false f value p.upperBound fuel p.lowerBound g with
      | none => rfl
      | some x =>
        obtain ⟨l', g'⟩ := x
        obtain ⟨k1, k2⟩ := guessLoop_pos fuel (hg g h) hl.ge h'
        exact finishE_total hf hd k1 (lt_min hu (by exact_mod_cast k2))

end

end Verif.SmallestNoise
