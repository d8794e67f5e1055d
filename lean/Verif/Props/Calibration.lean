import Verif.Proofs.Calibration

/-!
# C26: mechanism calibration
-/

namespace Verif.Props
open Verif Verif.Calibration

/-- The epsilon a fresh accountant reports at `delta` for the event built from parameter `x`: `e` is that event and `s` the
accountant after composing it. -/
def HasEpsilon {σ : Type} (A : Accountant σ) (fresh : AcctState σ) (getEps : AcctState σ → ℝ → Except Err EReal)
    (mk : ℝ → Except Err DpEvent) (delta x : ℝ) (eps : EReal) : Prop :=
  ∃ e s, mk x = .ok e ∧ A.compose (Accountant.ledger fresh).1 (.event e) (.int 1) = (s, .ok ()) ∧ getEps s delta = .ok eps

theorem epsilonGap_ok {σ : Type} {A : Accountant σ} {fresh : AcctState σ} {getEps : AcctState σ → ℝ → Except Err EReal}
    {mk : ℝ → Except Err DpEvent} {te td : ℝ} {discrete : Bool} {x : ℝ} {v : EReal}
    (h : epsilonGap A fresh getEps mk te td discrete x = .ok v) :
    ∃ eps, HasEpsilon A fresh getEps mk td (if discrete then (pyRound x : ℝ) else x) eps ∧ v = eps - (te : EReal) := by
  unfold epsilonGap at h
  cases hm : mk (if discrete then (pyRound x : ℝ) else x) with
  | error e => simp [hm] at h
  | ok e =>
    simp only [hm] at h
    split at h
    · split at h
      · simp at h
      · rename_i s hs
        split at h
        · simp at h
        · rename_i eps he
          cases h
          exact ⟨eps, ⟨e, s, hm, hs, he⟩, rfl⟩
    · simp at h

/-- **C26 (budget).** Whatever the accountant, the family of events, the bracket, the tolerance and the answers of the
external root finder: if `calibrate_dp_mechanism` returns `x`, the event made from `x` has epsilon at most the target. -/
theorem C26_calibrate_within_budget {σ : Type} (fuel : ℕ) (brentq) (A : Accountant σ) (fresh : AcctState σ)
    (getEps : AcctState σ → ℝ → Except Err EReal) (mk : ℝ → Except Err DpEvent) (targetEps targetDelta : ℝ) (bracket : Bracket)
    (discrete : Bool) (tol : Option ℝ) (x : ℝ)
    (h : calibrate fuel brentq A fresh getEps mk targetEps targetDelta bracket discrete tol = .ok x) :
    ∃ eps : EReal, HasEpsilon A fresh getEps mk targetDelta x eps ∧ eps ≤ targetEps := by
  unfold calibrate at h
  split_ifs at h
  cases ht : effTol discrete tol with
  | error e => simp [ht] at h
  | ok t =>
    simp only [ht] at h
    obtain ⟨r, hx, ⟨v, hv, hv0⟩, -⟩ := search_spec h
    obtain ⟨eps, he, rfl⟩ := epsilonGap_ok hv
    exact ⟨eps, hx ▸ he, EReal.sub_nonpos.1 hv0⟩

/-- **C26 (closeness).** If the root finder keeps its promise, the returned `x` is within the tolerance of a parameter value
whose epsilon is at least the target (within `tol + 1`, as integers, for discrete parameters). -/
theorem C26_calibrate_near_boundary {σ : Type} (fuel : ℕ) (brentq) (hB : BrentqNear brentq) (A : Accountant σ)
    (fresh : AcctState σ) (getEps : AcctState σ → ℝ → Except Err EReal) (mk : ℝ → Except Err DpEvent)
    (targetEps targetDelta : ℝ) (bracket : Bracket) (hbr : bracket.Ordered)
    (discrete : Bool) (tol : Option ℝ) (x : ℝ)
    (h : calibrate fuel brentq A fresh getEps mk targetEps targetDelta bracket discrete tol = .ok x) :
    ∃ t, effTol discrete tol = .ok t ∧ ∃ (y : ℝ) (eps : EReal), HasEpsilon A fresh getEps mk targetDelta y eps ∧
      targetEps ≤ eps ∧ |y - x| ≤ t + (if discrete then 1 else 0) := by
  unfold calibrate at h
  split_ifs at h
  cases ht : effTol discrete tol with
  | error e => simp [ht] at h
  | ok t =>
    have ht0 : 0 ≤ t := by
      unfold effTol at ht
      cases tol with
      | none => cases discrete <;> simp only [Except.ok.injEq] at ht <;> rw [← ht] <;> norm_num
      | some u =>
        cases discrete
        · simp only [Bool.false_eq_true, if_false] at ht
          split_ifs at ht with hu
          cases ht; exact (not_le.1 hu).le
        · simp only [if_true] at ht
          cases ht; exact le_max_of_le_right zero_le_one
    simp only [ht] at h
    obtain ⟨r, hx, -, hnear⟩ := search_spec h
    obtain ⟨y, w, hw, hw0, hyr⟩ := hnear ht0 hbr hB
    obtain ⟨eps, he, rfl⟩ := epsilonGap_ok hw
    refine ⟨t, rfl, _, eps, he, ?_, ?_⟩
    · rwa [EReal.sub_nonneg (by simp) (by simp)] at hw0
    · cases discrete
      · simp only [Bool.false_eq_true, if_false] at hx ⊢
        rw [hx]; simpa using hyr
      · simp only [if_true] at hx ⊢
        rw [hx]
        have h1 := abs_pyRound_sub y
        have h2 := abs_pyRound_sub r
        rw [abs_le] at *
        constructor <;> linarith [h1.1, h1.2, h2.1, h2.2, hyr.1, hyr.2]

/-- **C26 (optimality).** For a continuous parameter in which epsilon is nondecreasing, no parameter value better by more than
the tolerance is strictly within the budget (symmetrically for nonincreasing epsilon). -/
theorem C26_calibrate_optimal {σ : Type} (fuel : ℕ) (brentq) (hB : BrentqNear brentq) (A : Accountant σ)
    (fresh : AcctState σ) (getEps : AcctState σ → ℝ → Except Err EReal) (mk : ℝ → Except Err DpEvent)
    (targetEps targetDelta : ℝ) (bracket : Bracket) (hbr : bracket.Ordered) (tol x : ℝ)
    (h : calibrate fuel brentq A fresh getEps mk targetEps targetDelta bracket false (some tol) = .ok x)
    (x' : ℝ) (eps' : EReal) (hx' : HasEpsilon A fresh getEps mk targetDelta x' eps') (hlt : eps' < targetEps) :
    ((∀ a b ea eb, a ≤ b → HasEpsilon A fresh getEps mk targetDelta a ea →
        HasEpsilon A fresh getEps mk targetDelta b eb → ea ≤ eb) → x' ≤ x + tol) ∧
    ((∀ a b ea eb, a ≤ b → HasEpsilon A fresh getEps mk targetDelta a ea →
        HasEpsilon A fresh getEps mk targetDelta b eb → eb ≤ ea) → x - tol ≤ x') := by
  obtain ⟨t, ht, y, eps, he, hge, hd⟩ :=
    C26_calibrate_near_boundary fuel brentq hB A fresh getEps mk targetEps targetDelta bracket hbr false _ x h
  have : t = tol := by
    unfold effTol at ht
    simp only [Bool.false_eq_true, if_false] at ht
    split_ifs at ht
    exact (Except.ok.inj ht).symm
  subst this
  simp only [Bool.false_eq_true, if_false, add_zero] at hd
  rw [abs_le] at hd
  constructor
  · intro hmono
    by_contra hcon
    have := hmono y x' eps eps' (by linarith [hd.2]) he hx'
    exact absurd (hge.trans this) (not_le.2 hlt)
  · intro hanti
    by_contra hcon
    have := hanti x' y eps' eps (by linarith [hd.1]) hx' he
    exact absurd (hge.trans this) (not_le.2 hlt)

/-- A concrete run (a run of `calibrate` with the Renyi accountant is in `Props/CalibrationEndToEnd`): one-parameter family on which the root finder does not converge, so bisection answers. -/
example : ∃ x, search 3 (fun _ a _ _ => .ok (a, false)) (fun x => .ok ((x - 1 / 3 : ℝ) : EReal)) .none false (1 / 2)
    = .ok x ∧ x = 0 := by
  refine ⟨0, ?_, rfl⟩
  have h1 : (((0 : ℝ) - 1 / 3 : ℝ) : EReal) ≠ 0 := by rw [← EReal.coe_zero, Ne, EReal.coe_eq_coe_iff]; norm_num
  have h2 : (((1 : ℝ) - 1 / 3 : ℝ) : EReal) ≠ 0 := by rw [← EReal.coe_zero, Ne, EReal.coe_eq_coe_iff]; norm_num
  have h5 : ((((0 : ℝ) + 1) / 2 - 1 / 3 : ℝ) : EReal) ≠ 0 := by rw [← EReal.coe_zero, Ne, EReal.coe_eq_coe_iff]; norm_num
  have h3 : ¬ (((0 : ℝ) - 1 / 3 : ℝ) : EReal) * (((1 : ℝ) - 1 / 3 : ℝ) : EReal) > 0 := by
    rw [← EReal.coe_mul, gt_iff_lt, EReal.coe_pos]; norm_num
  have h4 : ¬ (((0 : ℝ) - 1 / 3 : ℝ) : EReal) * ((((0 : ℝ) + 1) / 2 - 1 / 3 : ℝ) : EReal) > 0 := by
    rw [← EReal.coe_mul, gt_iff_lt, EReal.coe_pos]; norm_num
  have h6 : (((0 : ℝ) - 1 / 3 : ℝ) : EReal) * ((((0 : ℝ) + 1) / 2 - 1 / 3 : ℝ) : EReal) < 0 := by
    rw [← EReal.coe_mul, EReal.coe_neg']; norm_num
  have h7 : (((0 : ℝ) - 1 / 3 : ℝ) : EReal) < 0 := by rw [EReal.coe_neg']; norm_num
  have h8 : ¬ ((1 : ℝ) - 0 ≤ 1 / 2) := by norm_num
  have h9 : ((0 : ℝ) + 1) / 2 - 0 ≤ 1 / 2 := by norm_num
  have hs : resolveBracket (fun x => .ok ((x - 1 / 3 : ℝ) : EReal)) .none = .ok (0, 1) := by
    unfold resolveBracket searchBracket bracketLoop
    rw [if_neg (by norm_num)]
    simp only
    rw [if_neg h3]
  have hb : bisect 3 (fun x => .ok ((x - 1 / 3 : ℝ) : EReal)) 0 1 (1 / 2) = .ok 0 := by
    simp only [bisect]
    unfold bisectLoop
    rw [if_neg h1, if_neg h2, if_neg h3, if_neg h8]
    simp only
    rw [if_neg h5, if_pos h6]
    unfold bisectLoop
    rw [if_neg h1, if_neg h5, if_neg h4, if_pos h9, if_pos h7]
  simp only [search, hs, acceptRoot, hb, Bool.not_false, if_true, Bool.false_eq_true, if_false]

/-- **C26 (bracket search).** The search returns an interval at whose ends the values do not have the same strict sign, not
below the given lower end. -/
theorem C26_bracket_search_sound (lower guess : ℝ) (f : ℝ → Except CalErr EReal) (a b : ℝ)
    (h : searchBracket lower guess f = .ok (a, b)) :
    lower ≤ a ∧ a < b ∧ ∃ va vb, f a = .ok va ∧ f b = .ok vb ∧ (va ≤ 0 ∧ 0 ≤ vb ∨ 0 ≤ va ∧ vb ≤ 0) := by
  obtain ⟨-, h1, h2, va, vb, h3, h4, h5⟩ := searchBracket_ok h
  refine ⟨h1, h2, va, vb, h3, h4, ?_⟩
  have := not_lt.1 h5
  rcases EReal.mul_nonpos_iff.1 this with h | h
  · exact Or.inr h
  · exact Or.inl h

/-- A bracket is found for a function with a zero at 5, starting from the guess 1: the interval from 3 to 7. -/
example : Calibration.searchBracket 0 1 (fun x => .ok ((x - 5 : ℝ) : EReal)) = .ok (3, 7) := by
  have pos : ∀ {a b : ℝ}, 0 < a * b → ((a : ℝ) : EReal) * ((b : ℝ) : EReal) > 0 := fun h => by
    rw [← EReal.coe_mul, gt_iff_lt, EReal.coe_pos]; exact h
  unfold Calibration.searchBracket
  rw [if_neg (by norm_num)]
  simp only
  unfold Calibration.bracketLoop
  rw [if_pos (pos (by norm_num))]
  simp only
  unfold Calibration.bracketLoop
  rw [if_pos (pos (by norm_num))]
  simp only
  unfold Calibration.bracketLoop
  rw [if_neg (by rw [← EReal.coe_mul, gt_iff_lt, EReal.coe_pos]; norm_num)]
  norm_num
/-- **C26 (bracket search, completeness).** It gives up only if the function has the same strict sign at all points
`lower + gap (2^k - 1)`, `k = 0..31`: the search covers `[lower, lower + (2^31 - 1) gap]`. -/
theorem C26_bracket_search_complete (lower guess : ℝ) (f : ℝ → Except CalErr EReal)
    (hf : ∀ x, f x ≠ .error .noBracketIntervalFound)
    (h : searchBracket lower guess f = .error .noBracketIntervalFound) :
    (∀ k ≤ 31, ∃ v, f (lower + (guess - lower) * (2 ^ k - 1)) = .ok v ∧ 0 < v) ∨
    (∀ k ≤ 31, ∃ v, f (lower + (guess - lower) * (2 ^ k - 1)) = .ok v ∧ v < 0) := by
  unfold searchBracket at h
  split_ifs at h with h1
  · simp at h
  cases hl : f lower with
  | error e => simp only [hl] at h; cases h; exact absurd hl (hf _)
  | ok lv =>
    cases hu : f guess with
    | error e => simp only [hl, hu] at h; cases h; exact absurd hu (hf _)
    | ok uv =>
      simp only [hl, hu] at h
      rcases (bracketLoop_spec (gap := guess - lower) 30 (by linarith [not_le.1 h1]) (by ring) hl hu).2 h with h2 | ⟨x, hx⟩
      · obtain ⟨v0, hv0, -, -, hne⟩ := h2 0 (by norm_num)
        have hlv : lv = v0 := by
          have : f lower = .ok v0 := by simpa using hv0
          rw [hl] at this; exact Except.ok.inj this
        rcases lt_or_gt_of_ne (hlv ▸ hne) with hneg | hpos
        · right; intro k hk
          obtain ⟨v, hv, -, h3, -⟩ := h2 k (by omega)
          exact ⟨v, hv, h3 hneg⟩
        · left; intro k hk
          obtain ⟨v, hv, h3, -, -⟩ := h2 k (by omega)
          exact ⟨v, hv, h3 hpos⟩
      · exact absurd hx (hf x)

/-- **C26 (termination).** With a positive tolerance the fallback bisection ends, on every function. -/
theorem C26_bisect_terminates (f : ℝ → Except CalErr EReal) (hf : ∀ x, f x ≠ .error .outOfFuel)
    (lower upper tol : ℝ) (htol : 0 < tol) :
    ∃ fuel, ∀ fuel' ≥ fuel, bisect fuel' f lower upper tol ≠ .error .outOfFuel := by
  obtain ⟨n, hn⟩ := pow_unbounded_of_one_lt ((upper - lower) / tol) (one_lt_two)
  refine ⟨n, fun n' hn' => ?_⟩
  unfold bisect
  cases hl : f lower with
  | error e =>
    simp only
    intro he; cases he; exact hf _ hl
  | ok lv =>
    cases hu : f upper with
    | error e =>
      simp only
      intro he; cases he; exact hf _ hu
    | ok uv =>
      refine bisectLoop_terminates hf n' ?_
      rw [div_lt_iff₀ htol] at hn
      have : (2 : ℝ) ^ n ≤ 2 ^ n' := pow_le_pow_right₀ one_le_two hn'
      nlinarith

/-- **C26 (bisection).** A returned point has non-positive value, and lies within the tolerance of a point of non-negative
value. -/
theorem C26_bisect_sound (fuel : ℕ) (f : ℝ → Except CalErr EReal) (lower upper tol x : ℝ)
    (h : bisect fuel f lower upper tol = .ok x) :
    (∃ v, f x = .ok v ∧ v ≤ 0) ∧
    (0 ≤ tol → lower ≤ upper → ∃ y w, f y = .ok w ∧ 0 ≤ w ∧ |y - x| ≤ tol) :=
  bisect_spec h

/-- **C26, disagreement.** For discrete parameters the documented "within tol (0.5) of the optimum" fails: with bracket
`[0.5, 1.5]` and non-converging root finder the search returns `0` although `1` is within the budget (the values at the ends
are those of `round(0.5) = 0` and `round(1.5) = 2`). -/
theorem C26_discrete_not_optimal :
    let gap : ℝ → EReal := fun x => ((pyRound x - 1 : ℝ) : EReal)
    search 0 (fun _ a _ _ => .ok (a, false)) (fun x => .ok (gap x)) (.explicit (1 / 2) (3 / 2)) true 1 = .ok 0 ∧
    gap 1 ≤ 0 := by
  intro gap
  have r1 : pyRound (1 / 2) = 0 := by
    have hf : ⌊(1 / 2 : ℝ)⌋ = 0 := by rw [Int.floor_eq_iff]; norm_num
    have hfr : Int.fract (1 / 2 : ℝ) = 1 / 2 := by rw [← Int.self_sub_floor, hf]; norm_num
    unfold pyRound; rw [hfr, hf]; norm_num
  have r2 : pyRound (3 / 2) = 2 := by
    have hf : ⌊(3 / 2 : ℝ)⌋ = 1 := by rw [Int.floor_eq_iff]; norm_num
    have hfr : Int.fract (3 / 2 : ℝ) = 1 / 2 := by rw [← Int.self_sub_floor, hf]; norm_num
    unfold pyRound; rw [hfr, hf]; norm_num
  have r3 : pyRound 1 = 1 := by have := pyRound_intCast 1; simpa using this
  have g1 : gap (1 / 2) = ((-1 : ℝ) : EReal) := by simp only [gap, r1]; norm_num
  have g2 : gap (3 / 2) = ((1 : ℝ) : EReal) := by simp only [gap, r2]; norm_num
  constructor
  · have hb : bisect 0 (fun x => .ok (gap x)) (1 / 2) (3 / 2) 1 = .ok (1 / 2) := by
      simp only [bisect]
      unfold bisectLoop
      rw [g1, g2, if_neg (by rw [← EReal.coe_zero, EReal.coe_eq_coe_iff]; norm_num),
        if_neg (by rw [← EReal.coe_zero, EReal.coe_eq_coe_iff]; norm_num),
        if_neg (by rw [← EReal.coe_mul, gt_iff_lt, EReal.coe_pos]; norm_num), if_pos (by norm_num),
        if_pos (by rw [EReal.coe_neg']; norm_num)]
    simp only [search, resolveBracket, acceptRoot, hb, Bool.not_false, if_true, r1, Int.cast_zero]
  · simp only [gap, r3]; rw [← EReal.coe_zero, EReal.coe_le_coe_iff]; norm_num

end Verif.Props
