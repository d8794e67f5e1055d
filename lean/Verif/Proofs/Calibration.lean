import Verif.Model.Calibration
import Mathlib.Analysis.SpecificLimits.Basic
import Mathlib.Tactic.IntervalCases

/-! Helper lemmas about calibration. -/

namespace Verif

theorem pyRound_intCast (z : ℤ) : pyRound (z : ℝ) = z := by
  simp [pyRound]

theorem abs_pyRound_sub (x : ℝ) : |(pyRound x : ℝ) - x| ≤ 1 / 2 := by
  have h1 := Int.floor_add_fract x
  have h2 := Int.fract_nonneg x
  have h3 := Int.fract_lt_one x
  unfold pyRound
  rw [abs_le]
  split_ifs <;> push_cast <;> constructor <;> linarith

namespace Calibration

/-- `lv`, `uv` both nonzero and not of the same sign: exactly one is negative. -/
theorem signs {lv uv : EReal} (h1 : lv ≠ 0) (h2 : uv ≠ 0) (h : ¬ lv * uv > 0) :
    (lv < 0 ∧ 0 < uv) ∨ (0 < lv ∧ uv < 0) := by
  rcases lt_or_gt_of_ne h1 with a | a <;> rcases lt_or_gt_of_ne h2 with b | b
  · exact absurd (EReal.mul_pos_iff.2 (Or.inr ⟨a, b⟩)) h
  · exact Or.inl ⟨a, b⟩
  · exact Or.inr ⟨a, b⟩
  · exact absurd (EReal.mul_pos_iff.2 (Or.inl ⟨a, b⟩)) h

theorem bisectLoop_spec {f : ℝ → Except CalErr EReal} {tol : ℝ} (fuel : ℕ) {lower upper : ℝ} {lv uv : EReal}
    (hl : f lower = .ok lv) (hu : f upper = .ok uv) {x : ℝ}
    (h : bisectLoop f tol fuel lower upper lv uv = .ok x) :
    (∃ v, f x = .ok v ∧ v ≤ 0) ∧
    (0 ≤ tol → lower ≤ upper → ∃ y w, f y = .ok w ∧ 0 ≤ w ∧ |y - x| ≤ tol ∧ lower ≤ y ∧ y ≤ upper) ∧
    (lower ≤ upper → lower ≤ x ∧ x ≤ upper) := by
  induction fuel generalizing lower upper lv uv with
  | zero =>
    unfold bisectLoop at h
    split_ifs at h with h1 h2 h3 h4 h5
    · cases h; exact ⟨⟨lv, hl, h1.le⟩, fun ht hlu => ⟨_, lv, hl, h1.ge, by simpa using ht, le_rfl, hlu⟩,
        fun hlu => ⟨le_rfl, hlu⟩⟩
    · cases h; exact ⟨⟨uv, hu, h2.le⟩, fun ht hlu => ⟨_, uv, hu, h2.ge, by simpa using ht, hlu, le_rfl⟩,
        fun hlu => ⟨hlu, le_rfl⟩⟩
    · cases h
      rcases signs h1 h2 h3 with ⟨a, b⟩ | ⟨a, b⟩
      · exact ⟨⟨lv, hl, a.le⟩, fun ht hlu => ⟨upper, uv, hu, b.le, by rw [abs_of_nonneg (by linarith)]; linarith,
          hlu, le_rfl⟩, fun hlu => ⟨le_rfl, hlu⟩⟩
      · exact absurd h5 (not_lt.2 a.le)
    · cases h
      rcases signs h1 h2 h3 with ⟨a, b⟩ | ⟨a, b⟩
      · exact absurd a h5
      · exact ⟨⟨uv, hu, b.le⟩, fun ht hlu => ⟨lower, lv, hl, a.le, by rw [abs_of_nonpos (by linarith)]; linarith,
          le_rfl, hlu⟩, fun hlu => ⟨hlu, le_rfl⟩⟩
  | succ fuel ih =>
    unfold bisectLoop at h
    split_ifs at h with h1 h2 h3 h4 h5
    · cases h; exact ⟨⟨lv, hl, h1.le⟩, fun ht hlu => ⟨_, lv, hl, h1.ge, by simpa using ht, le_rfl, hlu⟩,
        fun hlu => ⟨le_rfl, hlu⟩⟩
    · cases h; exact ⟨⟨uv, hu, h2.le⟩, fun ht hlu => ⟨_, uv, hu, h2.ge, by simpa using ht, hlu, le_rfl⟩,
        fun hlu => ⟨hlu, le_rfl⟩⟩
    · cases h
      rcases signs h1 h2 h3 with ⟨a, b⟩ | ⟨a, b⟩
      · exact ⟨⟨lv, hl, a.le⟩, fun ht hlu => ⟨upper, uv, hu, b.le, by rw [abs_of_nonneg (by linarith)]; linarith,
          hlu, le_rfl⟩, fun hlu => ⟨le_rfl, hlu⟩⟩
      · exact absurd h5 (not_lt.2 a.le)
    · cases h
      rcases signs h1 h2 h3 with ⟨a, b⟩ | ⟨a, b⟩
      · exact absurd a h5
      · exact ⟨⟨uv, hu, b.le⟩, fun ht hlu => ⟨lower, lv, hl, a.le, by rw [abs_of_nonpos (by linarith)]; linarith,
          le_rfl, hlu⟩, fun hlu => ⟨hlu, le_rfl⟩⟩
    · cases hm : f ((lower + upper) / 2) with
      | error e => simp [hm] at h
      | ok mv =>
        simp only [hm] at h
        split_ifs at h with h6 h7
        · cases h
          exact ⟨⟨mv, hm, h6.le⟩, fun ht hlu => ⟨_, mv, hm, h6.ge, by simpa using ht, by linarith, by linarith⟩,
            fun hlu => ⟨by linarith, by linarith⟩⟩
        · obtain ⟨i1, i2, i3⟩ := ih hl hm h
          refine ⟨i1, fun ht hlu => ?_, fun hlu => ?_⟩
          · obtain ⟨y, w, a, b, c, d, e⟩ := i2 ht (by linarith)
            exact ⟨y, w, a, b, c, d, by linarith⟩
          · have := i3 (by linarith); constructor <;> linarith [this.1, this.2]
        · obtain ⟨i1, i2, i3⟩ := ih hm hu h
          refine ⟨i1, fun ht hlu => ?_, fun hlu => ?_⟩
          · obtain ⟨y, w, a, b, c, d, e⟩ := i2 ht (by linarith)
            exact ⟨y, w, a, b, c, by linarith, e⟩
          · have := i3 (by linarith); constructor <;> linarith [this.1, this.2]

/-- Bisection ends: with enough fuel for the interval, fuel is never exhausted. -/
theorem bisectLoop_terminates {f : ℝ → Except CalErr EReal} (hf : ∀ x, f x ≠ .error .outOfFuel) {tol : ℝ}
    (fuel : ℕ) {lower upper : ℝ} {lv uv : EReal} (hfuel : upper - lower ≤ tol * 2 ^ fuel) :
    bisectLoop f tol fuel lower upper lv uv ≠ .error .outOfFuel := by
  induction fuel generalizing lower upper lv uv with
  | zero =>
    unfold bisectLoop
    have : upper - lower ≤ tol := by simpa using hfuel
    split_ifs <;> simp
  | succ fuel ih =>
    unfold bisectLoop
    split_ifs with h1 h2 h3 h4
    · simp
    · simp
    · simp
    · simp
    · simp
    · cases hm : f ((lower + upper) / 2) with
      | error e =>
        simp only
        intro he
        cases he; exact hf _ hm
      | ok mv =>
        simp only
        rw [pow_succ] at hfuel
        split_ifs
        · simp
        · exact ih (by linarith)
        · exact ih (by linarith)

theorem bracketLoop_spec {f : ℝ → Except CalErr EReal} (tries : ℕ) {lower upper gap : ℝ} {lv uv : EReal}
    (hgap : 0 < gap) (hlu : upper = lower + gap)
    (hl : f lower = .ok lv) (hu : f upper = .ok uv) :
    (∀ a b, bracketLoop f tries lower upper gap lv uv = .ok (a, b) →
      a < b ∧ lower ≤ a ∧ ∃ av bv, f a = .ok av ∧ f b = .ok bv ∧ ¬ av * bv > 0) ∧
    (bracketLoop f tries lower upper gap lv uv = .error .noBracketIntervalFound →
      (∀ k ≤ tries + 1, ∃ v, f (lower + gap * (2 ^ k - 1)) = .ok v ∧ (0 < lv → 0 < v) ∧ (lv < 0 → v < 0) ∧ v ≠ 0) ∨
      ∃ x, f x = .error .noBracketIntervalFound) := by
  induction tries generalizing lower upper gap lv uv with
  | zero =>
    unfold bracketLoop
    split_ifs with h
    · simp only [reduceCtorEq, false_implies, implies_true, true_and, forall_const]
      left
      intro k hk
      have hs : lv ≠ 0 ∧ (0 < lv → 0 < uv) ∧ (lv < 0 → uv < 0) ∧ uv ≠ 0 := by
        rcases EReal.mul_pos_iff.1 h with ⟨a, b⟩ | ⟨a, b⟩
        · exact ⟨a.ne', fun _ => b, fun c => absurd c (not_lt.2 a.le), b.ne'⟩
        · exact ⟨a.ne, fun c => absurd c (not_lt.2 a.le), fun _ => b, b.ne⟩
      interval_cases k
      · exact ⟨lv, by simpa using hl, id, id, hs.1⟩
      · refine ⟨uv, ?_, hs.2⟩
        rw [hlu] at hu; norm_num; exact hu
    · refine ⟨?_, by simp⟩
      rintro a b ⟨⟩
      exact ⟨by linarith, le_rfl, lv, uv, hl, hu, h⟩
  | succ t ih =>
    unfold bracketLoop
    split_ifs with h
    · have hs : lv ≠ 0 ∧ (0 < lv → 0 < uv) ∧ (lv < 0 → uv < 0) ∧ uv ≠ 0 := by
        rcases EReal.mul_pos_iff.1 h with ⟨a, b⟩ | ⟨a, b⟩
        · exact ⟨a.ne', fun _ => b, fun c => absurd c (not_lt.2 a.le), b.ne'⟩
        · exact ⟨a.ne, fun c => absurd c (not_lt.2 a.le), fun _ => b, b.ne⟩
      cases hv : f (upper + gap * 2) with
      | error e =>
        simp only [reduceCtorEq, false_implies, implies_true, true_and]
        intro he
        cases he
        exact Or.inr ⟨_, hv⟩
      | ok v =>
        simp only
        obtain ⟨i1, i2⟩ := ih (lower := upper) (upper := upper + gap * 2) (gap := gap * 2) (by linarith) rfl hu hv
        refine ⟨fun a b hab => ?_, fun he => ?_⟩
        · obtain ⟨c1, c2, c3⟩ := i1 a b hab
          exact ⟨c1, by linarith, c3⟩
        · rcases i2 he with hk | hx
          · left
            intro k hk'
            rcases k with _ | k
            · exact ⟨lv, by simpa using hl, id, id, hs.1⟩
            · obtain ⟨w, hw1, hw2, hw3, hw4⟩ := hk k (by omega)
              refine ⟨w, ?_, fun c => hw2 (hs.2.1 c), fun c => hw3 (hs.2.2.1 c), hw4⟩
              have : lower + gap * (2 ^ (k + 1) - 1) = upper + gap * 2 * (2 ^ k - 1) := by
                rw [hlu, pow_succ]; ring
              rw [this]; exact hw1
          · exact Or.inr hx
    · refine ⟨?_, by simp⟩
      rintro a b ⟨⟩
      exact ⟨by linarith, le_rfl, lv, uv, hl, hu, h⟩

theorem searchBracket_ok {l g a b : ℝ} {f : ℝ → Except CalErr EReal} (h : searchBracket l g f = .ok (a, b)) :
    l < g ∧ l ≤ a ∧ a < b ∧ ∃ av bv, f a = .ok av ∧ f b = .ok bv ∧ ¬ av * bv > 0 := by
  unfold searchBracket at h
  split_ifs at h with h1
  have h1' : l < g := not_le.1 h1
  cases hl : f l with
  | error e => simp [hl] at h
  | ok lv =>
    cases hu : f g with
    | error e => simp [hl, hu] at h
    | ok uv =>
      simp only [hl, hu] at h
      obtain ⟨c1, c2, c3⟩ := (bracketLoop_spec (gap := g - l) 30 (by linarith) (by ring) hl hu).1 a b h
      exact ⟨h1', c2, c1, c3⟩

theorem bisect_spec {fuel : ℕ} {f : ℝ → Except CalErr EReal} {lower upper tol x : ℝ}
    (h : bisect fuel f lower upper tol = .ok x) :
    (∃ v, f x = .ok v ∧ v ≤ 0) ∧
    (0 ≤ tol → lower ≤ upper → ∃ y w, f y = .ok w ∧ 0 ≤ w ∧ |y - x| ≤ tol) := by
  unfold bisect at h
  cases hl : f lower with
  | error e => simp [hl] at h
  | ok lv =>
    cases hu : f upper with
    | error e => simp [hl, hu] at h
    | ok uv =>
      simp only [hl, hu] at h
      obtain ⟨i1, i2, -⟩ := bisectLoop_spec fuel hl hu h
      refine ⟨i1, fun a b => ?_⟩
      obtain ⟨y, w, h1, h2, h3, -⟩ := i2 a b
      exact ⟨y, w, h1, h2, h3⟩

/-- What the root finder is assumed to promise for the optimality claim: a converged root is within `tol` of a point
with non-negative value. -/
def BrentqNear (brentq : (ℝ → Except CalErr EReal) → ℝ → ℝ → ℝ → Except CalErr (ℝ × Bool)) : Prop :=
  ∀ f a b tol root, brentq f a b tol = .ok (root, true) → ∃ y w, f y = .ok w ∧ 0 ≤ w ∧ |y - root| ≤ tol

theorem acceptRoot_spec {f : ℝ → Except CalErr EReal} {tol root x : ℝ} {conv : Bool}
    (h : acceptRoot f tol root conv = .ok (some x)) :
    (∃ v, f x = .ok v ∧ v ≤ 0) ∧
    (0 ≤ tol → (conv = true → ∃ y w, f y = .ok w ∧ 0 ≤ w ∧ |y - root| ≤ tol) →
      ∃ y w, f y = .ok w ∧ 0 ≤ w ∧ |y - x| ≤ tol) := by
  unfold acceptRoot at h
  cases conv with
  | false => simp at h
  | true =>
    simp only [Bool.not_true, Bool.false_eq_true, if_false] at h
    cases hr : f root with
    | error e => simp [hr] at h
    | ok v =>
      simp only [hr] at h
      split_ifs at h with h1
      · cases hp : f (root + tol) with
        | error e => simp [hp] at h
        | ok vp =>
          simp only [hp] at h
          split_ifs at h with h2
          · cases h
            exact ⟨⟨vp, hp, h2.le⟩, fun ht _ => ⟨root, v, hr, h1.le, by simp [abs_of_nonneg ht]⟩⟩
          · cases hm : f (root - tol) with
            | error e => simp [hm] at h
            | ok vm =>
              simp only [hm] at h
              split_ifs at h with h3
              · cases h
                exact ⟨⟨vm, hm, h3.le⟩, fun ht _ => ⟨root, v, hr, h1.le, by simp [abs_of_nonneg ht]⟩⟩
              · simp at h
      · cases h
        exact ⟨⟨v, hr, not_lt.1 h1⟩, fun _ hc => hc rfl⟩

/-- The interval of an explicit bracket is given in increasing order. -/
def Bracket.Ordered : Bracket → Prop
  | .explicit a b => a ≤ b
  | _ => True

theorem search_spec {fuel : ℕ} {brentq} {f : ℝ → Except CalErr EReal} {bracket : Bracket} {discrete : Bool}
    {tol x : ℝ} (h : search fuel brentq f bracket discrete tol = .ok x) :
    ∃ r, x = (if discrete then (pyRound r : ℝ) else r) ∧ (∃ v, f r = .ok v ∧ v ≤ 0) ∧
      (0 ≤ tol → bracket.Ordered → BrentqNear brentq → ∃ y w, f y = .ok w ∧ 0 ≤ w ∧ |y - r| ≤ tol) := by
  unfold search at h
  generalize hint : resolveBracket f bracket = interval at h
  cases interval with
  | error e => simp at h
  | ok ab =>
    obtain ⟨a, b⟩ := ab
    have hab : bracket.Ordered → a ≤ b := by
      cases bracket with
      | explicit c d => simp only [resolveBracket] at hint; cases hint; exact id
      | lowerAndGuess l g => simp only [resolveBracket] at hint; exact fun _ => (searchBracket_ok hint).2.2.1.le
      | none => simp only [resolveBracket] at hint; exact fun _ => (searchBracket_ok hint).2.2.1.le
      | other => simp [resolveBracket] at hint
    dsimp only at h
    cases hb : brentq f a b tol with
    | error e => simp [hb] at h
    | ok rc =>
      obtain ⟨root, conv⟩ := rc
      simp only [hb] at h
      cases ha : acceptRoot f tol root conv with
      | error e => simp [ha] at h
      | ok r =>
        simp only [ha] at h
        cases r with
        | some r =>
          simp only at h
          obtain ⟨h1, h2⟩ := acceptRoot_spec ha
          refine ⟨r, by simpa using h.symm, h1, fun ht _ hB => h2 ht fun hc => ?_⟩
          subst hc
          exact hB f a b tol root hb
        | none =>
          simp only at h
          cases hbi : bisect fuel f a b tol with
          | error e => simp [hbi] at h
          | ok r =>
            simp only [hbi] at h
            obtain ⟨h1, h2⟩ := bisect_spec hbi
            exact ⟨r, by simpa using h.symm, h1, fun ht ho _ => h2 ht (hab ho)⟩

end Calibration
end Verif
