import Verif.Proofs.InverseMonotone
import Mathlib.Order.Monotone.Defs

/-!
# C25: `inverse_monotone_function`
-/

namespace Verif.Props
open Verif Verif.InverseMonotone

/-- The real points of the search range. -/
def InRange (p : SearchParams) (x : ℝ) : Prop := p.lowerBound ≤ x ∧ (x : EReal) ≤ p.upperBound

/-- Sensible search parameters: nonempty range, initial guess (if any) positive and not below the lower bound. -/
structure GoodParams (p : SearchParams) : Prop where
  nonempty : p.lowerBound ≤ p.upperBound
  guess : ∀ g, p.initialGuess = some g → 0 < g ∧ p.lowerBound ≤ g

/-- In discrete mode bounds and guess are integers (the upper bound may be infinite). -/
def IntParams (p : SearchParams) : Prop :=
  (∃ a b : ℤ, p.lowerBound = ((a : ℝ) : EReal) ∧ (p.upperBound = ((b : ℝ) : EReal) ∨ p.upperBound = ⊤)) ∧
  ∀ g, p.initialGuess = some g → ∃ z : ℤ, g = z

/-- **C25 (none).** The result is `None` exactly if the most favourable end of the range (lower end for increasing,
upper end for decreasing functions) is finite and infeasible; for monotone functions: iff no point of the range is
feasible. -/
theorem C25_none_iff (fuel : ℕ) (func : ℝ → ℝ) (value : ℝ) (p : SearchParams) (inc : Bool) :
    inverse fuel func value p inc = .notFound ↔
      if inc then ∃ l : ℝ, p.lowerBound = l ∧ value < func l else ∃ u : ℝ, p.upperBound = u ∧ value < func u := by
  have : (if inc then ∃ l : ℝ, p.lowerBound = l ∧ value < func l else ∃ u : ℝ, p.upperBound = u ∧ value < func u)
      ↔ infeasible inc func value p := by
    unfold infeasible; cases inc <;> simp
  rw [this]
  unfold inverse
  split_ifs with h
  · simp [h]
  · simp only [h, iff_false]
    cases p.initialGuess with
    | none =>
      simp only [finish]; split_ifs <;> (try simp) <;> split <;> simp
    | some g =>
      simp only
      split
      · simp
      · simp only [finish]; split_ifs <;> (try simp) <;> split <;> simp

/-- **C25 (none, monotone case).** For a monotone function on a range with a finite favourable end, `None` means that no
point of the range is feasible. -/
theorem C25_none_no_feasible (fuel : ℕ) (func : ℝ → ℝ) (value : ℝ) (p : SearchParams) (inc : Bool)
    (hmono : ∀ a b, InRange p a → InRange p b → a ≤ b → if inc then func a ≤ func b else func b ≤ func a)
    (h : inverse fuel func value p inc = .notFound) (x : ℝ) (hx : InRange p x) : value < func x := by
  rw [C25_none_iff] at h
  cases inc with
  | true =>
    simp only [if_true] at h hmono
    obtain ⟨l, hl, hv⟩ := h
    have hlx : l ≤ x := by have := hx.1; rwa [hl, EReal.coe_le_coe_iff] at this
    exact hv.trans_le (hmono l x ⟨hl.le, (EReal.coe_le_coe_iff.2 hlx).trans hx.2⟩ hx hlx)
  | false =>
    simp only [Bool.false_eq_true, if_false] at h hmono
    obtain ⟨u, hu, hv⟩ := h
    have hxu : x ≤ u := by have := hx.2; rwa [hu, EReal.coe_le_coe_iff] at this
    exact hv.trans_le (hmono x u hx ⟨hx.1.trans (EReal.coe_le_coe_iff.2 hxu), hu.ge⟩ hxu)

/-- **C25 (soundness).** A returned value is feasible, for every function, monotone or not, and all parameters. -/
theorem C25_found_feasible (fuel : ℕ) (func : ℝ → ℝ) (value : ℝ) (p : SearchParams) (inc : Bool) (x : ℝ)
    (h : inverse fuel func value p inc = .found x) : func x ≤ value := by
  obtain ⟨hinf, l, u, l', u', hl, hu, hs, rfl, -⟩ := inverse_spec h
  obtain ⟨s1, s2, -⟩ := searchLoop_spec fuel hs
  cases inc with
  | true =>
    simp only [check, if_true] at *
    rcases s1 with rfl | s1
    · rcases hl with hl | hl
      · by_contra hcon
        exact hinf (by simp only [infeasible, if_true]; exact ⟨l', hl.symm, not_le.1 hcon⟩)
      · exact hl
    · exact s1
  | false =>
    simp only [check, Bool.false_eq_true, if_false, gt_iff_lt, not_lt] at *
    rcases s2 with rfl | s2
    · rcases hu with hu | hu
      · by_contra hcon
        exact hinf (by simp only [infeasible, Bool.false_eq_true, if_false]; exact ⟨u', hu.symm, not_le.1 hcon⟩)
      · exact hu
    · exact s2

/-- **C25 (range).** With sensible parameters the returned value lies in the range, and is an integer in discrete mode. -/
theorem C25_found_in_range (fuel : ℕ) (func : ℝ → ℝ) (value : ℝ) (p : SearchParams) (inc : Bool) (x : ℝ)
    (hp : GoodParams p) (hd : p.discrete = true → IntParams p)
    (h : inverse fuel func value p inc = .found x) :
    InRange p x ∧ (p.discrete = true → ∃ z : ℤ, x = z) := by
  obtain ⟨hinf, l, u, l', u', hl, hu, hs, rfl, h1, h2⟩ := inverse_spec h
  obtain ⟨a, b, c⟩ := h1 hp.nonempty hp.guess
  have hI : IntEnds p.discrete l u := fun hd' => h2 (hd hd').1 (hd hd').2
  obtain ⟨-, -, -, s4⟩ := searchLoop_spec fuel hs
  obtain ⟨r1, r2, r3, r4⟩ := s4 c hI
  refine ⟨?_, fun hd' => ?_⟩
  · cases inc
    · exact ⟨a.trans (EReal.coe_le_coe_iff.2 (r1.trans r2)), (EReal.coe_le_coe_iff.2 r3).trans b⟩
    · exact ⟨a.trans (EReal.coe_le_coe_iff.2 r1), (EReal.coe_le_coe_iff.2 (r2.trans r3)).trans b⟩
  · obtain ⟨z, w, hz, hw⟩ := r4 hd'
    cases inc
    · exact ⟨w, hw⟩
    · exact ⟨z, hz⟩

/-- **C25 (optimality).** For a monotone function and sensible parameters, the returned value is within the tolerance (one, in
discrete mode) of every better feasible point of the range. -/
theorem C25_found_extremal (fuel : ℕ) (func : ℝ → ℝ) (value : ℝ) (p : SearchParams) (inc : Bool) (x : ℝ)
    (hp : GoodParams p) (hd : p.discrete = true → IntParams p)
    (hmono : ∀ a b, InRange p a → InRange p b → a ≤ b → if inc then func a ≤ func b else func b ≤ func a)
    (h : inverse fuel func value p inc = .found x) (y : ℝ) (hy : InRange p y) (hfy : func y ≤ value) :
    if inc then y ≤ x + (if p.discrete then 1 else p.tolerance)
    else x - (if p.discrete then 1 else p.tolerance) ≤ y := by
  obtain ⟨hinf, l, u, l', u', hl, hu, hs, rfl, h1, h2⟩ := inverse_spec h
  obtain ⟨a, b, c⟩ := h1 hp.nonempty hp.guess
  have hI : IntEnds p.discrete l u := fun hd' => h2 (hd hd').1 (hd hd').2
  obtain ⟨s1, s2, s3, s4⟩ := searchLoop_spec fuel hs
  obtain ⟨r1, r2, r3, r4⟩ := s4 c hI
  have hl'r : InRange p l' :=
    ⟨a.trans (EReal.coe_le_coe_iff.2 r1), (EReal.coe_le_coe_iff.2 (r2.trans r3)).trans b⟩
  have hu'r : InRange p u' :=
    ⟨a.trans (EReal.coe_le_coe_iff.2 (r1.trans r2)), (EReal.coe_le_coe_iff.2 r3).trans b⟩
  cases inc with
  | true =>
    simp only [if_true, check] at *
    suffices y ≤ u' by linarith
    have key : value < func u' → y ≤ u' := fun hv => by
      by_contra hcon
      have := hmono u' y hu'r hy (not_le.1 hcon).le
      linarith
    rcases s2 with rfl | s2
    · rcases hu with hu | hu
      · have := hy.2; rwa [← hu, EReal.coe_le_coe_iff] at this
      · exact key (not_le.1 hu)
    · exact key (not_le.1 s2)
  | false =>
    simp only [Bool.false_eq_true, if_false, check] at *
    suffices l' ≤ y by linarith
    have key : value < func l' → l' ≤ y := fun hv => by
      by_contra hcon
      have := hmono y l' hy hl'r (not_le.1 hcon).le
      linarith
    rcases s1 with rfl | s1
    · rcases hl with hl | hl
      · have := hy.1; rwa [← hl, EReal.coe_le_coe_iff] at this
      · exact key hl
    · exact key s1

/-- **C25 (exactness in discrete mode, partial).** If the far end of the range is infeasible, the integer returned in discrete
mode is exactly the extremal feasible integer.  Missing: a feasible far end, see `C25_discrete_end_missed`. -/
theorem C25_discrete_exact_partial (fuel : ℕ) (func : ℝ → ℝ) (value : ℝ) (p : SearchParams) (inc : Bool) (x : ℝ)
    (hp : GoodParams p) (hdisc : p.discrete = true) (hd : IntParams p)
    (hmono : ∀ a b, InRange p a → InRange p b → a ≤ b → if inc then func a ≤ func b else func b ≤ func a)
    (hend : ∀ r : ℝ, (if inc then p.upperBound else p.lowerBound) = (r : EReal) → value < func r)
    (h : inverse fuel func value p inc = .found x) (y : ℤ) (hy : InRange p y) (hfy : func y ≤ value) :
    if inc then (y : ℝ) ≤ x else x ≤ (y : ℝ) := by
  obtain ⟨-, hz⟩ := C25_found_in_range fuel func value p inc x hp (fun _ => hd) h
  obtain ⟨hinf, l, u, l', u', hl, hu, hs, hx, h1, h2⟩ := inverse_spec h
  obtain ⟨a, b, c⟩ := h1 hp.nonempty hp.guess
  have hI : IntEnds p.discrete l u := fun _ => h2 hd.1 hd.2
  obtain ⟨s1, s2, s3, s4⟩ := searchLoop_spec fuel hs
  obtain ⟨r1, r2, r3, r4⟩ := s4 c hI
  obtain ⟨zl, zu, hzl, hzu⟩ := r4 hdisc
  rw [hdisc] at s3
  simp only [if_true] at s3
  have hgap : zu ≤ zl + 1 := by
    rw [hzl, hzu] at s3
    have : (zu : ℝ) ≤ ((zl + 1 : ℤ) : ℝ) := by push_cast; linarith
    exact_mod_cast this
  have hl'r : InRange p l' :=
    ⟨a.trans (EReal.coe_le_coe_iff.2 r1), (EReal.coe_le_coe_iff.2 (r2.trans r3)).trans b⟩
  have hu'r : InRange p u' :=
    ⟨a.trans (EReal.coe_le_coe_iff.2 (r1.trans r2)), (EReal.coe_le_coe_iff.2 r3).trans b⟩
  cases inc with
  | true =>
    simp only [if_true, check] at *
    have hu' : value < func u' := by
      rcases s2 with rfl | s2
      · rcases hu with hu | hu
        · exact hend _ hu.symm
        · exact not_le.1 hu
      · exact not_le.1 s2
    have hyu : (y : ℝ) < u' := by
      by_contra hcon
      have := hmono u' y hu'r hy (not_lt.1 hcon)
      linarith
    rw [hzu] at hyu
    have : y < zu := by exact_mod_cast hyu
    rw [hx, hzl]
    exact_mod_cast (by omega : y ≤ zl)
  | false =>
    simp only [Bool.false_eq_true, if_false, check] at *
    have hl' : value < func l' := by
      rcases s1 with rfl | s1
      · rcases hl with hl | hl
        · exact hend _ hl.symm
        · exact hl
      · exact s1
    have hly : l' < (y : ℝ) := by
      by_contra hcon
      have := hmono y l' hy hl'r (not_lt.1 hcon)
      linarith
    rw [hzl] at hly
    have : zl < y := by exact_mod_cast hly
    rw [hx, hzu]
    exact_mod_cast (by omega : zu ≤ y)

/-- **C25, disagreement.** In discrete mode a feasible far end of the range is never returned: for the constant (decreasing)
function `0`, target `0` and range `{0, 1}` the smallest feasible point is `0`, the result is `1`. -/
theorem C25_discrete_end_missed :
    inverse 0 (fun _ => 0) 0 ⟨(0 : ℝ), (1 : ℝ), none, 1, true⟩ false = .found 1 := by
  have h1 : ((1 : ℝ) : EReal).toReal = 1 := EReal.toReal_coe 1
  have h0 : ((0 : ℝ) : EReal).toReal = 0 := EReal.toReal_coe 0
  have hn : ¬ ((1 : ℝ) - 0 > 1) := by norm_num
  unfold inverse
  rw [if_neg (by simp [infeasible])]
  simp only [finish, searchLoop, h1, h0, if_true, if_neg hn, EReal.coe_ne_bot, EReal.coe_ne_top, or_self, if_false,
    Bool.false_eq_true]

/-- **C25 (termination).** Sensible parameters, positive tolerance, finite bounds or a function that becomes (in)feasible
eventually: the search ends. -/
theorem C25_terminates (func : ℝ → ℝ) (value : ℝ) (p : SearchParams) (inc : Bool) (hp : GoodParams p)
    (hd : p.discrete = true → IntParams p) (htol : 0 < p.tolerance)
    (hB : ∃ B : ℝ, ∀ x, B ≤ x → p.upperBound ≤ x ∨ (if inc then value < func x else func x ≤ value)) :
    ∃ N, ∀ fuel ≥ N, inverse fuel func value p inc ≠ .outOfFuel := by
  have hB' : ∃ B : ℝ, ∀ x, B ≤ x → p.upperBound ≤ x ∨ ¬ check inc (func x) value := by
    obtain ⟨B, hB⟩ := hB
    refine ⟨B, fun x hx => (hB x hx).imp id fun h => ?_⟩
    cases inc <;> simpa [check] using h
  -- a bound on the final search
  have hfin : ∀ (lower upper : EReal), (p.discrete = true → lower ≠ ⊥ → lower ≠ ⊤ → upper ≠ ⊥ → upper ≠ ⊤ →
      ∃ a b : ℤ, lower = ((a : ℝ) : EReal) ∧ upper = ((b : ℝ) : EReal)) →
      ∃ N, ∀ fuel ≥ N, finish fuel inc func value p lower upper ≠ .outOfFuel := by
    intro lower upper hint
    by_cases hc : lower = ⊥ ∨ lower = ⊤ ∨ upper = ⊥ ∨ upper = ⊤
    · exact ⟨0, fun fuel _ => by unfold finish; rw [if_pos hc]; simp⟩
    cases hdis : p.discrete with
    | false =>
      obtain ⟨n, hn⟩ := pow_unbounded_of_one_lt ((upper.toReal - lower.toReal) / p.tolerance) (one_lt_two)
      refine ⟨n, fun fuel hfuel => ?_⟩
      unfold finish
      rw [if_neg hc, hdis]
      have hle : upper.toReal - lower.toReal ≤ p.tolerance * 2 ^ fuel := by
        rw [div_lt_iff₀ htol] at hn
        have : (2 : ℝ) ^ n ≤ 2 ^ fuel := pow_le_pow_right₀ one_le_two hfuel
        nlinarith
      simp only [Bool.false_eq_true, if_false]
      obtain ⟨r, hr⟩ := searchLoop_terminates_cont (inc := inc) (func := func) (value := value) fuel hle
      rw [hr]; simp
    | true =>
      have hc' := hc
      push Not at hc'
      obtain ⟨a, b, rfl, rfl⟩ := hint hdis hc'.1 hc'.2.1 hc'.2.2.1 hc'.2.2.2
      refine ⟨(b - a).toNat, fun fuel hfuel => ?_⟩
      unfold finish
      rw [if_neg hc, hdis]
      simp only [if_true, EReal.toReal_coe]
      obtain ⟨r, hr⟩ := searchLoop_terminates_disc (inc := inc) (func := func) (value := value) (lower := a)
        (upper := b) fuel (by omega)
      rw [hr]; simp
  by_cases hinf : infeasible inc func value p
  · exact ⟨0, fun fuel _ => by unfold inverse; rw [if_pos hinf]; simp⟩
  cases hg : p.initialGuess with
  | none =>
    obtain ⟨N, hN⟩ := hfin p.lowerBound p.upperBound (fun hdis _ _ _ hu => by
      obtain ⟨⟨a, b, ha, hb⟩, -⟩ := hd hdis
      exact ⟨a, b, ha, hb.resolve_right hu⟩)
    refine ⟨N, fun fuel hfuel => ?_⟩
    unfold inverse
    rw [if_neg hinf, hg]
    exact hN fuel hfuel
  | some g =>
    obtain ⟨B, hB⟩ := hB'
    have hg0 := (hp.guess g hg).1
    obtain ⟨n, hn⟩ := pow_unbounded_of_one_lt (B / g) (one_lt_two)
    have hBn : ∀ m ≥ n, B ≤ g * 2 ^ m := fun m hm => by
      rw [div_lt_iff₀ hg0] at hn
      have : (2 : ℝ) ^ n ≤ 2 ^ m := pow_le_pow_right₀ one_le_two hm
      nlinarith
    -- more fuel does not change a finished guess loop
    have hstab : ∀ (m : ℕ) (lo : EReal) (g : ℝ) r, guessLoop inc func value p.upperBound m lo g = some r →
        ∀ k ≥ m, guessLoop inc func value p.upperBound k lo g = some r := by
      intro m
      induction m with
      | zero =>
        intro lo g r h k _
        unfold guessLoop at h ⊢
        split_ifs at h ⊢ with hc
        exact h
      | succ m ih =>
        intro lo g r h k hk
        obtain ⟨k, rfl⟩ : ∃ j, k = j + 1 := ⟨k - 1, by omega⟩
        unfold guessLoop at h ⊢
        split_ifs at h ⊢ with hc
        · exact ih _ _ _ h k (by omega)
        · exact h
    obtain ⟨⟨lo, g'⟩, hr⟩ := guessLoop_terminates (inc := inc) (func := func) (value := value)
      (upper := p.upperBound) (lower := p.lowerBound) n hg0 hB (hBn n le_rfl)
    obtain ⟨-, -, -, h4⟩ := guessLoop_spec n hr
    obtain ⟨N, hN⟩ := hfin lo (min p.upperBound g') (fun hdis _ _ _ hu => by
      obtain ⟨⟨a, b, ha, hb⟩, hz⟩ := hd hdis
      obtain ⟨z, hz⟩ := hz g hg
      obtain ⟨z', hz', hl'⟩ := h4 z hz
      have e1 : ∃ a : ℤ, lo = ((a : ℝ) : EReal) := by
        rcases hl' with hl' | hl'
        · exact ⟨a, hl'.trans ha⟩
        · exact hl'
      have e2 : ∃ b : ℤ, min p.upperBound g' = ((b : ℝ) : EReal) := by
        rcases min_choice p.upperBound (g' : EReal) with hm | hm
        · rw [hm] at hu ⊢
          exact ⟨b, hb.resolve_right hu⟩
        · rw [hm]; exact ⟨z', by rw [hz']⟩
      obtain ⟨a', ha'⟩ := e1
      obtain ⟨b', hb'⟩ := e2
      exact ⟨a', b', ha', hb'⟩)
    refine ⟨max n N, fun fuel hfuel => ?_⟩
    unfold inverse
    rw [if_neg hinf, hg]
    simp only
    rw [hstab n _ _ _ hr fuel (le_trans (le_max_left _ _) hfuel)]
    exact hN fuel (le_trans (le_max_right _ _) hfuel)

/-- **C25, disagreement.** A zero initial guess (not rejected by the code) makes the search loop forever on a function that
keeps the check true at zero, although the range is finite. -/
theorem C25_zero_guess_diverges (func : ℝ → ℝ) (value : ℝ) (u tol : ℝ) (hu : 0 < u) (h0 : value < func 0)
    (hfu : func u ≤ value) (fuel : ℕ) :
    inverse fuel func value ⟨(0 : ℝ), (u : EReal), some 0, tol, false⟩ false = .outOfFuel := by
  have hl : ∀ fuel (lo : EReal), guessLoop false func value (u : EReal) fuel lo 0 = none := by
    intro fuel
    induction fuel with
    | zero =>
      intro lo
      unfold guessLoop
      rw [if_pos ⟨by simpa using hu, by simpa [check] using h0⟩]
    | succ n ih =>
      intro lo
      unfold guessLoop
      rw [if_pos ⟨by simpa using hu, by simpa [check] using h0⟩]
      simpa using ih _
  unfold inverse
  rw [if_neg (by
    simp only [infeasible, Bool.false_eq_true, if_false, not_exists, not_and, not_lt, gt_iff_lt]
    intro x hx
    rw [EReal.coe_eq_coe_iff] at hx
    rwa [← hx])]
  simp only
  rw [hl]

/-- The hypotheses are met by a decreasing function with infinite upper bound and a guess. -/
example : GoodParams ⟨(0 : ℝ), ⊤, some 1, 1e-3, false⟩ ∧
    (∃ B : ℝ, ∀ x, B ≤ x → (⊤ : EReal) ≤ x ∨ (if false then (-10 : ℝ) < (fun x => -x) x else (fun x : ℝ => -x) x ≤ -10)) ∧
    (∀ a b : ℝ, a ≤ b → if false then (fun x : ℝ => -x) a ≤ (fun x => -x) b else (fun x : ℝ => -x) b ≤ (fun x => -x) a) := by
  refine ⟨⟨le_top, ?_⟩, ⟨10, fun x hx => Or.inr ?_⟩, fun a b h => ?_⟩
  · rintro g ⟨⟩
    exact ⟨one_pos, by simp⟩
  · simpa using hx
  · simpa using h

/-- A concrete search that meets the hypotheses of all the theorems: the smallest integer between 0 and 10 at which `-x` is at most `-4` is
found, and it is 4. -/
example : ∃ fuel, inverse fuel (fun x => -x) (-4) ⟨(0 : ℝ), (10 : ℝ), none, 1, true⟩ false = .found 4 := by
  have hp : GoodParams ⟨(0 : ℝ), (10 : ℝ), none, 1, true⟩ := ⟨by simp, by simp⟩
  have hd : IntParams ⟨(0 : ℝ), (10 : ℝ), none, 1, true⟩ := ⟨⟨0, 10, by simp, Or.inl (by simp)⟩, by simp⟩
  obtain ⟨N, hN⟩ := C25_terminates (fun x => -x) (-4) ⟨(0 : ℝ), (10 : ℝ), none, 1, true⟩ false hp (fun _ => hd) one_pos
    ⟨10, fun x hx => Or.inl (by simpa using hx)⟩
  refine ⟨N, ?_⟩
  cases h : inverse N (fun x => -x) (-4) ⟨(0 : ℝ), (10 : ℝ), none, 1, true⟩ false with
  | notFound =>
    rw [C25_none_iff] at h
    obtain ⟨u, hu, hv⟩ := h
    rw [EReal.coe_eq_coe_iff] at hu
    linarith
  | outOfFuel => exact absurd h (hN N le_rfl)
  | infiniteInterval =>
    unfold inverse at h
    split_ifs at h with h1
    simp only [finish] at h
    rw [if_neg (by simp)] at h
    split at h <;> simp at h
  | found x =>
    have hmono : ∀ a b : ℝ, InRange ⟨(0 : ℝ), (10 : ℝ), none, 1, true⟩ a → InRange ⟨(0 : ℝ), (10 : ℝ), none, 1, true⟩ b → a ≤ b →
        if false = true then -a ≤ -b else -b ≤ -a := fun a b _ _ hab => by simpa using hab
    have h1 : -x ≤ -4 := C25_found_feasible N _ _ _ false x h
    have h2 := C25_discrete_exact_partial N _ _ _ false x hp rfl hd hmono (fun r hr => by
      simp only [Bool.false_eq_true, if_false, EReal.coe_eq_coe_iff] at hr
      rw [← hr]; norm_num) h 4 ⟨by simp, by simp; norm_num⟩ (by norm_num)
    simp only [Bool.false_eq_true, if_false, Int.cast_ofNat] at h2
    rw [le_antisymm h2 (by linarith)]

end Verif.Props
