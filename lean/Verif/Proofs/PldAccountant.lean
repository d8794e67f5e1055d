import Verif.Proofs.Accountant
import Verif.Model.PldAccountant

/-! Helper lemmas about the PLD accountant's traversal. -/

namespace Verif.PldAccountant
open Verif Verif.Spec

variable {P : Type} (F : PldFns P) (nr : NeighborRel)

/-- Verdict of the dry run (it never raises). -/
noncomputable def verdict (e : DpEvent) : Except Err (Option CompositionError) :=
  (maybeCompose F nr e 1 false (init F)).2

theorem poisson_eq (q : PyNum) (e : DpEvent) (c : ℤ) (doC : Bool) (s : PldState P) :
    (∃ z, e = .gaussian z) ∨ (∃ z, e = .laplace z) ∨
    maybeCompose F nr (.poissonSampled q e) c doC s = (s, .ok (some ⟨.poissonSampled q e⟩)) := by
  cases e with
  | gaussian z => exact Or.inl ⟨z, rfl⟩
  | laplace z => exact Or.inr (Or.inl ⟨z, rfl⟩)
  | _ => right; right; simp [maybeCompose]

mutual
theorem dry_indep : ∀ (e : DpEvent) (c c' : ℤ) (s s' : PldState P),
    (maybeCompose F nr e c false s).2 = (maybeCompose F nr e c' false s').2 ∧
    (maybeCompose F nr e c false s).1 = s
  | .noOp, _, _, _, _ => by simp [maybeCompose]
  | .nonPrivate, _, _, _, _ => by simp [maybeCompose]
  | .unsupported, _, _, _, _ => by simp [maybeCompose]
  | .randomizedResponse _ _, _, _, _, _ => by
      simp only [maybeCompose]; split <;> simp
  | .gaussian _, _, _, _, _ => by simp [maybeCompose]
  | .laplace _, _, _, _, _ => by simp [maybeCompose]
  | .selfComposed e m, c, c', s, s' => by
      simp only [maybeCompose]; exact dry_indep e _ _ s s'
  | .composed es, c, c', s, s' => by
      simp only [maybeCompose]; exact dryList_indep es _ _ s s'
  | .poissonSampled q e, c, c', s, s' => by
      rcases poisson_eq F nr q e c false s with ⟨z, rfl⟩ | ⟨z, rfl⟩ | h
      · simp only [maybeCompose]; split <;> simp
      · simp only [maybeCompose]; split <;> simp
      · rcases poisson_eq F nr q e c' false s' with ⟨z, rfl⟩ | ⟨z, rfl⟩ | h'
        · simp only [maybeCompose]; split <;> simp
        · simp only [maybeCompose]; split <;> simp
        · rw [h, h']; simp
  | .sampledWithReplacement _ _ _, _, _, _, _ => by simp [maybeCompose]
  | .sampledWithoutReplacement _ _ e, _, _, _, _ => by simp [maybeCompose]
  | .singleEpochTreeAggregation _ _, _, _, _, _ => by simp [maybeCompose]
  | .repeatAndSelect e _ _, c, c', s, s' => by simp [maybeCompose]
  | .mixtureOfGaussians _ _ _, _, _, _, _ => by simp [maybeCompose]
theorem dryList_indep : ∀ (es : List DpEvent) (c c' : ℤ) (s s' : PldState P),
    (composeList F nr es c false s).2 = (composeList F nr es c' false s').2 ∧
    (composeList F nr es c false s).1 = s
  | [], _, _, _, _ => by simp [composeList]
  | e :: es, c, c', s, s' => by
      have h1 := dry_indep e c c' s s'
      have h1' := dry_indep e c' c s' s
      simp only [composeList]
      generalize maybeCompose F nr e c false s = r at *
      generalize maybeCompose F nr e c' false s' = r' at *
      obtain ⟨a, r⟩ := r
      obtain ⟨a', r'⟩ := r'
      obtain ⟨rfl, rfl⟩ : r = r' ∧ a = s := h1
      obtain ⟨-, rfl⟩ : r = r ∧ a' = s' := h1'
      match r with
      | .error err => simp
      | .ok (some d) => simp
      | .ok none => exact dryList_indep es c c' a a'
end

theorem dryRun : DryRun (accountant F nr) (verdict F nr) := by
  intro e c s
  have := dry_indep F nr e c 1 s (init F)
  exact Prod.ext this.2 this.1

theorem composeWith_nonDp {s : PldState P} {o : Except Err P} :
    (composeWith F s o).1.nonDp = s.nonDp := by
  unfold composeWith
  cases o with
  | error err => rfl
  | ok p => simp only; cases F.compose s.pld p <;> rfl

theorem composeWith_ne {s : PldState P} {o : Except Err P} (d : CompositionError) :
    (composeWith F s o).2 ≠ .ok (some d) := by
  unfold composeWith
  cases o with
  | error err => simp
  | ok p => simp only; cases F.compose s.pld p <;> simp

mutual
/-- The flag is never reset, whatever happens (also when an exception is raised). -/
theorem nonDp_mono : ∀ (e : DpEvent) (c : ℤ) (doC : Bool) (s : PldState P), s.nonDp = true →
    (maybeCompose F nr e c doC s).1.nonDp = true
  | .noOp, _, _, _, h => by simpa [maybeCompose] using h
  | .nonPrivate, _, doC, s, h => by cases doC <;> simp [maybeCompose, markNonDp, h]
  | .unsupported, _, _, _, h => by simpa [maybeCompose] using h
  | .randomizedResponse p k, _, doC, s, h => by
      cases doC <;> simp only [maybeCompose] <;> split <;> try simpa using h
      split_ifs <;> simp [composeWith_nonDp, markNonDp, h]
  | .gaussian z, _, doC, s, h => by
      cases doC <;> simp only [maybeCompose] <;> split_ifs <;> simp [composeWith_nonDp, markNonDp, h]
  | .laplace z, _, doC, s, h => by
      cases doC <;> simp only [maybeCompose] <;> split_ifs <;> simp [composeWith_nonDp, markNonDp, h]
  | .selfComposed e m, c, doC, s, h => by
      simp only [maybeCompose]; exact nonDp_mono e _ _ s h
  | .composed es, c, doC, s, h => by
      simp only [maybeCompose]; exact nonDpList_mono es _ _ s h
  | .poissonSampled q e, c, doC, s, h => by
      rcases poisson_eq F nr q e c doC s with ⟨z, rfl⟩ | ⟨z, rfl⟩ | h'
      · cases doC <;> simp only [maybeCompose] <;> split_ifs <;> simp [composeWith_nonDp, markNonDp, h]
      · cases doC <;> simp only [maybeCompose] <;> split_ifs <;> simp [composeWith_nonDp, markNonDp, h]
      · rw [h']; exact h
  | .sampledWithReplacement _ _ _, _, _, _, h => by simpa [maybeCompose] using h
  | .sampledWithoutReplacement _ _ e, _, _, _, h => by simpa [maybeCompose] using h
  | .singleEpochTreeAggregation _ _, _, _, _, h => by simpa [maybeCompose] using h
  | .repeatAndSelect e _ _, c, c', s, h => by simpa [maybeCompose] using h
  | .mixtureOfGaussians _ _ _, _, doC, _, h => by
      cases doC <;> simp only [maybeCompose] <;> split_ifs <;> simp [composeWith_nonDp, markNonDp, h]
theorem nonDpList_mono : ∀ (es : List DpEvent) (c : ℤ) (doC : Bool) (s : PldState P), s.nonDp = true →
    (composeList F nr es c doC s).1.nonDp = true
  | [], _, _, _, h => by simpa [composeList] using h
  | e :: es, c, doC, s, h => by
      have h1 := nonDp_mono e c doC s h
      simp only [composeList]
      generalize maybeCompose F nr e c doC s = r at *
      obtain ⟨a, r⟩ := r
      match r with
      | .error err => exact h1
      | .ok (some d) => exact h1
      | .ok none => exact nonDpList_mono es c doC a h1
end

mutual
theorem nonPrivate_marks : ∀ (e : DpEvent) (c : ℤ) (s : PldState P), .nonPrivate ∈ expand e →
    (maybeCompose F nr e c true s).2 = .ok none →
    (maybeCompose F nr e c true s).1.nonDp = true
  | .noOp, _, _, h, _ => by simp [expand] at h
  | .nonPrivate, _, s, _, _ => by simp [maybeCompose, markNonDp]
  | .unsupported, _, _, h, _ => by simp [expand] at h
  | .randomizedResponse p k, _, s, h, _ => by simp [expand] at h
  | .gaussian z, _, s, h, _ => by simp [expand] at h
  | .laplace z, _, s, h, _ => by simp [expand] at h
  | .selfComposed e m, c, s, h, hk => by
      rw [expand, repeatList, List.mem_flatten] at h
      obtain ⟨l, hl, hx⟩ := h
      rw [List.eq_of_mem_replicate hl] at hx
      simp only [maybeCompose] at hk ⊢; exact nonPrivate_marks e _ s hx hk
  | .composed es, c, s, h, hk => by
      rw [expand] at h
      simp only [maybeCompose] at hk ⊢; exact nonPrivateList_marks es _ s h hk
  | .poissonSampled q e, c, s, h, _ => by simp [expand] at h
  | .sampledWithReplacement _ _ _, _, _, h, _ => by simp [expand] at h
  | .sampledWithoutReplacement _ _ e, _, _, h, _ => by simp [expand] at h
  | .singleEpochTreeAggregation _ _, _, _, h, _ => by simp [expand] at h
  | .repeatAndSelect e _ _, c, s, h, _ => by simp [expand] at h
  | .mixtureOfGaussians _ _ _, _, _, h, _ => by simp [expand] at h
theorem nonPrivateList_marks : ∀ (es : List DpEvent) (c : ℤ) (s : PldState P),
    .nonPrivate ∈ expandList es →
    (composeList F nr es c true s).2 = .ok none →
    (composeList F nr es c true s).1.nonDp = true
  | [], _, _, h, _ => by simp [expandList] at h
  | e :: es, c, s, h, hk => by
      rw [expandList, List.mem_append] at h
      have h1 := nonPrivate_marks e c s
      simp only [composeList] at hk ⊢
      generalize maybeCompose F nr e c true s = r at *
      obtain ⟨a, r⟩ := r
      match r, hk with
      | .error err, hk => simp at hk
      | .ok (some d), hk => simp at hk
      | .ok none, hk =>
        simp only at hk ⊢
        rcases h with h | h
        · exact nonDpList_mono F nr es c true a (h1 h rfl)
        · exact nonPrivateList_marks es c a h hk
end

mutual
/-- The real run reports no composition error when the dry run reports none. -/
theorem real_of_dry : ∀ (e : DpEvent) (c : ℤ) (s : PldState P),
    (∃ c' s', (maybeCompose F nr e c' false s').2 = .ok none) →
    ∀ d, (maybeCompose F nr e c true s).2 ≠ .ok (some d)
  | .noOp, _, _, _, d => by simp [maybeCompose]
  | .nonPrivate, _, _, _, d => by simp [maybeCompose, markNonDp]
  | .unsupported, _, _, ⟨_, _, h⟩, d => by simp [maybeCompose] at h
  | .sampledWithReplacement _ _ _, _, _, ⟨_, _, h⟩, d => by simp [maybeCompose] at h
  | .sampledWithoutReplacement _ _ _, _, _, ⟨_, _, h⟩, d => by simp [maybeCompose] at h
  | .singleEpochTreeAggregation _ _, _, _, ⟨_, _, h⟩, d => by simp [maybeCompose] at h
  | .repeatAndSelect _ _ _, _, _, ⟨_, _, h⟩, d => by simp [maybeCompose] at h
  | .selfComposed e m, c, s, ⟨c', s', h⟩, d => by
      simp only [maybeCompose] at h ⊢
      exact real_of_dry e _ _ ⟨_, _, h⟩ d
  | .composed es, c, s, ⟨c', s', h⟩, d => by
      simp only [maybeCompose] at h ⊢
      exact realList_of_dry es _ _ ⟨_, _, h⟩ d
  | .gaussian z, c, s, _, d => by
      simp only [maybeCompose, if_true]
      split_ifs <;> first | exact composeWith_ne F d | simp [markNonDp]
  | .laplace z, c, s, _, d => by
      simp only [maybeCompose, if_true]
      split_ifs <;> first | exact composeWith_ne F d | simp [markNonDp]
  | .mixtureOfGaussians _ _ _, c, s, _, d => by
      simp only [maybeCompose, if_true]
      split_ifs <;> first | exact composeWith_ne F d | simp [markNonDp]
  | .randomizedResponse p k, c, s, ⟨_, _, h⟩, d => by
      simp only [maybeCompose] at h ⊢
      split at h
      · rename_i hh; simp only [hh, if_true]
        split_ifs <;> first | exact composeWith_ne F d | simp [markNonDp]
      · simp at h
  | .poissonSampled q e, c, s, ⟨c', s', h⟩, d => by
      rcases poisson_eq F nr q e c' false s' with ⟨z, rfl⟩ | ⟨z, rfl⟩ | h'
      · simp only [maybeCompose] at h ⊢
        split at h
        · rename_i hh; simp only [hh, if_true]
          split_ifs <;> first | exact composeWith_ne F d | simp [markNonDp]
        · simp at h
      · simp only [maybeCompose] at h ⊢
        split at h
        · rename_i hh; simp only [hh, if_true]
          split_ifs <;> first | exact composeWith_ne F d | simp [markNonDp]
        · simp at h
      · rw [h'] at h; simp at h
theorem realList_of_dry : ∀ (es : List DpEvent) (c : ℤ) (s : PldState P),
    (∃ c' s', (composeList F nr es c' false s').2 = .ok none) →
    ∀ d, (composeList F nr es c true s).2 ≠ .ok (some d)
  | [], _, _, _, d => by simp [composeList]
  | e :: es, c, s, ⟨c', s', h⟩, d => by
      simp only [composeList] at h ⊢
      have hd : (maybeCompose F nr e c' false s').2 = .ok none := by
        generalize maybeCompose F nr e c' false s' = r at *
        obtain ⟨a, r⟩ := r
        match r, h with
        | .error err, h => simp at h
        | .ok (some d'), h => simp at h
        | .ok none, h => rfl
      have h1 := real_of_dry e c s ⟨_, _, hd⟩
      have h2 : ∃ s'', (composeList F nr es c' false s'').2 = .ok none := by
        generalize maybeCompose F nr e c' false s' = r at *
        obtain ⟨a, r⟩ := r
        simp only at hd; subst hd
        exact ⟨a, h⟩
      obtain ⟨s'', h2⟩ := h2
      generalize maybeCompose F nr e c true s = r at *
      obtain ⟨a, r⟩ := r
      match r, h1 with
      | .error err, _ => simp
      | .ok (some d'), h1 => exact absurd rfl (h1 d')
      | .ok none, _ => exact realList_of_dry es c a ⟨_, _, h2⟩ d
end

mutual
theorem verdict_total : ∀ (e : DpEvent), ∃ r, verdict F nr e = .ok r
  | .noOp => by simp [verdict, maybeCompose]
  | .nonPrivate => by simp [verdict, maybeCompose]
  | .unsupported => by simp [verdict, maybeCompose]
  | .sampledWithReplacement _ _ _ => by simp [verdict, maybeCompose]
  | .sampledWithoutReplacement _ _ _ => by simp [verdict, maybeCompose]
  | .singleEpochTreeAggregation _ _ => by simp [verdict, maybeCompose]
  | .repeatAndSelect _ _ _ => by simp [verdict, maybeCompose]
  | .gaussian _ => by simp [verdict, maybeCompose]
  | .laplace _ => by simp [verdict, maybeCompose]
  | .mixtureOfGaussians _ _ _ => by simp [verdict, maybeCompose]
  | .randomizedResponse _ _ => by
      simp only [verdict, maybeCompose]; split <;> simp
  | .poissonSampled q e => by
      rcases poisson_eq F nr q e 1 false (init F) with ⟨z, rfl⟩ | ⟨z, rfl⟩ | h
      · simp only [verdict, maybeCompose]; split <;> simp
      · simp only [verdict, maybeCompose]; split <;> simp
      · simp [verdict, h]
  | .selfComposed e m => by
      obtain ⟨r, hr⟩ := verdict_total e
      refine ⟨r, ?_⟩
      simp only [verdict, maybeCompose]
      rw [(dry_indep F nr e (m * 1) 1 (init F) (init F)).1]
      exact hr
  | .composed es => by
      simp only [verdict, maybeCompose]
      exact verdictList_total es
theorem verdictList_total : ∀ (es : List DpEvent), ∃ r, (composeList F nr es 1 false (init F)).2 = .ok r
  | [] => by simp [composeList]
  | e :: es => by
      obtain ⟨r, hr⟩ := verdict_total e
      have h2 := (dry_indep F nr e 1 1 (init F) (init F)).2
      obtain ⟨r', hr'⟩ := verdictList_total es
      simp only [composeList]
      rw [verdict] at hr
      generalize maybeCompose F nr e 1 false (init F) = q at *
      obtain ⟨a, q⟩ := q
      simp only at hr h2
      subst hr h2
      cases r with
      | none => exact ⟨r', hr'⟩
      | some d => exact ⟨some d, rfl⟩
end

section mono
variable (le : P → P → Prop) (hrefl : ∀ p, le p p) (htrans : ∀ p q r, le p q → le q r → le p r)
  (hle : ∀ p q r, F.compose p q = .ok r → le p r)
include hrefl htrans hle

theorem composeWith_mono (s : PldState P) (o : Except Err P) : le s.pld (composeWith F s o).1.pld := by
  unfold composeWith
  cases o with
  | error err => exact hrefl _
  | ok p =>
    simp only
    cases h : F.compose s.pld p with
    | error err => exact hrefl _
    | ok r => exact hle _ _ _ h

mutual
theorem pld_mono : ∀ (e : DpEvent) (c : ℤ) (doC : Bool) (s : PldState P),
    le s.pld (maybeCompose F nr e c doC s).1.pld
  | .noOp, _, _, s => by simpa [maybeCompose] using hrefl _
  | .nonPrivate, _, doC, s => by cases doC <;> simpa [maybeCompose, markNonDp] using hrefl _
  | .unsupported, _, _, s => by simpa [maybeCompose] using hrefl _
  | .sampledWithReplacement _ _ _, _, _, s => by simpa [maybeCompose] using hrefl _
  | .sampledWithoutReplacement _ _ _, _, _, s => by simpa [maybeCompose] using hrefl _
  | .singleEpochTreeAggregation _ _, _, _, s => by simpa [maybeCompose] using hrefl _
  | .repeatAndSelect _ _ _, _, _, s => by simpa [maybeCompose] using hrefl _
  | .selfComposed e m, c, doC, s => by
      simp only [maybeCompose]; exact pld_mono e _ doC s
  | .composed es, c, doC, s => by
      simp only [maybeCompose]; exact pldList_mono es c doC s
  | .randomizedResponse p k, c, doC, s => by
      simp only [maybeCompose]
      split_ifs <;> first | exact hrefl _ | exact composeWith_mono F le hrefl htrans hle s _
  | .gaussian z, c, doC, s => by
      simp only [maybeCompose]
      split_ifs <;> first | exact hrefl _ | exact composeWith_mono F le hrefl htrans hle s _
  | .laplace z, c, doC, s => by
      simp only [maybeCompose]
      split_ifs <;> first | exact hrefl _ | exact composeWith_mono F le hrefl htrans hle s _
  | .mixtureOfGaussians d ss ps, c, doC, s => by
      simp only [maybeCompose]
      split_ifs <;> first | exact hrefl _ | exact composeWith_mono F le hrefl htrans hle s _
  | .poissonSampled q e, c, doC, s => by
      rcases poisson_eq F nr q e c doC s with ⟨z, rfl⟩ | ⟨z, rfl⟩ | h
      · simp only [maybeCompose]
        split_ifs <;> first | exact hrefl _ | exact composeWith_mono F le hrefl htrans hle s _
      · simp only [maybeCompose]
        split_ifs <;> first | exact hrefl _ | exact composeWith_mono F le hrefl htrans hle s _
      · rw [h]; exact hrefl _
theorem pldList_mono : ∀ (es : List DpEvent) (c : ℤ) (doC : Bool) (s : PldState P),
    le s.pld (composeList F nr es c doC s).1.pld
  | [], _, _, s => by simpa [composeList] using hrefl _
  | e :: es, c, doC, s => by
      have h1 := pld_mono e c doC s
      simp only [composeList]
      generalize maybeCompose F nr e c doC s = q at *
      obtain ⟨a, q⟩ := q
      match q with
      | .error err => exact h1
      | .ok (some d) => exact h1
      | .ok none => exact htrans _ _ _ h1 (pldList_mono es c doC a)
end
end mono

end Verif.PldAccountant
