import Verif.Proofs.ClusteringTree

/-!
# C47: the budget of the clustering is checked before the data is used

`A` is the accountant that is used (an arbitrary one here: the class and what its `get_epsilon` and `get_delta` return); `brentq` is the
root finder of `scipy`, `smallest` the outcome of `get_smallest_gaussian_noise`. Nothing is assumed about any of them.
-/

namespace Verif.Props
open Verif Verif.Clustering Verif.Spec

/-- What should be accounted for: one Gaussian sum with noise multiplier `σ / r` and `depth + 1` Laplace counts with parameter `a`. -/
noncomputable def clusteringEvent (σ r a : ℝ) (depth : ℤ) : DpEvent :=
  .composed [.gaussian (.float (σ / r)), if depth = 0 then .laplace (.float (1 / a)) else .selfComposed (.laplace (.float (1 / a))) (depth + 1)]

/-- The accountant, when new, accepts the event and then reports at most the requested parameters. -/
def WithinBudget {S : Type} (A : Acct S) (e : DpEvent) (p : PrivacyParam) : Prop :=
  ∃ s, A.acct.compose A.fresh (.event e) (.int 1) = (s, .ok ()) ∧ A.getEpsilon s p.delta ≤ p.epsilon ∧
    A.getDelta s p.epsilon.toReal ≤ p.delta

lemma build2_event {σ r a : ℝ} {D : ℤ} {e : DpEvent}
    (h : build2 (.gaussian (.float (σ / r))) (.laplace (.float (1 / a))) 1 (D + 1) = .ok e) : 0 ≤ D ∧ e = clusteringEvent σ r a D := by
  unfold build2 at h
  simp only [Builder.compose, Builder.composeEvent, Builder.init, Builder.push, List.getLast?_nil, List.nil_append] at h
  by_cases hD : D + 1 < 1
  · rw [if_neg (by norm_num)] at h
    simp [hD] at h
  · rw [if_neg (by norm_num)] at h
    simp only [hD, if_false] at h
    refine ⟨by omega, ?_⟩
    have hne : ¬ PyEq (.gaussian (.float (σ / r))) (.laplace (.float (1 / a))) := by intro h; cases h
    simp only [List.getLast?_singleton, hne, if_false, Builder.build, Builder.assemble, List.cons_append, List.nil_append, List.map_cons, List.map_nil,
      Builder.entryEvent, Except.ok.injEq] at h
    subst h
    unfold clusteringEvent
    simp

lemma makeEvent_float {σ r a : ℝ} {D : ℤ} (hσ : σ ≠ 0) :
    makeClusteringEvent σ (.float a) r D = build2 (.gaussian (.float (σ / r))) (.laplace (.float (1 / a))) 1 (D + 1) := by
  unfold makeClusteringEvent
  simp only [hσ, if_false]
  rfl

/-- **C47, the outcome.** With parameters that ask for privacy, the call either raises, whatever the data and the draws are, or the
accountant has found the event of one Gaussian sum with multiplier `σ / radius` and `max_depth + 1` Laplace counts with parameter `a`
to be within the requested budget and the result is computed with noise of exactly these parameters. -/
theorem C47_budget_checked {S : Type} (d fuel : ℕ) (brentq : (ℝ → Except CalErr EReal) → ℝ → ℝ → ℝ → Except CalErr (ℝ × Bool)) (A : Acct S)
    (k : ℤ) (radius : ℝ) (p : PrivacyParam) (hp : ¬ p.NonPrivate) (tree : Option TreeParam) (m : Multipliers) (smallest : Except Err ℝ) :
    (∃ e, ∀ (pts : List (Point d)) (w : Draws d), privateLshClustering fuel brentq A k pts radius p tree m smallest w = .error e) ∨
      ∃ σ a, 0 < σ ∧ 0 < a ∧ 0 < radius ∧ 0 ≤ chosenDepth tree ∧ p.central = true ∧ WithinBudget A (clusteringEvent σ radius a (chosenDepth tree)) p ∧
        ∀ (pts : List (Point d)) (w : Draws d), privateLshClustering fuel brentq A k pts radius p tree m smallest w =
          (privateCoreset ⟨σ, radius, .float a⟩ k pts radius (chosenDepth tree) tree w).mapError .py := by
  unfold privateLshClustering
  generalize chosenDepth tree = D
  cases hi : initPCalc fuel brentq A p radius D m smallest with
  | error e => exact .inl ⟨e, fun pts w => by simp only [hi]⟩
  | ok c =>
    cases hv : validateAccounting A c p D with
    | error e => exact .inl ⟨.py e, fun pts w => by simp only [hi, hv]⟩
    | ok u =>
      right
      have hi' := hi
      unfold initPCalc at hi'
      by_cases hc : p.central = true
      · rw [if_neg (by simp [hc]), if_neg hp] at hi'
        cases hint : getAlphaInterval p radius m smallest with
        | error e => rw [hint] at hi'; simp at hi'
        | ok interval =>
          rw [hint] at hi'
          simp only at hi'
          have hg : radius * m.gaussian ≠ 0 := by
            intro h0
            unfold getAlphaInterval at hint
            rw [if_neg hp] at hint
            cases smallest with
            | error e => simp at hint
            | ok s => simp [Multipliers.alpha, h0] at hint
          generalize Calibration.calibrate fuel brentq A.acct A.fresh (fun s δ => .ok (A.getEpsilon s δ)) (makeClusteringEventFromParam m radius D)
            p.epsilon.toReal p.delta interval false none = cal at hi'
          cases cal with
          | error e => simp at hi'
          | ok alpha =>
            simp only at hi'
            unfold Multipliers.laplaceParam at hi'
            by_cases h0 : m.laplace * alpha = 0
            · simp [h0] at hi'
            · rw [if_neg h0] at hi'
              simp only at hi'
              unfold mkPCalc at hi'
              split_ifs at hi' with h1 h2 h3
              simp only [Except.ok.injEq] at hi'
              subst hi'
              have hr : 0 < radius := not_le.1 h2
              have hσ0 : m.stdDev alpha radius ≠ 0 := by
                unfold Multipliers.stdDev
                have : m.gaussian ≠ 0 := right_ne_zero_of_mul hg
                have : alpha ≠ 0 := right_ne_zero_of_mul h0
                positivity
              have hσ : 0 < m.stdDev alpha radius := lt_of_le_of_ne (not_lt.1 h1) hσ0.symm
              have ha : 0 < 1 / (m.laplace * alpha) := by
                have := not_le.1 h3
                exact EReal.coe_pos.1 this
              unfold validateAccounting at hv
              rw [if_neg hp, makeEvent_float hσ0] at hv
              generalize hb : build2 _ _ _ _ = ev at hv
              cases ev with
              | error e => simp at hv
              | ok event =>
                obtain ⟨hD, rfl⟩ := build2_event hb
                simp only at hv
                rcases hcomp : A.acct.compose A.fresh (.event (clusteringEvent (m.stdDev alpha radius) radius (1 / (m.laplace * alpha)) D)) (.int 1)
                  with ⟨s, r⟩
                rw [hcomp] at hv
                cases r with
                | error e => simp at hv
                | ok u' =>
                  simp only at hv
                  split_ifs at hv with hle
                  push Not at hle
                  refine ⟨m.stdDev alpha radius, 1 / (m.laplace * alpha), hσ, ha, hr, hD, hc, ⟨s, hcomp, hle⟩, ?_⟩
                  intro pts w
                  have hv' : validateAccounting A ⟨m.stdDev alpha radius, radius, .float (1 / (m.laplace * alpha))⟩ p D = .ok () := by
                    unfold validateAccounting
                    rw [if_neg hp, makeEvent_float hσ0, hb]
                    simp only [hcomp]
                    rw [if_neg (by push Not; exact hle)]
                  simp only [hi, hv']
                  generalize privateCoreset _ k pts radius D tree w = o
                  cases o <;> rfl
      · rw [if_pos (by simpa using hc)] at hi'
        simp at hi'

/-- **C47, models.** Models other than the central one are refused. -/
theorem C47_only_central {S : Type} {d : ℕ} (fuel : ℕ) (brentq : (ℝ → Except CalErr EReal) → ℝ → ℝ → ℝ → Except CalErr (ℝ × Bool)) (A : Acct S)
    (k : ℤ) (pts : List (Point d)) (radius : ℝ) (p : PrivacyParam) (hp : p.central = false) (tree : Option TreeParam) (m : Multipliers)
    (smallest : Except Err ℝ) (w : Draws d) :
    privateLshClustering fuel brentq A k pts radius p tree m smallest w = .error (.py .notImplementedError) := by
  unfold privateLshClustering initPCalc
  simp [hp]

lemma coreset_noiseless {d : ℕ} {E E' : Env d} (h1 : E.pcalc = E'.pcalc) (h2 : E.tree = E'.tree) (h3 : E.radius = E'.radius) (h4 : E.proj = E'.proj)
    (h5 : E.pcalc.laplaceParam.val = ⊤) (h6 : E.pcalc.stdDev = 0) (pts : List (Point d)) (c : Option ℤ) :
    getPrivateCoreset E pts c = getPrivateCoreset E' pts c := by
  have hm : ∀ pre pts, mkNode E pre pts = mkNode E' pre pts := by
    intro pre pts
    unfold mkNode getPrivateCount
    rw [← h1, if_pos h5, if_pos h5]
  have hc : ∀ n, children E n = children E' n := by
    intro n
    unfold children
    simp only [hm, h2, h4]
  have hf : ∀ l, flattenChildren E l = flattenChildren E' l := by
    intro l
    induction l with
    | nil => rfl
    | cons n ns ih => unfold flattenChildren; rw [hc, ih]
  have hl : ∀ fuel l, levels E fuel l = levels E' fuel l := by
    intro fuel
    induction fuel with
    | zero => intro l; rfl
    | succ n ih =>
      intro l
      unfold levels getNextLevel filterBranching
      simp only [hf, h2, ih]
  have ha : ∀ l, averages E l = averages E' l := by
    intro l
    induction l with
    | nil => rfl
    | cons n ns ih =>
      unfold averages getPrivateAverage
      rw [ih, ← h1, h6]
      simp only [zero_smul]
  have hr : rootNode E pts c = rootNode E' pts c := by
    unfold rootNode
    rw [h2, hm]
  unfold getPrivateCoreset lshTree
  simp only [hr, h2, hl, ha, h3]

/-- **C47, no privacy requested.** With `epsilon = inf` or `delta ≥ 1` no noise is added: the draws do not matter. -/
theorem C47_non_private {S : Type} {d : ℕ} (fuel : ℕ) (brentq : (ℝ → Except CalErr EReal) → ℝ → ℝ → ℝ → Except CalErr (ℝ × Bool)) (A : Acct S)
    (k : ℤ) (pts : List (Point d)) (radius : ℝ) (p : PrivacyParam) (hp : p.NonPrivate) (tree : Option TreeParam) (m : Multipliers)
    (smallest : Except Err ℝ) (w w' : Draws d) (hw : w.proj = w'.proj) :
    privateLshClustering fuel brentq A k pts radius p tree m smallest w = privateLshClustering fuel brentq A k pts radius p tree m smallest w' := by
  unfold privateLshClustering
  cases hi : initPCalc fuel brentq A p radius (chosenDepth tree) m smallest with
  | error e => simp only
  | ok c =>
    have hc : c = ⟨0, radius, .inf⟩ := by
      unfold initPCalc at hi
      split_ifs at hi
      cases hm : mkPCalc 0 radius .inf with
      | error e => rw [hm] at hi; simp at hi
      | ok c' =>
        rw [hm] at hi
        unfold mkPCalc at hm
        split_ifs at hm
        simp only [Except.ok.injEq] at hi hm
        rw [← hi, ← hm]
    have hcore : privateCoreset c k pts radius (chosenDepth tree) tree w = privateCoreset c k pts radius (chosenDepth tree) tree w' := by
      have ht : c.laplaceParam.val = ⊤ := by rw [hc]; rfl
      have h0 : c.stdDev = 0 := by rw [hc]
      have htree : chooseTree c k pts.length d (chosenDepth tree) tree (w.countNoise []) =
          chooseTree c k pts.length d (chosenDepth tree) tree (w'.countNoise []) := by
        unfold chooseTree defaultTreeParam getPrivateCount
        simp only [ht, if_true]
      unfold privateCoreset
      rw [htree, hw]
      cases chooseTree c k pts.length d (chosenDepth tree) tree (w'.countNoise []) with
      | error e => rfl
      | ok tc =>
        cases clipByRadius radius pts with
        | error e => rfl
        | ok cl =>
          exact coreset_noiseless (E := ⟨c, tc.1, radius, w'.proj, w.countNoise, w.sumNoise⟩)
            (E' := ⟨c, tc.1, radius, w'.proj, w'.countNoise, w'.sumNoise⟩) rfl rfl rfl rfl ht h0 cl tc.2
    simp only [hcore]

lemma build2_ok {σ r a : ℝ} {D : ℤ} (hD : 0 ≤ D) :
    build2 (.gaussian (.float (σ / r))) (.laplace (.float (1 / a))) 1 (D + 1) = .ok (clusteringEvent σ r a D) := by
  cases h : build2 (.gaussian (.float (σ / r))) (.laplace (.float (1 / a))) 1 (D + 1) with
  | ok e => rw [(build2_event h).2]
  | error e =>
    unfold build2 at h
    simp only [Builder.compose, Builder.composeEvent, Builder.init, Builder.push, List.getLast?_nil, List.nil_append] at h
    rw [if_neg (by norm_num)] at h
    simp only [show ¬ D + 1 < 1 by omega, if_false] at h
    cases h

/-- An accountant that accepts everything and reports `epsilon = 2`, `delta = 0`. -/
noncomputable def toyAcct : Acct Unit :=
  ⟨⟨fun _ _ _ u => (u, .ok none)⟩, ⟨(), Builder.init⟩, fun _ _ => 2, fun _ _ => 0⟩

lemma toy_compose (σ r a : ℝ) (D : ℤ) : ∃ s, toyAcct.acct.compose toyAcct.fresh (.event (clusteringEvent σ r a D)) (.int 1) = (s, .ok ()) := by
  unfold toyAcct clusteringEvent
  simp only [Accountant.compose, Builder.compose, Builder.composeEvent]
  rw [if_neg (by norm_num)]
  exact ⟨_, rfl⟩

/-- With an accountant that accepts the requested budget, a run on two records produces a coreset, for all draws. -/
example (w : Draws 1) : ¬ (PrivacyParam.NonPrivate ⟨2, 0.1, true⟩) ∧
    ∃ r, privateLshClustering 10 (fun _ a _ _ => .ok (a, true)) toyAcct 2 [0, 0] 1 ⟨2, 0.1, true⟩ (some ⟨3, 1, 20⟩) ⟨1, 1⟩ (.ok 1) w = .ok r := by
  have hnp : ¬ (PrivacyParam.NonPrivate ⟨2, 0.1, true⟩) := by
    rintro (h | h)
    · exact absurd h (by decide)
    · norm_num at h
  refine ⟨hnp, ?_⟩
  have hev : ∀ x : ℝ, x ≠ 0 → ∃ σ a, makeClusteringEventFromParam ⟨1, 1⟩ 1 20 x = .ok (clusteringEvent σ 1 a 20) := by
    intro x hx
    unfold makeClusteringEventFromParam Multipliers.laplaceParam
    rw [if_neg (by simpa using hx)]
    simp only
    rw [makeEvent_float (by simpa [Multipliers.stdDev] using hx), build2_ok (by norm_num)]
    exact ⟨_, _, rfl⟩
  have h2 : (2 : EReal).toReal = 2 := EReal.toReal_coe 2
  have hgap : ∀ x : ℝ, x ≠ 0 → Calibration.epsilonGap toyAcct.acct toyAcct.fresh (fun s δ => .ok (toyAcct.getEpsilon s δ)) (makeClusteringEventFromParam ⟨1, 1⟩ 1 20)
      (2 : EReal).toReal 0.1 false x = .ok 0 := by
    intro x hx
    obtain ⟨σ, a, h⟩ := hev x hx
    obtain ⟨s, hs⟩ := toy_compose σ 1 a 20
    unfold Calibration.epsilonGap
    simp only [Bool.false_eq_true, if_false, h]
    have hl : Accountant.ledger toyAcct.fresh = (⟨(), ⟨[], some .noOp⟩⟩, .noOp) := rfl
    have hc : ∃ s, toyAcct.acct.compose ⟨(), ⟨[], some .noOp⟩⟩ (.event (clusteringEvent σ 1 a 20)) (.int 1) = (s, .ok ()) := by
      unfold toyAcct clusteringEvent
      simp only [Accountant.compose, Builder.compose, Builder.composeEvent]
      rw [if_neg (by norm_num)]
      exact ⟨_, rfl⟩
    obtain ⟨s', hs'⟩ := hc
    simp only [hl, hs', h2]
    show Except.ok ((2 : EReal) - ((2 : ℝ) : EReal)) = _
    congr 1
    exact EReal.sub_self (EReal.coe_ne_top 2) (EReal.coe_ne_bot 2)
  have hcal : Calibration.calibrate 10 (fun _ a _ _ => .ok (a, true)) toyAcct.acct toyAcct.fresh (fun s δ => .ok (toyAcct.getEpsilon s δ))
      (makeClusteringEventFromParam ⟨1, 1⟩ 1 20) (2 : EReal).toReal 0.1 (.lowerAndGuess 1 (2 * 1)) false none = .ok 1 := by
    unfold Calibration.calibrate
    rw [if_neg (by rw [h2]; norm_num), if_neg (by norm_num)]
    simp only [Calibration.effTol, Bool.false_eq_true, if_false, Calibration.search, Calibration.resolveBracket, Calibration.searchBracket]
    rw [if_neg (by norm_num), hgap 1 one_ne_zero, hgap (2 * 1) (by norm_num)]
    simp only [Calibration.bracketLoop, mul_zero, gt_iff_lt, lt_irrefl, if_false, Calibration.acceptRoot, Bool.not_true, Bool.false_eq_true]
    rw [hgap 1 one_ne_zero]
    simp
  have hp : initPCalc 10 (fun _ a _ _ => .ok (a, true)) toyAcct ⟨2, 0.1, true⟩ 1 20 ⟨1, 1⟩ (.ok 1) = .ok ⟨1, 1, .float 1⟩ := by
    unfold initPCalc
    rw [if_neg (by simp), if_neg hnp]
    have : getAlphaInterval ⟨2, 0.1, true⟩ 1 ⟨1, 1⟩ (.ok 1) = .ok (.lowerAndGuess 1 (2 * 1)) := by
      unfold getAlphaInterval
      rw [if_neg hnp]
      simp [Multipliers.alpha]
    rw [this]
    simp only [hcal, Multipliers.laplaceParam, Multipliers.stdDev, mkPCalc, PyNum.val]
    norm_num
    rw [if_neg (not_le.2 (by exact_mod_cast one_pos (α := ℝ)))]
  have hv : validateAccounting toyAcct ⟨1, 1, .float 1⟩ ⟨2, 0.1, true⟩ 20 = .ok () := by
    unfold validateAccounting
    rw [if_neg hnp, makeEvent_float one_ne_zero, build2_ok (by norm_num)]
    obtain ⟨s, hs⟩ := toy_compose 1 1 1 20
    simp only [hs]
    rw [if_neg]
    push Not
    exact ⟨le_refl _, by show (0 : ℝ) ≤ 0.1; norm_num⟩
  have hcore : ∃ r, privateCoreset ⟨1, 1, .float 1⟩ 2 [0, 0] 1 20 (some ⟨3, 1, 20⟩) w = .ok r := by
    unfold privateCoreset chooseTree clipByRadius
    simp only [List.isEmpty_cons, Bool.false_eq_true, if_false]
    exact ⟨_, coreset_spec _ _ _ ⟨by norm_num, by norm_num⟩ (by norm_num)⟩
  obtain ⟨r, hr⟩ := hcore
  unfold privateLshClustering
  simp only [chosenDepth, hp, hv, hr]
  exact ⟨r, rfl⟩

end Verif.Props
