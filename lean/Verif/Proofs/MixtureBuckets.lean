import Verif.Proofs.MixtureBase

/-!
# Mixtures of Gaussians: privacy buckets

The inverse of the loss is only computed up to `1e-6`, so that the end points of the buckets need not be increasing. The upper bound is
proved with the potential `gain (below w) + (F x - F w) h`, the lower bound with increasing end points.
-/

namespace Verif.Mixture
open Verif Spec Pld PldPmf MeasureTheory ProbabilityTheory Mech

namespace Obj

section loop
variable {P Q : Measure ℝ} {cdf : EReal → ℝ} {loss : ℝ → ℝ} {inv : ℝ → Except Err EReal} {disc ε η Lu : ℝ} {A : Set ℝ}

/-- What the loop needs of the distributions and of the loss. -/
structure Buckets (P Q : Measure ℝ) (cdf : EReal → ℝ) (loss : ℝ → ℝ) : Prop where
  probP : IsProbabilityMeasure P
  probQ : IsProbabilityMeasure Q
  cdf : ∀ x, cdf x = P.real (below x)
  upper : ∀ (B : Set ℝ) (v : ℝ), (∀ y ∈ B, loss y ≤ v) → ∀ C, MeasurableSet C → C ⊆ B → P.real C ≤ Real.exp v * Q.real C
  lower : ∀ (B : Set ℝ) (v : ℝ), (∀ y ∈ B, v ≤ loss y) → ∀ C, MeasurableSet C → C ⊆ B → Real.exp v * Q.real C ≤ P.real C

lemma below_subset {x x' : EReal} (hx : x ≤ x') : below x ⊆ below x' := fun _ hy => le_trans hy hx

lemma Buckets.between (h : Buckets P Q cdf loss) {x x' : EReal} (hx : x ≤ x') : P.real (below x' \ below x) = cdf x' - cdf x := by
  have := h.probP
  rw [measureReal_sdiff (below_subset hx) (measurableSet_below x), h.cdf, h.cdf]

lemma Buckets.mono (h : Buckets P Q cdf loss) {x x' : EReal} (hx : x ≤ x') : cdf x ≤ cdf x' := by
  have := h.between hx
  have h2 : 0 ≤ P.real (below x' \ below x) := measureReal_nonneg
  linarith

lemma hinge_shift (ε v η : ℝ) : hinge ((ε + η : ℝ) : EReal) (v + η) = hinge ε v := by
  rw [hinge_coe, hinge_coe]
  congr 3
  ring

lemma hinge_nonneg' (ε v : ℝ) : 0 ≤ hinge ε v := by rw [hinge_coe]; exact le_max_left _ _

lemma hinge_mono' (ε : ℝ) {v w : ℝ} (h : v ≤ w) : hinge ε v ≤ hinge ε w := by
  rw [hinge_coe, hinge_coe]
  refine max_le_max le_rfl ?_
  have := Real.exp_le_exp.2 (show ε - w ≤ ε - v by linarith)
  linarith

lemma hinge_le_one' (ε v : ℝ) : hinge ε v ≤ 1 := by
  rw [hinge_coe]
  refine max_le zero_le_one ?_
  linarith [Real.exp_pos (ε - v)]

lemma piece_shift (h : Buckets P Q cdf loss) (hA : MeasurableSet A) {x x' : EReal} (hx : x ≤ x') {v : ℝ}
    (hv : ∀ y : ℝ, x < (y : EReal) → loss y ≤ v + η) :
    gain P Q (ε + η) A (below x' \ below x) ≤ (cdf x' - cdf x) * hinge ε v := by
  have := h.probP
  have := h.probQ
  rw [← h.between hx, ← hinge_shift ε v η]
  exact piece_upper hA ((measurableSet_below x').diff (measurableSet_below x)) (h.upper _ _ fun y hy => hv y (not_le.1 hy.2))

lemma loop_upper (h : Buckets P Q cdf loss) (hd : 0 < disc) (hA : MeasurableSet A) {u : EReal}
    (hinv : ∀ (k : ℤ) x, Lu < disc * k → inv (disc * k) = .ok x → ∀ y : ℝ, x < (y : EReal) → loss y ≤ disc * k + η) (T : ℝ) :
    ∀ (fuel : ℕ) (x : EReal) (rd : ℤ) (l : List (EReal × ℤ)) (d : PyDict),
    bucketLoop inv disc u (Lu : EReal) fuel x rd = some (.ok l) →
    (∀ y : ℝ, x < (y : EReal) → x < u → loss y ≤ disc * (rd + 1) + η) →
    (∀ w ≤ x, gain P Q (ε + η) A (below w) + T ≤ expect d (fun k => hinge ε (k * disc)) -
      (cdf x - cdf w) * hinge ε (((rd + 1 : ℤ) : ℝ) * disc)) →
    gain P Q (ε + η) A (below u) + T ≤ expect (addBuckets cdf true x l d) (fun k => hinge ε (k * disc)) := by
  have := h.probP
  have := h.probQ
  intro fuel
  induction fuel with
  | zero =>
    intro x rd l d hl hy hw
    unfold bucketLoop at hl
    split_ifs at hl with hx
    cases (Except.ok.inj (Option.some.inj hl))
    have := hw u (not_lt.1 hx)
    have h2 := mul_nonneg (sub_nonneg.2 (h.mono (not_lt.1 hx))) (hinge_nonneg' ε (((rd + 1 : ℤ) : ℝ) * disc))
    rw [addBuckets]
    linarith
  | succ fuel ih =>
    intro x rd l d hl hy hw
    unfold bucketLoop at hl
    split_ifs at hl with hx hk
    · -- the last bucket
      cases hrec : bucketLoop inv disc u (Lu : EReal) fuel u (rd - 1) with
      | none => simp [hrec] at hl
      | some r =>
        have hr : r = .ok [] := by
          unfold bucketLoop at hrec
          rw [if_neg (lt_irrefl u)] at hrec
          exact (Option.some.inj hrec).symm
        rw [hr] at hrec
        simp only [hrec, Option.map_some, Option.some.injEq] at hl
        cases (Except.ok.inj hl)
        rw [addBuckets, addBuckets, PyDict.expect_addK, roundFn_half, if_pos rfl]
        have h1 := hw x le_rfl
        have h2 := piece_shift (Q := Q) (ε := ε) (η := η) h hA hx.le (v := ((rd + 1 : ℤ) : ℝ) * disc) (fun y hxy => by
          have := hy y hxy hx
          push_cast
          linarith)
        have h3 := gain_diff (P := P) (Q := Q) (ε := ε + η) hA (measurableSet_below x) (below_subset hx.le)
        rw [h3]
        rw [sub_self, zero_mul, sub_zero] at h1
        linarith
    · cases hnext : inv (disc * rd) with
      | error e => simp [hnext] at hl
      | ok x' =>
        simp only [hnext] at hl
        cases hrec : bucketLoop inv disc u (Lu : EReal) fuel x' (rd - 1) with
        | none => simp [hrec] at hl
        | some r =>
          simp only [hrec, Option.map_some, Option.some.injEq] at hl
          cases r with
          | error e => exact absurd hl (by simp [Except.map])
          | ok l' =>
            cases (Except.ok.inj (show Except.ok ((x', rd) :: l') = Except.ok l from hl))
            rw [addBuckets]
            have hk' : Lu < disc * rd := EReal.coe_lt_coe_iff.1 (not_le.1 hk)
            refine ih x' (rd - 1) l' _ hrec (fun y hy' _ => ?_) (fun w hw' => ?_)
            · have := hinv rd x' hk' hnext y hy'
              push_cast
              rw [sub_add_cancel]
              exact this
            · rw [PyDict.expect_addK, roundFn_half, if_pos rfl]
              have hmon : hinge ε (((rd - 1 + 1 : ℤ) : ℝ) * disc) ≤ hinge ε (((rd + 1 : ℤ) : ℝ) * disc) := by
                refine hinge_mono' ε (mul_le_mul_of_nonneg_right ?_ hd.le)
                push_cast
                linarith
              have hmul := mul_le_mul_of_nonneg_left hmon (sub_nonneg.2 (h.mono hw'))
              rcases le_total w x with hwx | hxw
              · have := hw w hwx
                linarith
              · have h1 := hw x le_rfl
                have h2 := piece_shift (Q := Q) (ε := ε) (η := η) h hA hxw (v := ((rd + 1 : ℤ) : ℝ) * disc) (fun y hxy => by
                  have := hy y hxy hx
                  push_cast
                  linarith)
                have h3 := gain_diff (P := P) (Q := Q) (ε := ε + η) hA (measurableSet_below x) (below_subset hxw)
                rw [h3]
                rw [sub_self, zero_mul, sub_zero] at h1
                linarith
    · cases (Except.ok.inj (Option.some.inj hl))
      have := hw u (not_lt.1 hx)
      have h2 := mul_nonneg (sub_nonneg.2 (h.mono (not_lt.1 hx))) (hinge_nonneg' ε (((rd + 1 : ℤ) : ℝ) * disc))
      rw [addBuckets]
      linarith

/-- The lower bound, for increasing end points. -/
lemma loop_lower (h : Buckets P Q cdf loss) (hA : Test P Q (ε - η) false A) {u : EReal}
    (hu : ∀ y : ℝ, (y : EReal) ≤ u → Lu ≤ loss y) (hη : 0 ≤ η)
    (hinv : ∀ (k : ℤ) x, Lu < disc * k → inv (disc * k) = .ok x → (∀ y : ℝ, (y : EReal) ≤ x → disc * k - η ≤ loss y) ∧
      ∀ (k' : ℤ) x', k' ≤ k → Lu < disc * k' → inv (disc * k') = .ok x' → x ≤ x') :
    ∀ (fuel : ℕ) (x : EReal) (rd : ℤ) (l : List (EReal × ℤ)) (d : PyDict),
    bucketLoop inv disc u (Lu : EReal) fuel x rd = some (.ok l) →
    (∀ (k' : ℤ) x', k' ≤ rd → Lu < disc * k' → inv (disc * k') = .ok x' → x ≤ x') →
    ∃ w, expect (addBuckets cdf false x l d) (fun k => hinge ε (k * disc)) + gain P Q (ε - η) A (below x) ≤
      expect d (fun k => hinge ε (k * disc)) + gain P Q (ε - η) A (below w) := by
  have := h.probP
  have := h.probQ
  have piece : ∀ {x x' : EReal} {v : ℝ}, x ≤ x' → (∀ y : ℝ, (y : EReal) ≤ x' → v - η ≤ loss y) →
      (cdf x' - cdf x) * hinge ε v ≤ gain P Q (ε - η) A (below x' \ below x) := by
    intro x x' v hx hv
    have e := hinge_shift (ε - η) (v - η) η
    rw [sub_add_cancel, sub_add_cancel] at e
    rw [← h.between hx, e]
    exact piece_lower hA ((measurableSet_below x').diff (measurableSet_below x)) (h.lower _ _ fun y hy => hv y hy.1)
  intro fuel
  induction fuel with
  | zero =>
    intro x rd l d hl _
    unfold bucketLoop at hl
    split_ifs at hl with hx
    cases (Except.ok.inj (Option.some.inj hl))
    exact ⟨x, by rw [addBuckets]⟩
  | succ fuel ih =>
    intro x rd l d hl hmono
    unfold bucketLoop at hl
    split_ifs at hl with hx hk
    · cases hrec : bucketLoop inv disc u (Lu : EReal) fuel u (rd - 1) with
      | none => simp [hrec] at hl
      | some r =>
        have hr : r = .ok [] := by
          unfold bucketLoop at hrec
          rw [if_neg (lt_irrefl u)] at hrec
          exact (Option.some.inj hrec).symm
        rw [hr] at hrec
        simp only [hrec, Option.map_some, Option.some.injEq] at hl
        cases (Except.ok.inj hl)
        refine ⟨u, ?_⟩
        rw [addBuckets, addBuckets, PyDict.expect_addK, roundFn_half, if_neg (by simp)]
        have h2 := piece hx.le (v := (rd : ℝ) * disc) (fun y hy => by
          have h1 := hu y hy
          have h2 : disc * rd ≤ Lu := EReal.coe_le_coe_iff.1 hk
          linarith)
        have h3 := gain_diff (P := P) (Q := Q) (ε := ε - η) hA.1 (measurableSet_below x) (below_subset hx.le)
        rw [h3]
        linarith
    · cases hnext : inv (disc * rd) with
      | error e => simp [hnext] at hl
      | ok x' =>
        simp only [hnext] at hl
        cases hrec : bucketLoop inv disc u (Lu : EReal) fuel x' (rd - 1) with
        | none => simp [hrec] at hl
        | some r =>
          simp only [hrec, Option.map_some, Option.some.injEq] at hl
          cases r with
          | error e => exact absurd hl (by simp [Except.map])
          | ok l' =>
            cases (Except.ok.inj (show Except.ok ((x', rd) :: l') = Except.ok l from hl))
            rw [addBuckets]
            have hk' : Lu < disc * rd := EReal.coe_lt_coe_iff.1 (not_le.1 hk)
            have hxx := hmono rd x' le_rfl hk' hnext
            obtain ⟨i1, i2⟩ := hinv rd x' hk' hnext
            obtain ⟨w, hw⟩ := ih x' (rd - 1) l' (d.add (roundFn false ((rd : ℝ) + 0.5)) (cdf x' - cdf x)) hrec
              (fun k' x'' a b c => i2 k' x'' (by omega) b c)
            refine ⟨w, ?_⟩
            rw [PyDict.expect_addK, roundFn_half, if_neg (by simp)] at hw
            rw [roundFn_half, if_neg (by simp)]
            have h2 := piece hxx (v := (rd : ℝ) * disc) (fun y hy => by have := i1 y hy; linarith)
            have h3 := gain_diff (P := P) (Q := Q) (ε := ε - η) hA.1 (measurableSet_below x) (below_subset hxx)
            linarith
    · cases (Except.ok.inj (Option.some.inj hl))
      exact ⟨x, by rw [addBuckets]⟩

lemma addBuckets_nodup (pess : Bool) : ∀ (l : List (EReal × ℤ)) (x : EReal) (d : PyDict), d.keys.Nodup →
    (addBuckets cdf pess x l d).keys.Nodup := by
  intro l
  induction l with
  | nil => intro x d h; exact h
  | cons a l ih => intro x d h; exact ih _ _ (PyDict.nodup_add h _ _)

end loop

variable {m : Obj}

/-! ### The inverse of a single loss -/

open Classical in
lemma inverseLoss_infinite (h : m.Good) {l p : ℝ} (hin : m.InRange l) (hf : ¬ m.Finite l) : m.inverseLoss l p = .error .valueError := by
  unfold inverseLoss inverseLosses
  have : ([l].filter fun l => decide (m.Finite l)) = [] := by
    rw [List.filter_eq_nil_iff]; intro a ha; rw [List.mem_singleton] at ha; subst ha; simpa using hf
  simp only [this, if_true]
  split_ifs <;> first | rfl | simp_all

lemma listMin_pair (a b : ℝ) : listMin [a, b, a, b] = min a b := by
  simp only [listMin, List.foldl_cons, List.foldl_nil, List.headD_cons, min_self]
  rw [min_assoc (min a b) a b, min_self]

lemma listMax_pair (a b : ℝ) : listMax [a, b, a, b] = max a b := by
  simp only [listMax, List.foldl_cons, List.foldl_nil, List.headD_cons, max_self]
  rw [max_assoc (max a b) a b, max_self]

/-- The two candidates for a single loss. -/
noncomputable def cand (m : Obj) (l s : ℝ) : ℝ := m.back (m.yOf s (m.tOf l))

open Classical in
lemma inverseLoss_eq (h : m.Good) {l p lo hi r : ℝ} (hin : m.InRange l) (hf : m.Finite l)
    (hlo : lo = (⌊min (m.cand l m.minSens) (m.cand l m.maxSens) / p⌋ : ℝ) * p)
    (hhi : hi = (⌈max (m.cand l m.minSens) (m.cand l m.maxSens) / p⌉ : ℝ) * p)
    (hr : m.inverseRange p (depth p lo hi) [l] lo hi = some [r]) : m.inverseLoss l p = .ok (r : EReal) := by
  have hor : ¬ m.OutOfRange [l] := by
    have i1 := (inverted_iff h _).2 hin
    unfold OutOfRange
    unfold Inverted at i1
    cases hlim : m.limit with
    | none => simp
    | some L =>
      cases hadj : m.adj
      · simp only [hadj, hlim] at i1 ⊢
        simpa using i1.le
      · simp only [hadj, hlim] at i1 ⊢
        simpa using i1
  have hfil : ([l].filter fun l => decide (m.Finite l)) = [l] := by
    rw [List.filter_eq_self]; intro a ha; rw [List.mem_singleton] at ha; subst ha; simpa using hf
  have hfil' : ([l].filter fun l => decide (¬ m.Finite l)) = [] := by
    rw [List.filter_eq_nil_iff]; intro a ha; rw [List.mem_singleton] at ha; subst ha; simpa using hf
  have e1 : m.lowPl [l] [l] = l := by unfold lowPl; cases m.adj <;> simp [listMin]
  have e2 : m.highPl [l] [l] = l := by unfold highPl; cases m.adj <;> simp [listMax]
  unfold inverseLoss inverseLosses
  rw [if_neg (not_not.2 (List.pairwise_singleton _ _)), if_neg (by simp), if_neg hor]
  simp only [hfil, hfil']
  rw [if_neg (by simp)]
  change Except.map _ (m.candidates (m.lowPl [l] [l]) (m.highPl [l] [l]) >>= _) = _
  rw [e1, e2, candidates_eq h hin hin]
  change Except.map _ (match m.inverseRange p (depth p ((⌊listMin [m.cand l m.minSens, m.cand l m.maxSens, m.cand l m.minSens, m.cand l m.maxSens] / p⌋ : ℝ) * p)
    ((⌈listMax [m.cand l m.minSens, m.cand l m.maxSens, m.cand l m.minSens, m.cand l m.maxSens] / p⌉ : ℝ) * p)) [l]
    ((⌊listMin [m.cand l m.minSens, m.cand l m.maxSens, m.cand l m.minSens, m.cand l m.maxSens] / p⌋ : ℝ) * p)
    ((⌈listMax [m.cand l m.minSens, m.cand l m.maxSens, m.cand l m.minSens, m.cand l m.maxSens] / p⌉ : ℝ) * p) with
    | none => Except.error Err.notImplementedError
    | some out => Except.ok _) = _
  rw [listMin_pair, listMax_pair, ← hlo, ← hhi, hr]
  simp only [List.map_cons, List.map_nil, decide_eq_true hf]
  rfl

lemma inverseLoss_spec (h : m.Good) {l p : ℝ} (hp : 0 < p) (hin : m.InRange l) (hf : m.Finite l) :
    ∃ r : ℝ, m.inverseLoss l p = .ok (r : EReal) ∧ r ≤ (⌈max (m.cand l m.minSens) (m.cand l m.maxSens) / p⌉ : ℝ) * p ∧
      ∀ z, m.privacyLoss z = l → (z ≤ max (m.cand l m.minSens) (m.cand l m.maxSens) → z - p ≤ r) ∧
        (min (m.cand l m.minSens) (m.cand l m.maxSens) ≤ z → r ≤ z + p) := by
  set lo := (⌊min (m.cand l m.minSens) (m.cand l m.maxSens) / p⌋ : ℝ) * p with hlo
  set hi := (⌈max (m.cand l m.minSens) (m.cand l m.maxSens) / p⌉ : ℝ) * p with hhi
  have hlo' : lo ≤ min (m.cand l m.minSens) (m.cand l m.maxSens) := by
    have := mul_le_mul_of_nonneg_right (Int.floor_le (min (m.cand l m.minSens) (m.cand l m.maxSens) / p)) hp.le
    rwa [div_mul_cancel₀ _ hp.ne'] at this
  have hhi' : max (m.cand l m.minSens) (m.cand l m.maxSens) ≤ hi := by
    have := mul_le_mul_of_nonneg_right (Int.le_ceil (max (m.cand l m.minSens) (m.cand l m.maxSens) / p)) hp.le
    rwa [div_mul_cancel₀ _ hp.ne'] at this
  obtain ⟨out, ho, hr⟩ := inverseRange_spec h hp (depth p lo hi) [l] lo hi (depth_ok hp)
  obtain ⟨r, out', hr1, hr2, rfl⟩ := List.forall₂_cons_left_iff.1 hr
  cases hr2
  exact ⟨r, inverseLoss_eq h hin hf hlo hhi ho, hr1.1, fun z hz =>
    ⟨fun hz' => (hr1.2 z hz).1 (hz'.trans hhi'), fun hz' => (hr1.2 z hz).2 (hlo'.trans hz')⟩⟩

/-- With one positive sensitivity the inverse is rounded up. -/
lemma inverseLoss_single (h : m.Good) {l p z : ℝ} (hp : 0 < p) (hs : m.minSens = m.maxSens) (hf : m.Finite l) (hz : m.privacyLoss z = l) :
    m.inverseLoss l p = .ok (((⌈z / p⌉ : ℝ) * p : ℝ) : EReal) := by
  have hin : m.InRange l := hz ▸ inRange_of_loss h z
  have hc : m.cand l m.minSens = z := by
    have hr := (privacyLoss_iff h z _).1 hz
    have h1 := y_le h hr
    rw [hs, max_self] at h1
    have h2 : m.yOf m.minSens (m.tOf l) ≤ m.arg z := by
      rcases le_total (m.arg z) m.minSens with k | k
      · exact le_y_of_le_min h hr k
      · rw [hs] at k ⊢; exact le_y_of_max_le h hr k
    rw [hs] at h2
    unfold cand
    rw [hs, ← le_antisymm h1 h2, back_arg]
  refine inverseLoss_eq h hin hf rfl rfl ?_
  rw [← hs, hc, min_self, max_self]
  unfold inverseRange
  have h1 : (⌈z / p⌉ : ℝ) ≤ ⌊z / p⌋ + 1 := by exact_mod_cast Int.ceil_le_floor_add_one _
  have h2 : (⌈z / p⌉ : ℝ) * p - (⌊z / p⌋ : ℝ) * p ≤ p := by
    have := mul_le_mul_of_nonneg_right h1 hp.le
    linarith
  rw [if_neg (by simp), if_pos h2, mul_div_cancel_right₀ _ hp.ne', Int.floor_intCast]
  rfl

/-- Upper end of the search interval. -/
lemma le_cand_add (h : m.Good) (hadj : m.adj = .add) (z : ℝ) :
    z ≤ max (m.cand (m.privacyLoss z) m.minSens) (m.cand (m.privacyLoss z) m.maxSens) := by
  have := outer h (z := z) le_rfl le_rfl
  rw [hadj] at this
  exact this

lemma le_cand_two (h : m.Good) (hadj : m.adj = .remove) (h2 : ∀ c ∈ m.pos, c.1 = m.minSens ∨ c.1 = m.maxSens) (z : ℝ) :
    z ≤ max (m.cand (m.privacyLoss z) m.minSens) (m.cand (m.privacyLoss z) m.maxSens) := by
  have hr := (privacyLoss_iff h z _).1 rfl
  have ht := inRange_of_loss h z
  have hmin := minSens_pos h
  have hmax := maxSens_pos h
  have key : ∀ {s}, 0 < s → m.ratio (m.arg z) ≤ m.one s (m.arg z) → z ≤ m.cand (m.privacyLoss z) s := by
    intro s hs hle
    have : m.yOf s (m.tOf (m.privacyLoss z)) ≤ m.arg z := by
      refine (one_strictMono h hs).le_iff_le.1 ?_
      rw [one_yOf h hs ht, ← hr]; exact hle
    unfold cand back
    unfold arg at this
    simp only [hadj] at this ⊢
    linarith
  rcases le_total (term (m.σ ^ 2) m.minSens (m.arg z)) (term (m.σ ^ 2) m.maxSens (m.arg z)) with k | k
  · refine le_max_of_le_right (key hmax (ratio_le_one h fun c hc => ?_))
    rcases h2 c hc with e | e <;> rw [e]; exact k
  · refine le_max_of_le_left (key hmin (ratio_le_one h fun c hc => ?_))
    rcases h2 c hc with e | e <;> rw [e]; exact k

lemma le_cand_anchored (h : m.Good) {z : ℝ} (hc : m.Covered [m.privacyLoss z]) :
    z ≤ max (m.cand (m.privacyLoss z) m.minSens) (m.cand (m.privacyLoss z) m.maxSens) := by
  cases hadj : m.adj
  · exact le_cand_add h hadj z
  · have := inner h (F := [m.privacyLoss z]) (fun l hl => by rw [List.mem_singleton] at hl; rw [hl]; exact inRange_of_loss h z) hc
      (z := z) (by simp)
    rw [hadj] at this
    simpa [listMin, cand] using this

end Obj
end Verif.Mixture
