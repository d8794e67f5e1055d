import Verif.Proofs.Svt6

/-!
# Sparse vector technique (C48, C49, C54, C63)
-/

namespace Verif.Props
open MeasureTheory Verif.Spec Verif.Svt

/-- C48: a call answers query `i` of sample `s` as long as fewer than `max_answered_queries` earlier noisy queries were at least the
noisy threshold, and gives no response afterwards. The answer is "above" (for SVT3, the noisy query) or "below". -/
theorem C48_answers {v : SvtVariant} {cfg : SvtConfig} {data : List ℝ} {n : ℕ} {draws : Draws n cfg.numQueries}
    {out : Fin n → Fin cfg.numQueries → SvtOut} (h : call v cfg data n draws = .ok out) :
    ∃ q, queryValues cfg data = .ok q ∧ ∀ s i,
      let noisy : Fin cfg.numQueries → ℝ := fun j => q j + queryScale cfg v * (draws s).2 j
      let threshold : ℝ := cfg.threshold + thresholdScale cfg v * (draws s).1
      let count : ℤ := countBelow (fun j => threshold ≤ noisy j) i.val
      (count < cfg.maxAnswered → threshold ≤ noisy i → v ≠ .svt3 → out s i = .above) ∧
      (count < cfg.maxAnswered → threshold ≤ noisy i → v = .svt3 → out s i = .value (noisy i)) ∧
      (count < cfg.maxAnswered → noisy i < threshold → out s i = .below) ∧
      (cfg.maxAnswered ≤ count → out s i = .noResponse) := by
  obtain ⟨q, hq, ht, hs⟩ := call_ok h
  refine ⟨q, hq, fun s i => ?_⟩
  rw [call_eq hq ht hs] at h
  injection h with h
  rw [← h]
  dsimp only
  refine ⟨fun hc hp hv => ?_, fun hc hp hv => ?_, fun hc hp => ?_, fun hc => ?_⟩
  · unfold rowSpec
    rw [if_pos hc]
    exact (queryOutput_bin hv _ _).trans (if_pos hp)
  · subst hv
    unfold rowSpec
    rw [if_pos hc]
    exact if_pos hp
  · unfold rowSpec
    rw [if_pos hc]
    exact if_neg (not_le.2 hp)
  · unfold rowSpec
    rw [if_neg (not_lt.2 hc)]

/-- C48: no sample gets more than `max_answered_queries` positive answers; the responses stop exactly when that many have been given,
and for good. -/
theorem C48_stops {v : SvtVariant} {cfg : SvtConfig} {data : List ℝ} {n : ℕ} {draws : Draws n cfg.numQueries}
    {out : Fin n → Fin cfg.numQueries → SvtOut} (h : call v cfg data n draws = .ok out) (s : Fin n) :
    (∀ i ≤ cfg.numQueries, (countBelow (fun j => (out s j).Positive) i : ℤ) ≤ max cfg.maxAnswered 0) ∧
    (∀ i, out s i = .noResponse ↔ cfg.maxAnswered ≤ countBelow (fun j => (out s j).Positive) i.val) ∧
    (∀ i j, i ≤ j → out s i = .noResponse → out s j = .noResponse) := by
  obtain ⟨q, hq, hr⟩ := C48_answers h
  have hpos : (fun j => (out s j).Positive) = fun j => (countBelow (fun j => cfg.threshold + thresholdScale cfg v * (draws s).1 ≤
      q j + queryScale cfg v * (draws s).2 j) j.val : ℤ) < cfg.maxAnswered ∧
      cfg.threshold + thresholdScale cfg v * (draws s).1 ≤ q j + queryScale cfg v * (draws s).2 j := by
    funext j
    obtain ⟨h1, h2, h3, h4⟩ := hr s j
    refine propext ⟨fun hp => ?_, fun hp => ?_⟩
    · refine ⟨?_, ?_⟩
      · by_contra hc
        rw [h4 (not_lt.1 hc)] at hp
        exact hp
      · by_contra hlt
        by_cases hc : (countBelow (fun j => cfg.threshold + thresholdScale cfg v * (draws s).1 ≤
            q j + queryScale cfg v * (draws s).2 j) j.val : ℤ) < cfg.maxAnswered
        · rw [h3 hc (not_le.1 hlt)] at hp
          exact hp
        · rw [h4 (not_lt.1 hc)] at hp
          exact hp
    · by_cases hv : v = .svt3
      · rw [h2 hp.1 hp.2 hv]; trivial
      · rw [h1 hp.1 hp.2 hv]; trivial
  have hno : ∀ i, out s i = .noResponse ↔ cfg.maxAnswered ≤ (countBelow (fun j => cfg.threshold + thresholdScale cfg v * (draws s).1 ≤
      q j + queryScale cfg v * (draws s).2 j) i.val : ℤ) := by
    intro i
    obtain ⟨h1, h2, h3, h4⟩ := hr s i
    refine ⟨fun hn => ?_, h4⟩
    by_contra hc
    rw [not_le] at hc
    rcases le_or_gt (cfg.threshold + thresholdScale cfg v * (draws s).1) (q i + queryScale cfg v * (draws s).2 i) with hp | hp
    · by_cases hv : v = .svt3
      · rw [h2 hc hp hv] at hn; cases hn
      · rw [h1 hc hp hv] at hn; cases hn
    · rw [h3 hc hp] at hn; cases hn
  refine ⟨fun i hi => ?_, fun i => ?_, fun i j hij hi => ?_⟩
  · rw [hpos, countBelow_answered _ i hi]
    exact min_le_right _ _
  · rw [hno i, hpos, countBelow_answered _ i.val i.isLt.le]
    omega
  · rw [hno] at hi ⊢
    exact le_trans hi (by exact_mod_cast cnt_mono _ hij)

/-- C48: a call succeeds exactly when the queries have answers and the noise scales are not negative. -/
theorem C48_succeeds {v : SvtVariant} {cfg : SvtConfig} {data : List ℝ} {n : ℕ} {draws : Draws n cfg.numQueries} :
    (∃ out, call v cfg data n draws = .ok out) ↔
      (∃ q, queryValues cfg data = .ok q) ∧ 0 ≤ thresholdScale cfg v ∧ 0 ≤ queryScale cfg v := by
  constructor
  · rintro ⟨out, h⟩
    obtain ⟨q, h1, h2, h3⟩ := call_ok h
    exact ⟨⟨q, h1⟩, h2, h3⟩
  · rintro ⟨⟨q, h1⟩, h2, h3⟩
    exact ⟨_, call_eq h1 h2 h3⟩

/-- A configuration for the examples. -/
noncomputable def svtExample : SvtConfig := ⟨1, 1, 0, .revealRecords, 3, 1 / 2, 2⟩

/-- The hypotheses of the theorems of C48 hold for a call with three queries, of which two may be positive. -/
example (draws : Draws 5 svtExample.numQueries) : ∃ out, call .svt1 svtExample [0, 1] 5 draws = .ok out :=
  C48_succeeds.2 ⟨let ⟨_, _, h⟩ := reveal_ok (cfg := svtExample) (data := [0, 1]) rfl (by simp); ⟨_, h⟩,
    by norm_num [thresholdScale, sensitivity, svtExample], by norm_num [queryScale, sensitivity, svtExample]⟩

/-! ## Sensitivities -/

/-- C54: the values of the reveal-records queries on any two data sets with at least two records differ by at most the declared
sensitivity. -/
theorem C54_reveal {cfg : SvtConfig} (hty : cfg.queryType = .revealRecords) (hm : cfg.minValue ≤ cfg.maxValue) {data data' : List ℝ}
    (hl : 2 ≤ data.length) (hl' : 2 ≤ data'.length) : svtClose cfg data data' := by
  obtain ⟨x, y, h⟩ := reveal_ok hty hl
  obtain ⟨x', y', h'⟩ := reveal_ok hty hl'
  exact ⟨_, _, h, h', fun i => clip_diff hm⟩

/-- C54: the clipped sums of data sets that differ in one record differ by at most the declared sensitivity. -/
theorem C54_sum_replace {cfg : SvtConfig} (hty : cfg.queryType = .sum) (hm : cfg.minValue ≤ cfg.maxValue) (l r : List ℝ) (x y : ℝ) :
    svtClose cfg (l ++ x :: r) (l ++ y :: r) := by
  refine sum_close hty ?_
  simp only [List.map_append, List.map_cons, List.sum_append, List.sum_cons]
  refine le_trans (le_of_eq ?_) (clip_diff (x := x) (y := y) hm)
  congr 1
  ring

/-- C54, adding or removing a record: the declared sensitivity is right if zero is between the clipping bounds. Missing: other
bounds, for which it is wrong (`C54_sum_violated`). -/
theorem C54_sum_add_remove_partial {cfg : SvtConfig} (hty : cfg.queryType = .sum) (hm : cfg.minValue ≤ 0) (hM : 0 ≤ cfg.maxValue)
    (l r : List ℝ) (x : ℝ) : svtClose cfg (l ++ x :: r) (l ++ r) ∧ svtClose cfg (l ++ r) (l ++ x :: r) := by
  have key : |clip x cfg.minValue cfg.maxValue| ≤ sensitivity cfg := by
    obtain ⟨a, b⟩ := clip_mem (x := x) (le_trans hm hM)
    unfold sensitivity
    exact abs_le.2 ⟨by linarith, by linarith⟩
  constructor
  · refine sum_close hty ?_
    simp only [List.map_append, List.map_cons, List.sum_append, List.sum_cons]
    refine le_trans (le_of_eq ?_) key
    congr 1
    ring
  · refine sum_close hty ?_
    simp only [List.map_append, List.map_cons, List.sum_append, List.sum_cons]
    refine le_trans (le_of_eq ?_) key
    rw [← abs_neg (clip x _ _)]
    congr 1
    ring

/-- C54 is violated for the sum query and adding or removing a record: with records clipped to between 5 and 6 the declared
sensitivity is 1, but a record changes the sum by at least 5. -/
theorem C54_sum_violated : ∃ cfg : SvtConfig, cfg.queryType = .sum ∧ cfg.minValue < cfg.maxValue ∧ sensitivity cfg = 1 ∧
    ∀ (l r : List ℝ) (x : ℝ), ∃ q q', queryValues cfg (l ++ x :: r) = .ok q ∧ queryValues cfg (l ++ r) = .ok q' ∧ ∀ i, 5 ≤ q i - q' i := by
  refine ⟨⟨1, 6, 5, .sum, 1, 0, 1⟩, rfl, by norm_num, by norm_num [sensitivity], fun l r x => ⟨_, _, rfl, rfl, fun i => ?_⟩⟩
  simp only [List.map_append, List.map_cons, List.sum_append, List.sum_cons]
  have := (clip_mem (x := x) (lo := 5) (hi := 6) (by norm_num)).1
  linarith

/-! ## Privacy -/

/-- C49: SVT1 is `epsilon`-differentially private for data sets on which the query values differ by at most the declared sensitivity:
no set of answers to a sample is more than `e^epsilon` times as likely on one of them as on the other. -/
theorem C49_svt1 {cfg : SvtConfig} (he : 0 < cfg.epsilon) {data data' : List ℝ} (hd : svtClose cfg data data') (n : ℕ) (s : Fin n)
    (S : Set (Fin cfg.numQueries → SvtOut)) :
    svtProb .svt1 cfg data n s S ≤ Real.exp cfg.epsilon * svtProb .svt1 cfg data' n s S := by
  refine svt_le (by simp) hd he.le (fun ht hs hc => ?_) (fun hc hs => ⟨?_, ?_⟩) s S
  · have hc' : (0 : ℝ) < cfg.maxAnswered := by exact_mod_cast hc
    have h0 : 0 < sensitivity cfg := by
      unfold thresholdScale at ht
      rw [div_pos_iff_of_pos_right he] at ht
      linarith
    simp only [thresholdScale, queryScale]
    refine le_of_eq ?_
    field_simp
    norm_num
  · unfold thresholdScale
    exact div_ne_zero (mul_ne_zero two_ne_zero hs) he.ne'
  · unfold queryScale
    have : (cfg.maxAnswered : ℝ) ≠ 0 := by exact_mod_cast hc.ne'
    exact div_ne_zero (mul_ne_zero (mul_ne_zero four_ne_zero this) hs) he.ne'

/-- C49: SVT2 is `epsilon`-differentially private too. -/
theorem C49_svt2 {cfg : SvtConfig} (he : 0 < cfg.epsilon) {data data' : List ℝ} (hd : svtClose cfg data data') (n : ℕ) (s : Fin n)
    (S : Set (Fin cfg.numQueries → SvtOut)) :
    svtProb .svt2 cfg data n s S ≤ Real.exp cfg.epsilon * svtProb .svt2 cfg data' n s S := by
  refine svt_le (by simp) hd he.le (fun ht hs hc => ?_) (fun hc hs => ⟨?_, ?_⟩) s S
  · have hc' : (1 : ℝ) ≤ cfg.maxAnswered := by exact_mod_cast hc
    have hc0 : (0 : ℝ) < cfg.maxAnswered := by linarith
    have h0 : 0 < sensitivity cfg := by
      unfold thresholdScale at ht
      rw [div_pos_iff_of_pos_right he] at ht
      by_contra hh
      have := mul_nonneg (neg_nonneg.2 (not_lt.1 hh)) hc0.le
      nlinarith
    simp only [thresholdScale, queryScale]
    have e : sensitivity cfg / (2 * sensitivity cfg * cfg.maxAnswered / cfg.epsilon) +
        cfg.maxAnswered * (2 * sensitivity cfg / (4 * cfg.maxAnswered * sensitivity cfg / cfg.epsilon)) =
        cfg.epsilon * (1 / (2 * cfg.maxAnswered) + 1 / 2) := by
      field_simp
      ring
    rw [e]
    have : 1 / (2 * (cfg.maxAnswered : ℝ)) ≤ 1 / 2 := one_div_le_one_div_of_le (by norm_num) (by linarith)
    nlinarith
  · unfold thresholdScale
    have : (cfg.maxAnswered : ℝ) ≠ 0 := by exact_mod_cast hc.ne'
    exact div_ne_zero (mul_ne_zero (mul_ne_zero two_ne_zero hs) this) he.ne'
  · unfold queryScale
    have : (cfg.maxAnswered : ℝ) ≠ 0 := by exact_mod_cast hc.ne'
    exact div_ne_zero (mul_ne_zero (mul_ne_zero four_ne_zero this) hs) he.ne'

/-- C49: SVT4 is `(1 + 6 max_answered_queries) epsilon / 4`-differentially private, as its documentation says. -/
theorem C49_svt4 {cfg : SvtConfig} (he : 0 < cfg.epsilon) (hc0 : 0 ≤ cfg.maxAnswered) {data data' : List ℝ} (hd : svtClose cfg data data')
    (n : ℕ) (s : Fin n) (S : Set (Fin cfg.numQueries → SvtOut)) :
    svtProb .svt4 cfg data n s S ≤ Real.exp ((1 + 6 * cfg.maxAnswered) * cfg.epsilon / 4) * svtProb .svt4 cfg data' n s S := by
  have hc1 : (0 : ℝ) ≤ cfg.maxAnswered := by exact_mod_cast hc0
  refine svt_le (by simp) hd (by positivity) (fun ht hs hc => ?_) (fun hc hs => ⟨?_, ?_⟩) s S
  · have h0 : 0 < sensitivity cfg := by
      unfold thresholdScale at ht
      rw [div_pos_iff_of_pos_right he] at ht
      linarith
    simp only [thresholdScale, queryScale]
    refine le_of_eq ?_
    field_simp
    ring
  · unfold thresholdScale
    exact div_ne_zero (mul_ne_zero four_ne_zero hs) he.ne'
  · unfold queryScale
    exact div_ne_zero (mul_ne_zero four_ne_zero hs) (mul_ne_zero three_ne_zero he.ne')

/-- C49: SVT6, documented as not private, is `(1/2 + max_answered_queries) epsilon`-differentially private: unlike the algorithm it is
named after, the code stops after `max_answered_queries` positive answers. -/
theorem C49_svt6 {cfg : SvtConfig} (he : 0 < cfg.epsilon) (hc0 : 0 ≤ cfg.maxAnswered) {data data' : List ℝ} (hd : svtClose cfg data data')
    (n : ℕ) (s : Fin n) (S : Set (Fin cfg.numQueries → SvtOut)) :
    svtProb .svt6 cfg data n s S ≤ Real.exp ((1 / 2 + cfg.maxAnswered) * cfg.epsilon) * svtProb .svt6 cfg data' n s S := by
  have hc1 : (0 : ℝ) ≤ cfg.maxAnswered := by exact_mod_cast hc0
  refine svt_le (by simp) hd (by positivity) (fun ht hs hc => ?_) (fun hc hs => ⟨?_, ?_⟩) s S
  · have h0 : 0 < sensitivity cfg := by
      unfold thresholdScale at ht
      rw [div_pos_iff_of_pos_right he] at ht
      linarith
    simp only [thresholdScale, queryScale]
    refine le_of_eq ?_
    field_simp
  · unfold thresholdScale
    exact div_ne_zero (mul_ne_zero two_ne_zero hs) he.ne'
  · unfold queryScale
    exact div_ne_zero (mul_ne_zero two_ne_zero hs) he.ne'

/-- The hypotheses hold for the reveal-records queries on the data sets of the documentation, and the calls succeed. -/
example (n : ℕ) (s : Fin n) (S) : svtProb .svt1 svtExample [0, 1] n s S ≤ Real.exp 1 * svtProb .svt1 svtExample [0, 1, 0] n s S :=
  C49_svt1 (cfg := svtExample) (by norm_num [svtExample]) (C54_reveal rfl (by norm_num [svtExample]) (by simp) (by simp)) n s S

/-- The probabilities are those of calls that succeed. -/
example (n : ℕ) (s : Fin n) : svtProb .svt1 svtExample [0, 1] n s Set.univ = 1 := by
  obtain ⟨x, y, h⟩ := reveal_ok (cfg := svtExample) rfl (data := [0, 1]) (by simp)
  rw [svtProb_eq (by simp) h (by norm_num [thresholdScale, sensitivity, svtExample]) (by norm_num [queryScale, sensitivity, svtExample])]
  simp

/-- C49 needs the declared sensitivities to be right: for sums of records clipped to exactly 5, whose declared sensitivity is 0, SVT1
tells the data sets `[5]` and `[]` apart with certainty. -/
theorem C49_svt1_violated (e : ℝ) (he : 0 < e) : ∃ cfg : SvtConfig, cfg.epsilon = e ∧ cfg.minValue ≤ cfg.maxValue ∧ cfg.queryType = .sum ∧
    ∃ S, ∀ (n : ℕ) (s : Fin n), svtProb .svt1 cfg [5] n s S = 1 ∧ svtProb .svt1 cfg [] n s S = 0 := by
  refine ⟨⟨e, 5, 5, .sum, 1, 3, 1⟩, rfl, le_rfl, rfl, {r | r ⟨0, by simp⟩ = .above}, fun n s => ?_⟩
  have ht : thresholdScale ⟨e, 5, 5, .sum, 1, 3, 1⟩ .svt1 = 0 := by simp [thresholdScale, sensitivity]
  have hs : queryScale ⟨e, 5, 5, .sum, 1, 3, 1⟩ .svt1 = 0 := by simp [queryScale, sensitivity]
  have h5 : queryValues ⟨e, 5, 5, .sum, 1, 3, 1⟩ [5] = .ok fun _ => 5 := by
    simp [queryValues, sumQuery, clip]
  have h0 : queryValues ⟨e, 5, 5, .sum, 1, 3, 1⟩ [] = .ok fun _ => 0 := by
    simp [queryValues, sumQuery]
  rw [svtProb_eq (by simp) h5 ht.ge hs.ge, svtProb_eq (by simp) h0 ht.ge hs.ge, ht, hs]
  have hcnt : ∀ p : Fin 1 → Prop, countBelow p 0 = 0 := fun p => cnt_zero p
  constructor
  · have : {d : ℝ × (Fin 1 → ℝ) | binRow 1 (passes 3 0 0 (fun _ => 5) d) ∈ ({r | r ⟨0, by simp⟩ = .above} : Set (Fin 1 → SvtOut))} = Set.univ := by
      ext d
      simp only [Set.mem_ofPred_eq, Set.mem_univ, iff_true]
      unfold binRow rowSpec
      rw [hcnt, if_pos (by norm_num)]
      exact if_pos (by unfold passes; norm_num)
    exact (congrArg _ this).trans probReal_univ
  · have : {d : ℝ × (Fin 1 → ℝ) | binRow 1 (passes 3 0 0 (fun _ => 0) d) ∈ ({r | r ⟨0, by simp⟩ = .above} : Set (Fin 1 → SvtOut))} = ∅ := by
      ext d
      simp only [Set.mem_ofPred_eq, Set.mem_empty_iff_false, iff_false]
      unfold binRow rowSpec
      rw [hcnt, if_pos (by norm_num)]
      have : ¬ passes 3 0 0 (fun _ => 0) d (⟨0, by simp⟩ : Fin 1) := by unfold passes; norm_num
      intro h
      have h2 := (if_neg this).symm.trans h
      cases h2
    exact (congrArg _ this).trans measureReal_empty

/-- C63: SVT5 is not private at all, as documented: whatever its `epsilon`, threshold and cut-off, some answers on the data set
`[0, 1, 0]` have a positive probability but are impossible on the neighbouring data set `[0, 1]`. -/
theorem C63_svt5 (e t : ℝ) (c : ℤ) (he : 0 < e) (hc : 1 ≤ c) : ∃ S, ∀ (n : ℕ) (s : Fin n),
    0 < svtProb .svt5 ⟨e, 1, 0, .revealRecords, 2, t, c⟩ [0, 1, 0] n s S ∧
    svtProb .svt5 ⟨e, 1, 0, .revealRecords, 2, t, c⟩ [0, 1] n s S = 0 := by
  refine ⟨{r | r ⟨0, by simp⟩ = .below ∧ r ⟨1, by simp⟩ = .above}, fun n s => ?_⟩
  have hts : thresholdScale ⟨e, 1, 0, .revealRecords, 2, t, c⟩ .svt5 = 2 / e := by simp [thresholdScale, sensitivity]
  have hqs : queryScale ⟨e, 1, 0, .revealRecords, 2, t, c⟩ .svt5 = 0 := rfl
  have h1 : queryValues ⟨e, 1, 0, .revealRecords, 2, t, c⟩ [0, 1, 0] = .ok fun i => if i.val < 1 then 0 else 1 := by
    simp [queryValues, revealQuery, clip]
  have h2 : queryValues ⟨e, 1, 0, .revealRecords, 2, t, c⟩ [0, 1] = .ok fun i => if i.val < 1 then 1 else 0 := by
    simp [queryValues, revealQuery, clip]
  have hpos : 0 < 2 / e := by positivity
  rw [svtProb_eq (by simp) h1 (by rw [hts]; exact hpos.le) hqs.ge, svtProb_eq (by simp) h2 (by rw [hts]; exact hpos.le) hqs.ge, hts, hqs]
  have row0 : ∀ p : Fin 2 → Prop, ¬ p 0 → binRow c p 0 = .below := by
    intro p hp
    unfold binRow rowSpec
    have e0 : countBelow p (0 : Fin 2).val = 0 := cnt_zero p
    rw [e0, if_pos (by omega)]
    exact if_neg hp
  have row0' : ∀ p : Fin 2 → Prop, p 0 → binRow c p 0 = .above := by
    intro p hp
    unfold binRow rowSpec
    have e0 : countBelow p (0 : Fin 2).val = 0 := cnt_zero p
    rw [e0, if_pos (by omega)]
    exact if_pos hp
  have row1 : ∀ p : Fin 2 → Prop, ¬ p 0 → (binRow c p 1 = .above ↔ p 1) := by
    intro p hp
    classical
    unfold binRow rowSpec
    have e0 : countBelow p (1 : Fin 2).val = 0 := by
      have := cnt_succ p 0
      rw [if_neg hp] at this
      exact this.trans (cnt_zero p)
    rw [e0, if_pos (by omega)]
    by_cases h1 : p 1 <;> simp [h1]
  constructor
  · have hsub : (Set.Ioc (-t * e / 2) ((1 - t) * e / 2)) ×ˢ (Set.univ : Set (Fin 2 → ℝ)) ⊆
        {d : ℝ × (Fin 2 → ℝ) | binRow c (passes t (2 / e) 0 (fun i => if i.val < 1 then 0 else 1) d) ∈
          ({r | r ⟨0, by simp⟩ = .below ∧ r ⟨1, by simp⟩ = .above} : Set (Fin 2 → SvtOut))} := by
      rintro ⟨x, y⟩ ⟨⟨hx1, hx2⟩, _⟩
      have hn : ¬ passes t (2 / e) 0 (fun i : Fin 2 => if i.val < 1 then (0 : ℝ) else 1) (x, y) 0 := by
        unfold passes
        simp only [Fin.val_zero, zero_lt_one, if_true, zero_mul, add_zero, not_le]
        have : -t < 2 / e * x := by
          rw [div_mul_eq_mul_div, lt_div_iff₀ he]
          simp only [] at hx1
          linarith
        linarith
      refine ⟨row0 _ hn, (row1 _ hn).2 ?_⟩
      unfold passes
      simp only [Fin.val_one, lt_irrefl, if_false, zero_mul, add_zero]
      have : 2 / e * x ≤ 1 - t := by
        rw [div_mul_eq_mul_div, div_le_iff₀ he]
        simp only [] at hx2
        linarith
      linarith
    refine lt_of_lt_of_le ?_ (measureReal_mono hsub)
    rw [measureReal_def, ENNReal.toReal_pos_iff]
    refine ⟨?_, measure_lt_top _ _⟩
    unfold svtDraw
    rw [Measure.prod_prod, measure_univ, mul_one, pos_iff_ne_zero]
    refine laplace_pos ?_
    rw [Real.volume_Ioc, Ne, ENNReal.ofReal_eq_zero, not_le]
    have : (1 - t) * e / 2 - -t * e / 2 = e / 2 := by ring
    rw [this]
    positivity
  · have : {d : ℝ × (Fin 2 → ℝ) | binRow c (passes t (2 / e) 0 (fun i => if i.val < 1 then 1 else 0) d) ∈
          ({r | r ⟨0, by simp⟩ = .below ∧ r ⟨1, by simp⟩ = .above} : Set (Fin 2 → SvtOut))} = ∅ := by
      ext ⟨x, y⟩
      simp only [Set.mem_empty_iff_false, iff_false]
      rintro ⟨ha, hb⟩
      by_cases hp : passes t (2 / e) 0 (fun i : Fin 2 => if i.val < 1 then (1 : ℝ) else 0) (x, y) 0
      · have := (row0' _ hp).symm.trans ha
        cases this
      · have h3 := (row1 _ hp).1 hb
        unfold passes at hp h3
        simp only [Fin.val_zero, Fin.val_one, zero_lt_one, lt_irrefl, if_true, if_false, zero_mul, add_zero, not_le] at hp h3
        linarith
    exact (congrArg _ this).trans measureReal_empty

/-- C63: SVT3 is not private, as documented. With `m + 2` queries, the answers "below" for all but the last and a value of at most zero for
the last are possible and exactly `e^(m epsilon / (2 max_answered_queries))` times as likely on the data set `[0, 1, 0]` as on the neighbouring
data set `[0, 1]`, whatever the threshold. -/
theorem C63_svt3 (e t : ℝ) (c : ℤ) (m : ℕ) (he : 0 < e) (hc : 1 ≤ c) : ∃ S, ∀ (n : ℕ) (s : Fin n),
    0 < svtProb .svt3 ⟨e, 1, 0, .revealRecords, m + 2, t, c⟩ [0, 1] n s S ∧
    svtProb .svt3 ⟨e, 1, 0, .revealRecords, m + 2, t, c⟩ [0, 1, 0] n s S =
      Real.exp (m * e / (2 * c)) * svtProb .svt3 ⟨e, 1, 0, .revealRecords, m + 2, t, c⟩ [0, 1] n s S := by
  refine ⟨breakOut (m + 1), fun n s => ?_⟩
  have hc0 : (0 : ℝ) < c := by exact_mod_cast hc
  have hts : thresholdScale ⟨e, 1, 0, .revealRecords, m + 2, t, c⟩ .svt3 = 2 / e := by simp [thresholdScale, sensitivity]
  have hqs : queryScale ⟨e, 1, 0, .revealRecords, m + 2, t, c⟩ .svt3 = 2 * c / e := by simp [queryScale, sensitivity]
  have hts0 : 0 < 2 / e := by positivity
  have hqs0 : 0 < 2 * c / e := by positivity
  have h1 := reveal_one e t c (m + 1)
  have h2 := reveal_zero e t c (m + 1)
  have p1 := svtProb_break (cfg := ⟨e, 1, 0, .revealRecords, m + 2, t, c⟩) (m := m + 1) rfl hc h1 (by rw [hts]; exact hts0.le)
    (by rw [hqs]; exact hqs0.le) s
  have p2 := svtProb_break (cfg := ⟨e, 1, 0, .revealRecords, m + 2, t, c⟩) (m := m + 1) rfl hc h2 (by rw [hts]; exact hts0.le)
    (by rw [hqs]; exact hqs0.le) s
  rw [hts, hqs] at p1 p2
  have r := breakSet_ratio m t (2 / e) hqs0
  rw [show (m : ℝ) / (2 * c / e) = m * e / (2 * c) by field_simp] at r
  exact ⟨lt_of_lt_of_eq (breakSet_pos (m + 1) t hts0 hqs0) p2.symm, p1.trans (r.trans (congrArg _ p2.symm))⟩

/-- C63: hence SVT3 is not `epsilon'`-differentially private for any `epsilon'`, if there are enough queries; with more than
`2 max_answered_queries + 2` of them it is not private for the `epsilon` it is configured with. -/
theorem C63_svt3_not_private (e t e' : ℝ) (c : ℤ) (k : ℕ) (he : 0 < e) (hc : 1 ≤ c) (hk : 2 + 2 * c * e' / e < k) (hk2 : 2 ≤ k) :
    ∃ S, ∀ (n : ℕ) (s : Fin n), Real.exp e' * svtProb .svt3 ⟨e, 1, 0, .revealRecords, k, t, c⟩ [0, 1] n s S <
      svtProb .svt3 ⟨e, 1, 0, .revealRecords, k, t, c⟩ [0, 1, 0] n s S := by
  obtain ⟨m, rfl⟩ : ∃ m, k = m + 2 := ⟨k - 2, by omega⟩
  obtain ⟨S, hS⟩ := C63_svt3 e t c m he hc
  refine ⟨S, fun n s => ?_⟩
  obtain ⟨h1, h2⟩ := hS n s
  rw [h2]
  refine mul_lt_mul_of_pos_right (Real.exp_lt_exp.2 ?_) h1
  have hc0 : (0 : ℝ) < c := by exact_mod_cast hc
  push_cast at hk
  have hk : 2 * c * e' / e < m := by linarith
  rw [div_lt_iff₀ he] at hk
  rw [lt_div_iff₀ (by positivity)]
  linarith

/-- Five queries and one positive answer allowed: the configured epsilon is exceeded. -/
example (t : ℝ) : ∃ S, ∀ (n : ℕ) (s : Fin n), Real.exp 1 * svtProb .svt3 ⟨1, 1, 0, .revealRecords, 5, t, 1⟩ [0, 1] n s S <
    svtProb .svt3 ⟨1, 1, 0, .revealRecords, 5, t, 1⟩ [0, 1, 0] n s S :=
  C63_svt3_not_private 1 t 1 1 5 one_pos le_rfl (by norm_num) (by norm_num)

/-- C63: SVT6 is not private for the epsilon it is configured with: if there are enough queries, some set of answers is more than `e^eta` times
as likely on the data set `[0, 1, 0]` as on the neighbouring data set `[0, 1]`, for every `eta` below `3 epsilon / 2`. -/
theorem C63_svt6 (e t η : ℝ) (c : ℤ) (he : 0 < e) (hc : 1 ≤ c) (hη : η < 3 * e / 2) : ∃ K, ∀ k, K ≤ k → ∃ S, ∀ (n : ℕ) (s : Fin n),
    Real.exp η * svtProb .svt6 ⟨e, 1, 0, .revealRecords, k, t, c⟩ [0, 1] n s S <
      svtProb .svt6 ⟨e, 1, 0, .revealRecords, k, t, c⟩ [0, 1, 0] n s S := by
  refine svt_tight (by simp) hc (a := 2 / e) (b := 2 / e) (fun k => by simp [thresholdScale, sensitivity])
    (fun k => by simp [queryScale, sensitivity]) (by positivity) (by positivity) ?_
  refine hη.trans_eq ?_
  field_simp
  norm_num

/-- In particular for the configured epsilon. -/
example (e t : ℝ) (he : 0 < e) : ∃ K, ∀ k, K ≤ k → ∃ S, ∀ (n : ℕ) (s : Fin n),
    Real.exp e * svtProb .svt6 ⟨e, 1, 0, .revealRecords, k, t, 3⟩ [0, 1] n s S <
      svtProb .svt6 ⟨e, 1, 0, .revealRecords, k, t, 3⟩ [0, 1, 0] n s S :=
  C63_svt6 e t e 3 he (by norm_num) (by linarith)

/-- C49: the guarantees of SVT1 and SVT2 cannot be improved: with one positive answer allowed and enough queries, neither is private for any
epsilon smaller than the one it is configured with. -/
theorem C49_svt12_sharp (e t η : ℝ) (he : 0 < e) (hη : η < e) {v : SvtVariant} (hv : v = .svt1 ∨ v = .svt2) :
    ∃ K, ∀ k, K ≤ k → ∃ S, ∀ (n : ℕ) (s : Fin n), Real.exp η * svtProb v ⟨e, 1, 0, .revealRecords, k, t, 1⟩ [0, 1] n s S <
      svtProb v ⟨e, 1, 0, .revealRecords, k, t, 1⟩ [0, 1, 0] n s S := by
  have h : η < 1 / (2 / e) + 2 / (4 / e) := by
    refine hη.trans_eq ?_
    field_simp
    norm_num
  rcases hv with rfl | rfl
  · exact svt_tight (by simp) le_rfl (fun k => by simp [thresholdScale, sensitivity]) (fun k => by simp [queryScale, sensitivity])
      (by positivity) (by positivity) h
  · exact svt_tight (by simp) le_rfl (fun k => by simp [thresholdScale, sensitivity]) (fun k => by simp [queryScale, sensitivity])
      (by positivity) (by positivity) h

/-- C49: the guarantee of SVT4, `(1 + 6 max_answered_queries) epsilon / 4`, cannot be improved for one positive answer, and SVT4 is not private
for the epsilon it is configured with, whatever the number of positive answers. Its documentation calls the guarantee "stronger than the one
claimed"; it is weaker. -/
theorem C49_svt4_sharp (e t η : ℝ) (c : ℤ) (he : 0 < e) (hc : 1 ≤ c) (hη : η < 7 * e / 4) : ∃ K, ∀ k, K ≤ k → ∃ S, ∀ (n : ℕ) (s : Fin n),
    Real.exp η * svtProb .svt4 ⟨e, 1, 0, .revealRecords, k, t, c⟩ [0, 1] n s S <
      svtProb .svt4 ⟨e, 1, 0, .revealRecords, k, t, c⟩ [0, 1, 0] n s S := by
  refine svt_tight (by simp) hc (a := 4 / e) (b := 4 / (3 * e)) (fun k => by simp [thresholdScale, sensitivity])
    (fun k => by simp [queryScale, sensitivity]) (by positivity) (by positivity) ?_
  refine hη.trans_eq ?_
  field_simp
  norm_num

/-- In particular for the configured epsilon. -/
example (e t : ℝ) (he : 0 < e) : ∃ K, ∀ k, K ≤ k → ∃ S, ∀ (n : ℕ) (s : Fin n),
    Real.exp e * svtProb .svt4 ⟨e, 1, 0, .revealRecords, k, t, 1⟩ [0, 1] n s S <
      svtProb .svt4 ⟨e, 1, 0, .revealRecords, k, t, 1⟩ [0, 1, 0] n s S :=
  C49_svt4_sharp e t e 1 he le_rfl (by linarith)

end Verif.Props
