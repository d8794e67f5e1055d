import Verif.Proofs.MixtureBuckets

/-! # Mixtures of Gaussians: privacy buckets, from the loop to the PMF -/

namespace Verif.Mixture
open Verif Spec Pld PldPmf MeasureTheory ProbabilityTheory Mech

namespace Obj
variable {m : Obj}

local notation "P[" m "]" => mixUpper (Obj.σ m) (Obj.comps m) (Obj.adj m)
local notation "Q[" m "]" => mixLower (Obj.σ m) (Obj.comps m) (Obj.adj m)

lemma good_buckets (h : m.Good) : Buckets P[m] Q[m] m.muUpperCdf m.privacyLoss := by
  have p1 := upper_prob h
  have p2 := lower_prob h
  refine ⟨p1, p2, muUpperCdf_eq h, ?_, ?_⟩
  all_goals rw [upper_density h] at p1 ⊢; rw [lower_density h] at p2 ⊢
  · intro B v hB C hC hCB
    refine withDensity_le (measurable_up m) (measurable_low m) (fun x => (low_pos h x).le) (Real.exp_pos v).le hC fun y hy => ?_
    rw [up_eq h]
    exact mul_le_mul_of_nonneg_right (Real.exp_le_exp.2 (hB y (hCB hy))) (low_pos h y).le
  · intro B v hB C hC hCB
    refine withDensity_ge (measurable_up m) (measurable_low m) (Real.exp_pos v).le hC fun y hy => ?_
    rw [up_eq h]
    exact mul_le_mul_of_nonneg_right (Real.exp_le_exp.2 (hB y (hCB hy))) (low_pos h y).le

lemma exists_test (h : m.Good) (ε : ℝ) : ∃ A, Test P[m] Q[m] ε false A := by
  have p1 := upper_prob h
  have p2 := lower_prob h
  rw [upper_density h] at p1 ⊢; rw [lower_density h] at p2 ⊢
  refine ⟨{y | Real.exp ε * m.low y ≤ m.up y}, measurableSet_le ((measurable_low m).const_mul _) (measurable_up m), fun _ => ⟨?_, ?_⟩⟩
  · intro C hC hCA
    exact withDensity_ge (measurable_up m) (measurable_low m) (Real.exp_pos ε).le hC fun y hy => hCA hy
  · intro C hC hCA
    exact withDensity_le (measurable_up m) (measurable_low m) (fun x => (low_pos h x).le) (Real.exp_pos ε).le hC fun y hy =>
      (not_le.1 (show ¬ (Real.exp ε * m.low y ≤ m.up y) from hCA hy)).le

/-! ### Tails -/

lemma truncation_spec (h : m.Good) {fuel : ℕ} {ppf : ℝ → ℝ} {t : ℝ × ℝ} (ht : m.truncation fuel ppf = some (.ok t)) :
    ppf (0.5 * Real.exp m.logBound) - m.maxSens ≤ t.1 ∧ t.1 ≤ ppf (0.5 * Real.exp m.logBound) ∧
      t.2 = -ppf (0.5 * Real.exp m.logBound) ∧
      (gcdf m.σ (ppf (0.5 * Real.exp m.logBound)) = 0.5 * Real.exp m.logBound → m.muUpperCdf (t.1 : EReal) ≤ 0.5 * Real.exp m.logBound) := by
  have hmax := maxSens_pos h
  unfold truncation at ht
  cases hadj : m.adj
  · simp only [hadj, Option.some.injEq] at ht
    cases (Except.ok.inj ht)
    refine ⟨by simp only []; linarith, le_rfl, rfl, fun hz => ?_⟩
    unfold muUpperCdf
    simp only [hadj]
    rw [noiseCdf_eq, below_coe]
    exact hz.le
  · simp only [hadj] at ht
    split at ht
    · rename_i x hx
      simp only [Option.some.injEq] at ht
      cases (Except.ok.inj ht)
      obtain ⟨⟨r1, r2⟩, _⟩ := Props.C25_found_in_range _ _ _ _ _ _ ⟨by
        rw [EReal.coe_le_coe_iff]; linarith, fun g hg => by simp at hg⟩ (fun hc => by simp at hc) hx
      exact ⟨EReal.coe_le_coe_iff.1 r1, EReal.coe_le_coe_iff.1 r2, rfl, fun _ => Props.C25_found_feasible _ _ _ _ _ _ hx⟩
    · simp at ht
    · simp at ht
    · simp at ht

lemma tail_ok {fuel : ℕ} {ppf : ℝ → ℝ} {t : Tail ℝ} (ht : m.tail fuel ppf = some (.ok t)) :
    m.truncation fuel ppf = some (.ok (t.lowerX, t.upperX)) ∧ t.masses = if m.pessimistic = true then
      dictPair ⊤ (m.muUpperCdf (t.lowerX : EReal)) (m.privacyLoss t.upperX : EReal) (1 - m.muUpperCdf (t.upperX : EReal))
      else [((m.privacyLoss t.lowerX : EReal), m.muUpperCdf (t.lowerX : EReal))] := by
  unfold tail at ht
  cases hr : m.truncation fuel ppf with
  | none => rw [hr] at ht; simp at ht
  | some r =>
    rw [hr] at ht
    cases r with
    | error e => simp only [Option.map_some, Option.some.injEq] at ht; cases ht
    | ok b =>
      simp only [Option.map_some, Option.some.injEq] at ht
      cases (Except.ok.inj ht)
      exact ⟨rfl, rfl⟩

lemma roundTail_pess {disc a L b : ℝ} :
    roundTail true disc (dictPair ⊤ a (L : EReal) b) [] = .ok [(⌈L / disc⌉, b)] ∧ infinityMassOf (dictPair ⊤ a (L : EReal) b) = a := by
  have hne : (⊤ : EReal) ≠ (L : EReal) := (EReal.coe_ne_top L).symm
  have e : dictPair ⊤ a (L : EReal) b = [(⊤, a), ((L : EReal), b)] := by unfold dictPair; rw [if_neg hne]
  rw [e]
  constructor
  · rw [roundTail, if_pos rfl, roundTail, if_neg hne.symm, roundDiv_real]
    show Except.ok (PyDict.add [] (roundFn true (L / disc)) b) = _
    simp [PyDict.add, PyDict.set, PyDict.get, roundFn]
  · rw [infinityMassOf, if_pos rfl]

lemma roundTail_opt {disc a L : ℝ} :
    roundTail false disc [((L : EReal), a)] [] = .ok [(⌊L / disc⌋, a)] ∧ infinityMassOf [((L : EReal), a)] = 0 := by
  constructor
  · rw [roundTail, if_neg (EReal.coe_ne_top L), roundDiv_real]
    show Except.ok (PyDict.add [] (roundFn false (L / disc)) a) = _
    simp [PyDict.add, PyDict.set, PyDict.get, roundFn]
  · rw [infinityMassOf, if_neg (EReal.coe_ne_top L), infinityMassOf]

/-- What a result of the construction consists of. -/
lemma buckets_ok {fuel : ℕ} {ppf : ℝ → ℝ} {t : Tail ℝ} {disc : ℝ} (hd : 0 < disc) (ht : m.tail fuel ppf = some (.ok t)) {pmf : Pmf}
    (hp : m.buckets fuel t disc = some (.ok pmf)) : ∃ l,
    bucketLoop (fun l => m.inverseLoss l 1e-6) disc (t.upperX : EReal) (m.privacyLoss t.upperX : EReal) fuel (t.lowerX : EReal)
      ⌊m.privacyLoss t.lowerX / disc⌋ = some (.ok l) ∧
    ∀ ε : ℝ, pmf.getDeltaForEpsilon ε = (if m.pessimistic = true then m.muUpperCdf (t.lowerX : EReal) else 0) +
      expect (addBuckets m.muUpperCdf m.pessimistic (t.lowerX : EReal) l (if m.pessimistic = true then
        [(⌈m.privacyLoss t.upperX / disc⌉, 1 - m.muUpperCdf (t.upperX : EReal))]
        else [(⌊m.privacyLoss t.lowerX / disc⌋, m.muUpperCdf (t.lowerX : EReal))])) (fun k => hinge ε (k * disc)) := by
  obtain ⟨-, hmass⟩ := tail_ok ht
  obtain ⟨d, hdict, hkeys, hdd, hinf⟩ : ∃ d : PyDict, roundTail m.pessimistic disc t.masses [] = .ok d ∧ d.keys.Nodup ∧
      d = (if m.pessimistic = true then [(⌈m.privacyLoss t.upperX / disc⌉, 1 - m.muUpperCdf (t.upperX : EReal))]
        else [(⌊m.privacyLoss t.lowerX / disc⌋, m.muUpperCdf (t.lowerX : EReal))]) ∧
      infinityMassOf t.masses = (if m.pessimistic = true then m.muUpperCdf (t.lowerX : EReal) else 0) := by
    rw [hmass]
    cases m.pessimistic
    · simp only [Bool.false_eq_true, if_false]
      exact ⟨_, roundTail_opt.1, by simp [PyDict.keys], rfl, (roundTail_opt (disc := disc)).2⟩
    · simp only [if_true]
      exact ⟨_, roundTail_pess.1, by simp [PyDict.keys], rfl, (roundTail_pess (disc := disc)).2⟩
  unfold buckets at hp
  rw [hdict] at hp
  simp only [] at hp
  cases hl : bucketLoop (fun l => m.inverseLoss l 1e-6) disc (t.upperX : EReal) (m.privacyLoss t.upperX : EReal) fuel (t.lowerX : EReal)
      ⌊m.privacyLoss t.lowerX / disc⌋ with
  | none => rw [hl] at hp; simp at hp
  | some r =>
    rw [hl] at hp
    cases r with
    | error e => simp only [Option.map_some, Option.some.injEq] at hp; cases hp
    | ok l =>
      simp only [Option.map_some, Option.some.injEq] at hp
      change createPmf (addBuckets m.muUpperCdf m.pessimistic (t.lowerX : EReal) l d) disc (infinityMassOf t.masses) m.pessimistic = .ok pmf at hp
      obtain ⟨pmf', k1, k2, k3, k4, k5, k6, k7, -⟩ := createPmf_ok (inf := infinityMassOf t.masses) (pess := m.pessimistic)
        (addBuckets_nodup (cdf := m.muUpperCdf) m.pessimistic l (t.lowerX : EReal) d hkeys) hd
      rw [hp] at k1
      cases k1
      refine ⟨l, rfl, fun ε => ?_⟩
      rw [Pmf.getDelta_eq_hs _ k2]
      unfold Pmf.hs hockeyStick
      rw [k3, k4, k6, hinf, hdd]

/-- The pessimistic PMF is an upper bound if the inverse errs by at most `η` in the loss. -/
lemma buckets_upper (h : m.Good) (hpess : m.pessimistic = true) {fuel : ℕ} {ppf : ℝ → ℝ} {t : Tail ℝ} {disc η : ℝ} (hd : 0 < disc)
    (hη : 0 ≤ η) (ht : m.tail fuel ppf = some (.ok t))
    (hinv : ∀ (k : ℤ) x, m.privacyLoss t.upperX < disc * k → m.inverseLoss (disc * k) 1e-6 = .ok x →
      ∀ y : ℝ, x < (y : EReal) → m.privacyLoss y ≤ disc * k + η) {pmf : Pmf} (hp : m.buckets fuel t disc = some (.ok pmf)) (ε : ℝ) :
    Indist P[m] Q[m] (ε + η) (pmf.getDeltaForEpsilon ε) := by
  have hb := good_buckets h
  have := hb.probP
  have := hb.probQ
  have anti := (privacyLoss_strictAnti h).antitone
  obtain ⟨l, hl, hdelta⟩ := buckets_ok hd ht hp
  intro A hA
  rw [hdelta ε]
  simp only [hpess, if_true]
  set F := m.muUpperCdf
  set E0 := (1 - F (t.upperX : EReal)) * hinge ε ((⌈m.privacyLoss t.upperX / disc⌉ : ℝ) * disc) with hE0
  have he : expect [(⌈m.privacyLoss t.upperX / disc⌉, 1 - F (t.upperX : EReal))] (fun k => hinge ε (k * disc)) = E0 := by
    simp [expect, hE0]
  have main := loop_upper (P := P[m]) (Q := Q[m]) (ε := ε) (η := η) (A := A) hb hd hA hinv (E0 - F (t.lowerX : EReal)) fuel
    (t.lowerX : EReal) _ l [(⌈m.privacyLoss t.upperX / disc⌉, 1 - F (t.upperX : EReal))] hl (fun y hy _ => by
      have h1 := anti (EReal.coe_lt_coe_iff.1 hy).le
      have h2 := Int.lt_floor_add_one (m.privacyLoss t.lowerX / disc)
      rw [div_lt_iff₀ hd] at h2
      linarith) (fun w hw => by
      rw [he]
      have h1 : gain P[m] Q[m] (ε + η) A (below w) ≤ F w := by
        rw [hb.cdf]
        unfold gain
        have h1 : (P[m]).real (A ∩ below w) ≤ (P[m]).real (below w) := measureReal_mono Set.inter_subset_right
        have h2 : 0 ≤ Real.exp (ε + η) * (Q[m]).real (A ∩ below w) := mul_nonneg (Real.exp_pos _).le measureReal_nonneg
        linarith
      have h2 := mul_le_mul_of_nonneg_left (hinge_le_one' ε (((⌊m.privacyLoss t.lowerX / disc⌋ + 1 : ℤ) : ℝ) * disc))
        (sub_nonneg.2 (hb.mono hw))
      linarith)
  have hup : gain P[m] Q[m] (ε + η) A (below (t.upperX : EReal))ᶜ ≤ E0 := by
    have hle : m.privacyLoss t.upperX ≤ (⌈m.privacyLoss t.upperX / disc⌉ : ℝ) * disc := (div_le_iff₀ hd).1 (Int.le_ceil _)
    have := piece_upper (P := P[m]) (Q := Q[m]) (ε := ε + η) hA (measurableSet_below (t.upperX : EReal)).compl
      (hb.upper _ ((⌈m.privacyLoss t.upperX / disc⌉ : ℝ) * disc + η) fun y hy => by
        have h1 := anti (EReal.coe_lt_coe_iff.1 (not_le.1 (show ¬ ((y : EReal) ≤ (t.upperX : EReal)) from hy))).le
        linarith)
    rwa [hinge_shift, measureReal_compl (measurableSet_below _), probReal_univ, ← hb.cdf] at this
  have hsplit := gain_diff (P := P[m]) (Q := Q[m]) (ε := ε + η) hA (measurableSet_below (t.upperX : EReal)) (Set.subset_univ _)
  rw [← Set.compl_eq_univ_sdiff] at hsplit
  have hun : gain P[m] Q[m] (ε + η) A Set.univ = (P[m]).real A - Real.exp (ε + η) * (Q[m]).real A := by
    unfold gain; rw [Set.inter_univ]
  linarith

/-- The optimistic PMF is a lower bound if the inverse errs by at most `η` in the loss and is monotone. -/
lemma buckets_lower (h : m.Good) (hpess : m.pessimistic = false) {fuel : ℕ} {ppf : ℝ → ℝ} {t : Tail ℝ} {disc η : ℝ} (hd : 0 < disc)
    (hη : 0 ≤ η) (ht : m.tail fuel ppf = some (.ok t))
    (hinv : ∀ (k : ℤ) x, m.privacyLoss t.upperX < disc * k → m.inverseLoss (disc * k) 1e-6 = .ok x →
      (∀ y : ℝ, (y : EReal) ≤ x → disc * k - η ≤ m.privacyLoss y) ∧
      (disc * k ≤ m.privacyLoss t.lowerX → (t.lowerX : EReal) ≤ x) ∧
      ∀ (k' : ℤ) x', k' ≤ k → m.privacyLoss t.upperX < disc * k' → m.inverseLoss (disc * k') 1e-6 = .ok x' → x ≤ x') {pmf : Pmf}
    (hp : m.buckets fuel t disc = some (.ok pmf)) (ε : ℝ) {δ : ℝ} (hδ : Indist P[m] Q[m] (ε - η) δ) : pmf.getDeltaForEpsilon ε ≤ δ := by
  have hb := good_buckets h
  have := hb.probP
  have := hb.probQ
  have anti := (privacyLoss_strictAnti h).antitone
  obtain ⟨l, hl, hdelta⟩ := buckets_ok hd ht hp
  obtain ⟨A, hA⟩ := exists_test h (ε - η)
  rw [hdelta ε]
  simp only [hpess, Bool.false_eq_true, if_false, zero_add]
  have hfl : (⌊m.privacyLoss t.lowerX / disc⌋ : ℝ) * disc ≤ m.privacyLoss t.lowerX := (le_div_iff₀ hd).1 (Int.floor_le _)
  obtain ⟨w, hw⟩ := loop_lower (P := P[m]) (Q := Q[m]) (ε := ε) (η := η) (A := A) hb hA
    (fun y hy => anti (EReal.coe_le_coe_iff.1 hy)) hη (fun k x a b => ⟨(hinv k x a b).1, (hinv k x a b).2.2⟩) fuel (t.lowerX : EReal)
    ⌊m.privacyLoss t.lowerX / disc⌋ l [(⌊m.privacyLoss t.lowerX / disc⌋, m.muUpperCdf (t.lowerX : EReal))] hl (fun k' x' a b c =>
      (hinv k' x' b c).2.1 (by
        have : (k' : ℝ) ≤ (⌊m.privacyLoss t.lowerX / disc⌋ : ℝ) := by exact_mod_cast a
        have := mul_le_mul_of_nonneg_right this hd.le
        linarith))
  have he : expect [(⌊m.privacyLoss t.lowerX / disc⌋, m.muUpperCdf (t.lowerX : EReal))] (fun k => hinge ε (k * disc)) ≤
      gain P[m] Q[m] (ε - η) A (below (t.lowerX : EReal)) := by
    have e := hinge_shift (ε - η) ((⌊m.privacyLoss t.lowerX / disc⌋ : ℝ) * disc - η) η
    rw [sub_add_cancel, sub_add_cancel] at e
    have := piece_lower (P := P[m]) (Q := Q[m]) (ε := ε - η) hA (measurableSet_below (t.lowerX : EReal))
      (hb.lower _ ((⌊m.privacyLoss t.lowerX / disc⌋ : ℝ) * disc - η) fun y hy => by
        have := anti (EReal.coe_le_coe_iff.1 hy)
        linarith)
    rw [← e, ← hb.cdf] at this
    simpa [expect] using this
  have hsplit := gain_diff (P := P[m]) (Q := Q[m]) (ε := ε - η) hA.1 (measurableSet_below w) (Set.subset_univ _)
  have hge := (gain_ge (P := P[m]) (Q := Q[m]) hA ((MeasurableSet.univ).diff (measurableSet_below w))).1
  have hun : gain P[m] Q[m] (ε - η) A Set.univ = (P[m]).real A - Real.exp (ε - η) * (Q[m]).real A := by
    unfold gain; rw [Set.inter_univ]
  have := hδ A hA.1
  linarith

/-! ### The inverse -/

lemma inverseLoss_ok (h : m.Good) {l p : ℝ} {x : EReal} (hx : m.inverseLoss l p = .ok x) : m.InRange l ∧ m.Finite l := by
  classical
  have hf : m.Finite l := by
    by_contra hf
    unfold inverseLoss inverseLosses at hx
    have : ([l].filter fun l => decide (m.Finite l)) = [] := by
      rw [List.filter_eq_nil_iff]; intro a ha; rw [List.mem_singleton] at ha; subst ha; simpa using hf
    simp only [this, if_true] at hx
    split_ifs at hx with h1 h2
    all_goals first | exact h2.elim | cases hx
  refine ⟨?_, hf⟩
  by_contra hin
  rw [← inverted_iff h] at hin
  have hor : m.OutOfRange [l] := by
    unfold OutOfRange
    unfold Inverted at hin
    unfold Finite at hf
    cases hlim : m.limit with
    | none => simp [hlim] at hin
    | some L =>
      have hne : l ≠ L := by
        rintro rfl
        simp only [hlim] at hf
        apply hf
        unfold NpClose
        rw [sub_self, abs_zero]; positivity
      cases hadj : m.adj
      · simp only [hadj, hlim, not_lt] at hin
        exact lt_of_le_of_ne hin hne.symm
      · simp only [hadj, hlim, gt_iff_lt, not_lt] at hin
        exact hin
  unfold inverseLoss inverseLosses at hx
  rw [if_neg (not_not.2 (List.pairwise_singleton _ _)), if_neg (by simp), if_pos hor] at hx
  cases hx

/-- The loss error of the inverse. -/
noncomputable def lossErr (m : Obj) : ℝ := m.maxSens * 1e-6 / m.σ ^ 2

lemma lossErr_nonneg (h : m.Good) : 0 ≤ m.lossErr := by
  have := maxSens_pos h
  have := h.σ0
  unfold lossErr; positivity

lemma inverse_upper (h : m.Good) {l : ℝ} {x : EReal} (hx : m.inverseLoss l 1e-6 = .ok x)
    (hc : ∀ z, m.privacyLoss z = l → z ≤ max (m.cand l m.minSens) (m.cand l m.maxSens)) {y : ℝ} (hy : x < (y : EReal)) :
    m.privacyLoss y ≤ l + m.lossErr := by
  obtain ⟨hin, hf⟩ := inverseLoss_ok h hx
  obtain ⟨r, hr, -, hz⟩ := inverseLoss_spec h (p := 1e-6) (by norm_num) hin hf
  rw [hx] at hr
  cases hr
  obtain ⟨z, hzl⟩ := exists_inverse h hin
  have h1 := (hz z hzl).1 (hc z hzl)
  have h2 := EReal.coe_lt_coe_iff.1 hy
  have hz1 : z - 1e-6 ≤ z := by norm_num
  have := privacyLoss_lipschitz h hz1
  rw [hzl, show z - (z - 1e-6) = (1e-6 : ℝ) by ring] at this
  exact ((privacyLoss_strictAnti h).antitone (h1.trans h2.le)).trans this

lemma inverse_single_upper (h : m.Good) (hs : m.minSens = m.maxSens) {l : ℝ} {x : EReal} (hx : m.inverseLoss l 1e-6 = .ok x) {y : ℝ}
    (hy : x < (y : EReal)) : m.privacyLoss y ≤ l := by
  obtain ⟨hin, hf⟩ := inverseLoss_ok h hx
  obtain ⟨z, hzl⟩ := exists_inverse h hin
  rw [inverseLoss_single h (by norm_num) hs hf hzl] at hx
  cases hx
  have h2 := EReal.coe_lt_coe_iff.1 hy
  have h3 : z ≤ (⌈z / 1e-6⌉ : ℝ) * 1e-6 := (div_le_iff₀ (by norm_num)).1 (Int.le_ceil _)
  rw [← hzl]
  exact (privacyLoss_strictAnti h).antitone (h3.trans h2.le)

lemma inverse_single_lower (h : m.Good) (hs : m.minSens = m.maxSens) {l : ℝ} {x : EReal} (hx : m.inverseLoss l 1e-6 = .ok x) :
    (∀ y : ℝ, (y : EReal) ≤ x → l - m.lossErr ≤ m.privacyLoss y) ∧ (∀ y : ℝ, l ≤ m.privacyLoss y → (y : EReal) ≤ x) ∧
    ∀ l' x', l' ≤ l → m.inverseLoss l' 1e-6 = .ok x' → x ≤ x' := by
  obtain ⟨hin, hf⟩ := inverseLoss_ok h hx
  obtain ⟨z, hzl⟩ := exists_inverse h hin
  have anti := privacyLoss_strictAnti h
  have p0 : (0 : ℝ) < 1e-6 := by norm_num
  rw [inverseLoss_single h p0 hs hf hzl] at hx
  cases hx
  refine ⟨fun y hy => ?_, fun y hy => ?_, fun l' x' hl hx' => ?_⟩
  · have h2 := EReal.coe_le_coe_iff.1 hy
    have h3 : (⌈z / 1e-6⌉ : ℝ) * 1e-6 ≤ z + 1e-6 := by
      have := mul_le_mul_of_nonneg_right (Int.ceil_lt_add_one (z / 1e-6)).le p0.le
      rwa [add_mul, one_mul, div_mul_cancel₀ _ p0.ne'] at this
    have hz1 : z ≤ z + 1e-6 := by linarith
    have := privacyLoss_lipschitz h hz1
    rw [hzl, show z + 1e-6 - z = (1e-6 : ℝ) by ring] at this
    have := anti.antitone (h2.trans h3)
    unfold lossErr
    linarith
  · rw [← hzl] at hy
    have := anti.le_iff_ge.1 hy
    exact EReal.coe_le_coe_iff.2 (this.trans ((div_le_iff₀ p0).1 (Int.le_ceil _)))
  · obtain ⟨hin', hf'⟩ := inverseLoss_ok h hx'
    obtain ⟨z', hzl'⟩ := exists_inverse h hin'
    rw [inverseLoss_single h p0 hs hf' hzl'] at hx'
    cases hx'
    rw [← hzl, ← hzl'] at hl
    have hzz := anti.le_iff_ge.1 hl
    refine EReal.coe_le_coe_iff.2 (mul_le_mul_of_nonneg_right ?_ p0.le)
    exact_mod_cast Int.ceil_le_ceil (div_le_div_of_nonneg_right hzz p0.le)

/-! ### Acceptance -/

lemma loop_accept {inv : ℝ → Except Err EReal} {disc Lu : ℝ} {u : EReal} : ∀ (n fuel : ℕ) (x : EReal) (rd : ℤ), n < fuel →
    disc * (rd - n) ≤ Lu → (∀ k : ℤ, k ≤ rd → Lu < disc * k → ∃ x, inv (disc * k) = .ok x) →
    ∃ l, bucketLoop inv disc u (Lu : EReal) fuel x rd = some (.ok l) := by
  intro n
  induction n with
  | zero =>
    intro fuel x rd hf hn _
    obtain ⟨fuel, rfl⟩ : ∃ f, fuel = f + 1 := ⟨fuel - 1, by omega⟩
    unfold bucketLoop
    split_ifs with hx hk
    · have : bucketLoop inv disc u (Lu : EReal) fuel u (rd - 1) = some (.ok []) := by
        unfold bucketLoop; rw [if_neg (lt_irrefl u)]
      simp only [this]
      exact ⟨_, rfl⟩
    · simp only [Nat.cast_zero, sub_zero] at hn
      exact absurd (EReal.coe_le_coe_iff.2 hn) hk
    · exact ⟨_, rfl⟩
  | succ n ih =>
    intro fuel x rd hf hn hinv
    obtain ⟨fuel, rfl⟩ : ∃ f, fuel = f + 1 := ⟨fuel - 1, by omega⟩
    unfold bucketLoop
    split_ifs with hx hk
    · have : bucketLoop inv disc u (Lu : EReal) fuel u (rd - 1) = some (.ok []) := by
        unfold bucketLoop; rw [if_neg (lt_irrefl u)]
      simp only [this]
      exact ⟨_, rfl⟩
    · obtain ⟨x', hx'⟩ := hinv rd le_rfl (EReal.coe_lt_coe_iff.1 (not_le.1 hk))
      obtain ⟨l, hl⟩ := ih fuel x' (rd - 1) (by omega) (by push_cast at hn ⊢; rw [show (rd : ℝ) - 1 - n = rd - (n + 1) by ring]; exact hn)
        (fun k hk => hinv k (by omega))
      simp only [hx', hl]
      exact ⟨_, rfl⟩
    · exact ⟨_, rfl⟩

lemma buckets_of_loop {fuel : ℕ} {ppf : ℝ → ℝ} {t : Tail ℝ} {disc : ℝ} (hd : 0 < disc) (ht : m.tail fuel ppf = some (.ok t))
    {l} (hl : bucketLoop (fun l => m.inverseLoss l 1e-6) disc (t.upperX : EReal) (m.privacyLoss t.upperX : EReal) fuel (t.lowerX : EReal)
      ⌊m.privacyLoss t.lowerX / disc⌋ = some (.ok l)) : ∃ pmf, m.buckets fuel t disc = some (.ok pmf) := by
  obtain ⟨-, hmass⟩ := tail_ok ht
  obtain ⟨d, hdict, hkeys⟩ : ∃ d : PyDict, roundTail m.pessimistic disc t.masses [] = .ok d ∧ d.keys.Nodup := by
    rw [hmass]
    cases m.pessimistic
    · simp only [Bool.false_eq_true, if_false]
      exact ⟨_, roundTail_opt.1, by simp [PyDict.keys]⟩
    · simp only [if_true]
      exact ⟨_, roundTail_pess.1, by simp [PyDict.keys]⟩
  obtain ⟨pmf, k1, -⟩ := createPmf_ok (inf := infinityMassOf t.masses) (pess := m.pessimistic)
    (addBuckets_nodup (cdf := m.muUpperCdf) m.pessimistic l (t.lowerX : EReal) d hkeys) hd
  refine ⟨pmf, ?_⟩
  unfold buckets
  rw [hdict]
  simp only []
  rw [hl]
  simp only [Option.map_some, Option.some.injEq]
  exact k1

lemma buckets_of_error {fuel : ℕ} {ppf : ℝ → ℝ} {t : Tail ℝ} {disc : ℝ} (ht : m.tail fuel ppf = some (.ok t))
    {e} (hl : bucketLoop (fun l => m.inverseLoss l 1e-6) disc (t.upperX : EReal) (m.privacyLoss t.upperX : EReal) fuel (t.lowerX : EReal)
      ⌊m.privacyLoss t.lowerX / disc⌋ = some (.error e)) : m.buckets fuel t disc = some (.error e) := by
  obtain ⟨-, hmass⟩ := tail_ok ht
  obtain ⟨d, hdict⟩ : ∃ d : PyDict, roundTail m.pessimistic disc t.masses [] = .ok d := by
    rw [hmass]
    cases m.pessimistic
    · simp only [Bool.false_eq_true, if_false]
      exact ⟨_, roundTail_opt.1⟩
    · simp only [if_true]
      exact ⟨_, roundTail_pess.1⟩
  unfold buckets
  rw [hdict]
  simp only []
  rw [hl]
  rfl

/-- The construction returns if the losses to be inverted are not near the limit. -/
lemma buckets_accept (h : m.Good) {ppf : ℝ → ℝ} {disc : ℝ} (hd : 0 < disc)
    (hz : gcdf m.σ (ppf (0.5 * Real.exp m.logBound)) = 0.5 * Real.exp m.logBound)
    (hfin : ∀ k : ℤ, m.InRange (disc * k) → m.Finite (disc * k)) :
    ∃ N, ∀ fuel ≥ N, ∃ t pmf, m.tail fuel ppf = some (.ok t) ∧ m.buckets fuel t disc = some (.ok pmf) := by
  obtain ⟨N, hN⟩ := truncation_terminates h ppf hz
  have anti := (privacyLoss_strictAnti h).antitone
  set z := ppf (0.5 * Real.exp m.logBound) with hzdef
  set n := (⌊m.privacyLoss (z - m.maxSens) / disc⌋ - ⌊m.privacyLoss (-z) / disc⌋).toNat with hn
  refine ⟨max N (n + 1), fun fuel hf => ?_⟩
  obtain ⟨b, hb⟩ := hN fuel (le_trans (le_max_left _ _) hf)
  obtain ⟨tr, htr⟩ : ∃ tr, m.truncation fuel ppf = some (.ok tr) := by
    unfold bounds at hb
    cases hr : m.truncation fuel ppf with
    | none => rw [hr] at hb; simp at hb
    | some r =>
      cases r with
      | error e => rw [hr] at hb; simp only [Option.map_some, Option.some.injEq] at hb; cases hb
      | ok t => exact ⟨t, rfl⟩
  obtain ⟨t1, t2, t3, t4⟩ := truncation_spec h htr
  have ht : ∃ t, m.tail fuel ppf = some (.ok t) ∧ t.lowerX = tr.1 ∧ t.upperX = tr.2 := by
    unfold tail; rw [htr]; exact ⟨_, rfl, rfl, rfl⟩
  obtain ⟨t, ht, e1, e2⟩ := ht
  obtain ⟨l, hl⟩ := loop_accept (inv := fun l => m.inverseLoss l 1e-6) (disc := disc) (Lu := m.privacyLoss t.upperX)
    (u := (t.upperX : EReal)) n fuel (t.lowerX : EReal) ⌊m.privacyLoss t.lowerX / disc⌋
    (by have := le_trans (le_max_right _ _) hf; omega) (by
      have h1 : ⌊m.privacyLoss t.lowerX / disc⌋ ≤ ⌊m.privacyLoss (z - m.maxSens) / disc⌋ :=
        Int.floor_le_floor (div_le_div_of_nonneg_right (anti (by rw [e1]; exact t1)) hd.le)
      have h2 : ⌊m.privacyLoss t.lowerX / disc⌋ - (n : ℤ) ≤ ⌊m.privacyLoss (-z) / disc⌋ := by omega
      have h3 : ((⌊m.privacyLoss t.lowerX / disc⌋ : ℝ) - n) ≤ (⌊m.privacyLoss (-z) / disc⌋ : ℝ) := by exact_mod_cast h2
      have h4 := mul_le_mul_of_nonneg_left (h3.trans (Int.floor_le _)) hd.le
      rwa [mul_div_cancel₀ _ hd.ne', ← t3, ← e2] at h4) (fun k hk hk' => by
      have hin : m.InRange (disc * k) := by
        have hle : disc * k ≤ m.privacyLoss t.lowerX := by
          have h1 : (k : ℝ) ≤ (⌊m.privacyLoss t.lowerX / disc⌋ : ℝ) := by exact_mod_cast hk
          have := mul_le_mul_of_nonneg_left (h1.trans (Int.floor_le _)) hd.le
          rwa [mul_div_cancel₀ _ hd.ne'] at this
        have r1 := inRange_of_loss h t.lowerX
        have r2 := inRange_of_loss h t.upperX
        unfold InRange tOf at r1 r2 ⊢
        cases hadj : m.adj
        · simp only [hadj] at r1 ⊢
          exact r1.trans_le (Real.exp_le_exp.2 (by linarith))
        · simp only [hadj] at r2 ⊢
          exact r2.trans_le (Real.exp_le_exp.2 hk'.le)
      obtain ⟨r, hr, -⟩ := inverseLoss_spec h (p := 1e-6) (by norm_num) hin (hfin k hin)
      exact ⟨_, hr⟩)
  obtain ⟨pmf, hp⟩ := buckets_of_loop hd ht hl
  exact ⟨t, pmf, ht, hp⟩

end Obj
end Verif.Mixture
