import Verif.Proofs.RdpConvList
import Verif.Proofs.RenyiGauss

/-!
# C35, C36, C37: Rényi accounting

Vocabulary: `renyiDiv α P Q` (`Verif/Spec/Renyi.lean`) is the Rényi divergence of arbitrary measures (KL at order 1);
`Indist P Q eps delta` is one direction of `(eps, delta)`-DP; `P ⊗ₘ κ` runs a mechanism and then one chosen from its output.
`RdpCurve orders rdp P Q` says that the pair is within the curve.
-/

namespace Verif.Props
open Verif Verif.Spec Verif.RdpConv MeasureTheory ProbabilityTheory

/-- The Rényi divergences of the pair are bounded by `rdp` at the corresponding `orders`. -/
def RdpCurve (orders : List ℝ) (rdp : List EReal) {Ω : Type*} [MeasurableSpace Ω] (P Q : Measure Ω) : Prop :=
  ∀ x ∈ orders.zip rdp, renyiDiv x.1 P Q ≤ x.2

/-- **C35.** `compute_delta`: the returned delta is in `[0, 1]` and every pair of distributions within the curve, on any
measurable space, is `(eps, delta)`-indistinguishable; the returned order is one of the orders. -/
theorem C35_compute_delta_sound (orders : List ℝ) (rdp : List EReal) (eps delta a : ℝ)
    (h : computeDelta orders rdp eps = .ok (delta, a)) :
    0 ≤ delta ∧ delta ≤ 1 ∧ a ∈ orders ∧
    ∀ {Ω : Type*} [MeasurableSpace Ω] (P Q : Measure Ω) [IsProbabilityMeasure P] [IsProbabilityMeasure Q],
      RdpCurve orders rdp P Q → Indist P Q eps delta := by
  obtain ⟨he, hlen, h1, x, hx, hxa, hd, _⟩ := computeDelta_ok h
  refine ⟨?_, ?_, ?_, fun {Ω} _ P Q _ _ hc => ?_⟩
  · rw [hd]; exact le_min (mexp_nonneg _) zero_le_one
  · rw [hd]; exact min_le_right _ _
  · rw [← hxa]; exact (List.of_mem_zip (a := x.1) (b := x.2) hx).1
  · rw [hd]; exact logDelta_sound (h1 x hx) he (hc x hx)

/-- The bound that one order `a` with (finite) Rényi bound `r` gives at `eps`: the better of Bretagnolle-Huber's
`√(1 - exp(-r))` and, for `a > 1.01`, `exp((a-1)(r-eps)) / a * (1-1/a)^(a-1)`. -/
noncomputable def deltaBound (a r eps : ℝ) : ℝ :=
  if a > 1.01 then
    min (Real.sqrt (1 - Real.exp (-r))) (Real.exp ((a - 1) * (r - eps)) / a * (1 - 1 / a) ^ (a - 1))
  else Real.sqrt (1 - Real.exp (-r))

/-- **C35 (value).** For finite curves, the returned delta is exactly the least of the bounds over the orders, and the
returned order attains it. -/
theorem C35_compute_delta_value (orders rdp : List ℝ) (eps delta a : ℝ) (hr : ∀ r ∈ rdp, 0 ≤ r)
    (h : computeDelta orders (rdp.map (↑)) eps = .ok (delta, a)) :
    (∃ r, (a, r) ∈ orders.zip rdp ∧ delta = deltaBound a r eps) ∧ ∀ x ∈ orders.zip rdp, delta ≤ deltaBound x.1 x.2 eps := by
  obtain ⟨he, hlen, h1, x, hx, hxa, hd, hmin⟩ := computeDelta_ok h
  have key : ∀ a r : ℝ, 1 ≤ a → 0 ≤ r → mexp (logDelta a r eps) = deltaBound a r eps ∧ logDelta a r eps ≤ 0 := by
    intro a r ha hr
    refine ⟨?_, ?_⟩
    · rw [logDelta_eq, deltaBound]
      split_ifs with h2
      · have ha' : (1 : ℝ) < a := by norm_num at h2 ⊢; linarith
        have e : mexp (rdpLog a r eps) = Real.exp ((a - 1) * (r - eps)) / a * (1 - 1 / a) ^ (a - 1) := by
          have hpos : 0 < 1 - 1 / a := by rw [sub_pos, div_lt_one (by linarith)]; exact ha'
          rw [rdpLog_coe, mexp_coe, Real.rpow_def_of_pos hpos, mul_add, Real.exp_sub, Real.exp_add, Real.exp_log (by linarith)]
          rw [mul_comm (Real.log _)]
          ring
        have hfin : rdpLog a r eps ≠ ⊤ := by rw [rdpLog_coe]; exact EReal.coe_ne_top _
        have hfin2 : tvLog r ≠ ⊤ := ne_top_of_le_ne_top EReal.zero_ne_top (tvLog_le_zero r)
        rcases le_total (tvLog r) (rdpLog a r eps) with h3 | h3
        · have := mexp_mono h3 hfin
          rw [mexp_tvLog hr, e] at this
          rw [min_eq_left h3, mexp_tvLog hr, min_eq_left this]
        · have := mexp_mono h3 hfin2
          rw [mexp_tvLog hr, e] at this
          rw [min_eq_right h3, e, min_eq_right this]
      · exact mexp_tvLog hr
    · refine le_trans ?_ (tvLog_le_zero r)
      rw [logDelta_eq]
      split_ifs
      · exact min_le_left _ _
      · exact le_rfl
  have hz : orders.zip (rdp.map ((↑) : ℝ → EReal)) = (orders.zip rdp).map fun x => (x.1, (x.2 : EReal)) := by
    rw [List.zip_map_right]; rfl
  rw [hz] at hx hmin h1
  obtain ⟨⟨a', r'⟩, hm, rfl⟩ := List.mem_map.1 hx
  simp only at hxa hd hmin
  subst hxa
  have hr' := hr r' (List.of_mem_zip hm).2
  have ha' := h1 _ hx
  obtain ⟨k1, k2⟩ := key a' r' ha' hr'
  have hle : mexp (logDelta a' r' eps) ≤ 1 := by
    have := mexp_mono k2 EReal.zero_ne_top
    simpa [mexp] using this
  rw [min_eq_left hle] at hd
  refine ⟨⟨r', hm, hd.trans k1⟩, fun y hy => ?_⟩
  have hy' := List.mem_map_of_mem (f := fun x : ℝ × ℝ => (x.1, (x.2 : EReal))) hy
  obtain ⟨m1, m2⟩ := key y.1 y.2 (h1 _ hy') (hr _ (List.of_mem_zip (a := y.1) (b := y.2) hy).2)
  rw [hd, ← m1]
  exact mexp_mono (hmin _ hy') (ne_top_of_le_ne_top EReal.zero_ne_top m2)

/-- **C35 (validation).** `compute_delta` answers exactly for a non-negative `eps` and two non-empty lists of equal length
with all orders at least 1; otherwise it raises `ValueError`. -/
theorem C35_compute_delta_raises (orders : List ℝ) (rdp : List EReal) (eps : ℝ) :
    ((∃ r, computeDelta orders rdp eps = .ok r) ↔ 0 ≤ eps ∧ orders.length = rdp.length ∧ orders ≠ [] ∧ ∀ a ∈ orders, 1 ≤ a) ∧
    (∀ e, computeDelta orders rdp eps = .error e → e = .valueError) := by
  unfold computeDelta
  rw [logDeltas_eq]
  by_cases h1 : eps < 0
  · simp [h1]
  by_cases h2 : orders.length = rdp.length
  swap
  · simp [h1, h2]
  have hzip : (∃ x ∈ orders.zip rdp, x.1 < 1) ↔ ∃ a ∈ orders, a < 1 := by
    constructor
    · rintro ⟨x, hx, h⟩; exact ⟨x.1, (List.of_mem_zip (a := x.1) (b := x.2) hx).1, h⟩
    · rintro ⟨a, ha, h⟩
      obtain ⟨i, hi, rfl⟩ := List.getElem_of_mem ha
      exact ⟨(orders.zip rdp)[i]'(by simp [List.length_zip]; omega), List.getElem_mem _, by simpa using h⟩
  by_cases h3 : ∃ a ∈ orders, a < 1
  · have h4 : ¬ ∀ a ∈ orders, 1 ≤ a := by
      obtain ⟨a, ha, h⟩ := h3
      exact fun h' => absurd (h' a ha) (not_le.2 h)
    simp [h1, h2, hzip.2 h3, h4]
  · rw [if_neg h1, if_neg (by simpa using h2), if_neg (fun h => h3 (hzip.1 h))]
    push Not at h1 h3
    simp only
    cases hm : argmin ((orders.zip rdp).map fun x => logDelta x.1 x.2 eps) with
    | none =>
      rw [argmin_none, List.map_eq_nil_iff, List.zip_eq_nil_iff] at hm
      have : orders = [] := by
        rcases hm with h | h
        · exact h
        · subst h; simpa using h2
      simp [this]
    | some i =>
      have : orders ≠ [] := by
        rintro rfl
        simp [argmin] at hm
      simp only [Except.ok.injEq, exists_eq', true_iff, reduceCtorEq, false_imp_iff, implies_true, and_true]
      exact ⟨h1, h2, this, h3⟩

/-- The Gaussian mechanism with noise 1 is within the curve `r(2) = 1`. -/
lemma gaussianCurve : RdpCurve [2] [1] (gaussianReal 1 1) (gaussianReal 0 1) := by
  intro x hx
  simp only [List.zip_cons_cons, List.zip_nil_right, List.mem_singleton] at hx
  subst hx
  rw [renyi_gaussian' (by norm_num) 1 one_ne_zero]
  norm_num

/-- `compute_delta([2], [1], 2)` answers, and the answer is a guarantee for the Gaussian mechanism. -/
example : ∃ delta a, computeDelta [2] [1] 2 = .ok (delta, a) ∧ Indist (gaussianReal 1 1) (gaussianReal 0 1) 2 delta := by
  obtain ⟨⟨delta, a⟩, h⟩ := (C35_compute_delta_raises [2] [1] 2).1.2 ⟨by norm_num, rfl, by simp, by simp⟩
  exact ⟨delta, a, h, (C35_compute_delta_sound _ _ _ _ _ h).2.2.2 _ _ gaussianCurve⟩

/-- `C35_compute_delta_value` for two orders. -/
example : ∃ delta a, computeDelta [2, 3] ([1, 2].map ((↑) : ℝ → EReal)) 2 = .ok (delta, a) ∧ delta ≤ deltaBound 3 2 2 := by
  obtain ⟨⟨delta, a⟩, h⟩ := (C35_compute_delta_raises [2, 3] (List.map (↑) [(1 : ℝ), 2]) 2).1.2 ⟨by norm_num, rfl, by simp, by norm_num⟩
  exact ⟨delta, a, h, (C35_compute_delta_value [2, 3] [1, 2] 2 delta a (by norm_num) h).2 (3, 2) (by simp)⟩

/-- **C36.** `compute_epsilon`: a finite answer is non-negative and every pair of distributions within the curve is
`(eps, delta)`-indistinguishable. The three side conditions (always true of an accountant's own curve) are only needed for
`delta = 0`, where the code checks none of them; see `C36_zero_delta_unchecked`. -/
theorem C36_compute_epsilon_sound (orders : List ℝ) (rdp : List EReal) (delta a : ℝ) (e : EReal)
    (hside : delta = 0 → orders.length = rdp.length ∧ rdp ≠ [] ∧ ∀ a ∈ orders, 1 ≤ a)
    (h : computeEpsilon orders rdp delta = .ok (e, a)) :
    0 ≤ e ∧ ∀ eps : ℝ, e = (eps : EReal) →
      ∀ {Ω : Type*} [MeasurableSpace Ω] (P Q : Measure Ω) [IsProbabilityMeasure P] [IsProbabilityMeasure Q],
        RdpCurve orders rdp P Q → Indist P Q eps delta := by
  by_cases hd0 : delta = 0
  · obtain ⟨hlen, hne, ho⟩ := hside hd0
    unfold computeEpsilon at h
    subst hd0
    rw [if_neg (lt_irrefl _), if_pos rfl] at h
    split_ifs at h with hall
    · simp only [Except.ok.injEq, Prod.mk.injEq] at h
      obtain ⟨rfl, rfl⟩ := h
      refine ⟨le_rfl, fun eps he {Ω} _ P Q _ _ hc => ?_⟩
      have he0 : eps = 0 := by exact_mod_cast he.symm
      subst he0
      obtain ⟨r, rdp', rfl⟩ := List.exists_cons_of_ne_nil hne
      cases orders with
      | nil => simp at hlen
      | cons a orders =>
        have h1 := hc (a, r) (by simp)
        rw [hall r (by simp)] at h1
        refine indist_of_tv le_rfl fun S hS => ?_
        have := (tv_of_renyi (r := 0) (ho a (by simp)) (by simpa using h1) hS).2
        simpa using this
    · simp only [Except.ok.injEq, Prod.mk.injEq] at h
      obtain ⟨rfl, rfl⟩ := h
      exact ⟨le_top, fun eps he => absurd he.symm (EReal.coe_ne_top _)⟩
  · have hd : 0 < delta := by
      rcases lt_or_gt_of_ne hd0 with h' | h'
      · unfold computeEpsilon at h; rw [if_pos h'] at h; simp at h
      · exact h'
    obtain ⟨hlen, h1, x, hx, hxa, he, _⟩ := computeEpsilon_ok hd h
    refine ⟨he ▸ le_max_left _ _, fun eps heps {Ω} _ P Q _ _ hc => ?_⟩
    exact (epsFor_sound (h1 x hx) hd (hc x hx) eps (he ▸ heps)).2

/-- **C36 (disagreement).** With `delta = 0` and no RDP value `compute_epsilon` does not raise `ValueError` as for any other
`delta` but answers `0`, although an empty curve bounds nothing. -/
theorem C36_zero_delta_unchecked :
    computeEpsilon [] [] 0 = .ok (0, 0) ∧ (∀ delta : ℝ, delta ≠ 0 → computeEpsilon [] [] delta = .error .valueError) ∧
    RdpCurve [] [] (Measure.dirac true) (Measure.dirac false) ∧ ¬ Indist (Measure.dirac true) (Measure.dirac false) 0 0 := by
  refine ⟨by simp [computeEpsilon], fun d hd => by simp [computeEpsilon, hd, epsList, argmin], by intro x hx; simp at hx, ?_⟩
  intro h
  have := h {true} trivial
  norm_num [measureReal_def] at this

/-- **C36 (monotone in delta).** -/
theorem C36_antitone_in_delta (orders : List ℝ) (rdp : List EReal) (d d' a a' : ℝ) (e e' : EReal) (hdd : d ≤ d')
    (h : computeEpsilon orders rdp d = .ok (e, a)) (h' : computeEpsilon orders rdp d' = .ok (e', a')) : e' ≤ e := by
  have hd0 : 0 ≤ d := by
    by_contra hc; unfold computeEpsilon at h; rw [if_pos (not_le.1 hc)] at h; simp at h
  rcases hd0.eq_or_lt with rfl | hd
  · unfold computeEpsilon at h
    rw [if_neg (lt_irrefl _), if_pos rfl] at h
    split_ifs at h with hall
    · rcases hdd.eq_or_lt with rfl | hd'
      · unfold computeEpsilon at h'
        rw [if_neg (lt_irrefl _), if_pos rfl, if_pos hall] at h'
        rw [h] at h'
        simp only [Except.ok.injEq, Prod.mk.injEq] at h'
        exact h'.1.ge
      · obtain ⟨_, _, x, hx, _, he, _⟩ := computeEpsilon_ok hd' h'
        simp only [Except.ok.injEq, Prod.mk.injEq] at h
        have hx0 : x.2 = 0 := hall _ (List.of_mem_zip (a := x.1) (b := x.2) hx).2
        rw [he, ← h.1, hx0]
        have : epsFor x.1 0 d' = 0 := by
          unfold epsFor
          rw [if_neg (lt_irrefl _), if_pos]
          have : mexp (-0) = 1 := by simp [mexp]
          rw [this]; have := pow_pos hd' 2; simpa using this
        rw [this, max_self]
    · simp only [Except.ok.injEq, Prod.mk.injEq] at h
      rw [← h.1]; exact le_top
  · obtain ⟨_, ho, x, hx, _, he, _⟩ := computeEpsilon_ok hd h
    obtain ⟨_, _, x', hx', _, he', hm'⟩ := computeEpsilon_ok (hd.trans_le hdd) h'
    rw [he, he']
    exact (max_le_max le_rfl (hm' x hx)).trans (epsFor_anti (ho x hx) hd hdd)

/-- **C36 (monotone in the curve).** -/
theorem C36_monotone_in_rdp (orders : List ℝ) (rdp rdp' : List EReal) (d a a' : ℝ) (e e' : EReal) (hpos : ∀ r ∈ rdp, 0 ≤ r)
    (hrr : List.Forall₂ (· ≤ ·) rdp rdp')
    (h : computeEpsilon orders rdp d = .ok (e, a)) (h' : computeEpsilon orders rdp' d = .ok (e', a')) : e ≤ e' := by
  have hd0 : 0 ≤ d := by
    by_contra hc; unfold computeEpsilon at h; rw [if_pos (not_le.1 hc)] at h; simp at h
  rcases hd0.eq_or_lt with rfl | hd
  · unfold computeEpsilon at h h'
    rw [if_neg (lt_irrefl _), if_pos rfl] at h h'
    by_cases hall' : ∀ r ∈ rdp', r = 0
    · have hall : ∀ r ∈ rdp, r = 0 := by
        intro r hr
        obtain ⟨i, hi, rfl⟩ := List.getElem_of_mem hr
        have hl := hrr.length_eq
        have h1 := (List.forall₂_iff_get.1 hrr).2 i hi (hl ▸ hi)
        have h2 := hall' _ (List.getElem_mem (l := rdp') (hl ▸ hi))
        simp only [List.get_eq_getElem] at h1
        rw [h2] at h1
        exact le_antisymm h1 (hpos _ hr)
      rw [if_pos hall] at h
      rw [if_pos hall'] at h'
      simp only [Except.ok.injEq, Prod.mk.injEq] at h h'
      rw [← h.1, ← h'.1]
    · rw [if_neg hall'] at h'
      simp only [Except.ok.injEq, Prod.mk.injEq] at h'
      rw [← h'.1]; exact le_top
  · obtain ⟨hl, _, x, hx, _, he, hm⟩ := computeEpsilon_ok hd h
    obtain ⟨hl', ho', x', hx', _, he', _⟩ := computeEpsilon_ok hd h'
    obtain ⟨i, hi, rfl⟩ := List.getElem_of_mem hx'
    rw [List.length_zip] at hi
    have hi1 : i < (orders.zip rdp).length := by rw [List.length_zip]; omega
    have h1 := hm _ (List.getElem_mem hi1)
    have h2 := (List.forall₂_iff_get.1 hrr).2 i (by omega) (by omega)
    simp only [List.get_eq_getElem] at h2
    rw [he, he']
    refine (max_le_max le_rfl h1).trans ?_
    simp only [List.getElem_zip]
    exact epsFor_mono h2

/-- **C36 (consistency).** `compute_delta` at the returned epsilon is at most the requested delta. -/
theorem C36_consistent (orders : List ℝ) (rdp : List EReal) (delta eps a b d : ℝ) (hd : 0 < delta)
    (h : computeEpsilon orders rdp delta = .ok ((eps : EReal), a)) (h' : computeDelta orders rdp eps = .ok (d, b)) :
    d ≤ delta := by
  obtain ⟨_, _, x, hx, _, he, _⟩ := computeEpsilon_ok hd h
  obtain ⟨_, _, _, y, hy, _, hdy, hmin⟩ := computeDelta_ok h'
  have h1 : epsFor x.1 x.2 delta ≤ (eps : EReal) := he ▸ le_max_right _ _
  have h2 := logDelta_epsFor hd h1
  refine le_trans ?_ h2
  rw [hdy]
  refine min_le_min ?_ le_rfl
  refine mexp_mono (hmin x hx) (ne_top_of_le_ne_top EReal.zero_ne_top (le_trans ?_ (tvLog_le_zero x.2)))
  rw [logDelta_eq]
  split_ifs
  · exact min_le_left _ _
  · exact le_rfl

/-- `compute_epsilon([2], [1], 1/10)`. -/
lemma computeEpsilon_example : computeEpsilon [2] [1] (1 / 10) = .ok (((1 + Real.log (1 / 2) - Real.log (1 / 5) : ℝ) : EReal), 2) := by
  have h1 : ¬ ((1 / 10 : ℝ) ^ 2 + (mexp (-1) - 1) > 0) := by
    have e : mexp (-1) = Real.exp (-1) := by
      have : (-1 : EReal) = ((-1 : ℝ) : EReal) := by norm_num
      rw [this, mexp_coe]
    have h2 := Real.add_one_le_exp 1
    rw [e, Real.exp_neg, not_lt]
    have : (Real.exp 1)⁻¹ ≤ (2 : ℝ)⁻¹ := inv_anti₀ (by norm_num) (by linarith)
    norm_num at this ⊢
    linarith
  have h3 : (0 : ℝ) ≤ 1 + Real.log (1 / 2) - Real.log (1 / 5) := by
    rw [one_div, one_div, Real.log_inv, Real.log_inv]
    have := Real.log_le_log (by norm_num : (0 : ℝ) < 2) (by norm_num : (2 : ℝ) ≤ 5)
    linarith
  have h4 : epsFor 2 1 (1 / 10) = ((1 + Real.log (1 / 2) - Real.log (1 / 5) : ℝ) : EReal) := by
    unfold epsFor
    rw [if_neg (by norm_num), if_neg h1, if_pos (by norm_num)]
    norm_num
  unfold computeEpsilon
  rw [if_neg (by norm_num), if_neg (by norm_num), if_neg (by simp)]
  simp only [List.zip_cons_cons, List.zip_nil_right, epsList, if_neg (show ¬ (2 : ℝ) < 1 by norm_num), argmin, h4]
  simp only [List.getD_cons_zero]
  rw [max_eq_right (by exact_mod_cast h3)]

/-- The answer is a guarantee for the Gaussian mechanism, and `compute_delta` at this epsilon is at most the requested delta. -/
example : Indist (gaussianReal 1 1) (gaussianReal 0 1) (1 + Real.log (1 / 2) - Real.log (1 / 5)) (1 / 10) :=
  (C36_compute_epsilon_sound _ _ _ _ _ (fun h => by norm_num at h) computeEpsilon_example).2 _ rfl _ _ gaussianCurve

example (d b : ℝ) (h : computeDelta [2] [1] (1 + Real.log (1 / 2) - Real.log (1 / 5)) = .ok (d, b)) : d ≤ 1 / 10 :=
  C36_consistent [2] [1] (1 / 10) _ _ b d (by norm_num) computeEpsilon_example h

/-- **C37.** Two mechanisms, the second chosen by the output of the first: the Rényi bounds add up (any order `α ≥ 1`,
infinite values included). -/
theorem C37_adaptive_composition {Ω Ω' : Type*} [MeasurableSpace Ω] [MeasurableSpace Ω'] (α : ℝ) (hα : 1 ≤ α) (r s : EReal)
    (P Q : Measure Ω) [IsProbabilityMeasure P] [IsProbabilityMeasure Q] (κ η : Kernel Ω Ω') [IsMarkovKernel κ] [IsMarkovKernel η]
    (h : renyiDiv α P Q ≤ r) (h' : ∀ x, renyiDiv α (κ x) (η x) ≤ s) : renyiDiv α (P ⊗ₘ κ) (Q ⊗ₘ η) ≤ r + s := by
  have hr := (renyi_nonneg hα).trans h
  have hne : Nonempty Ω := by
    by_contra hc
    rw [not_nonempty_iff] at hc
    have := measure_univ (μ := P)
    rw [Set.univ_eq_empty_iff.2 hc] at this
    simp at this
  have hs := (renyi_nonneg hα).trans (h' hne.some)
  cases r using EReal.rec with
  | bot => simp at hr
  | top => rw [EReal.top_add_of_ne_bot (by rintro rfl; simp at hs)]; exact le_top
  | coe r =>
    cases s using EReal.rec with
    | bot => simp at hs
    | top => rw [EReal.coe_add_top]; exact le_top
    | coe s => exact_mod_cast renyi_adaptive hα h h'

/-- Mechanisms with Rényi divergence of order `α` at most `r`. -/
def RdpAt (α : ℝ) (r : EReal) : PairProp := fun _ _ P Q =>
  IsProbabilityMeasure P ∧ IsProbabilityMeasure Q ∧ renyiDiv α P Q ≤ r

/-- **C37 (any number of mechanisms).** A sequence of adaptively chosen mechanisms with bounds `r₁, …, r_k` has Rényi
divergence at most `r₁ + … + r_k`. -/
theorem C37_sequence (α : ℝ) (hα : 1 ≤ α) (rs : List EReal) {Ω : Type} [MeasurableSpace Ω] (P Q : Measure Ω)
    (h : Adaptive (rs.map (RdpAt α)) Ω P Q) : renyiDiv α P Q ≤ rs.sum := by
  have gen : ∀ (l : List PairProp) {Ω : Type} [MeasurableSpace Ω] (P Q : Measure Ω), Adaptive l Ω P Q →
      ∀ rs : List EReal, l = rs.map (RdpAt α) →
        IsProbabilityMeasure P ∧ IsProbabilityMeasure Q ∧ renyiDiv α P Q ≤ rs.sum := by
    intro l Ω _ P Q h
    induction h with
    | nil P =>
      intro rs hrs
      have : rs = [] := by simpa using hrs.symm
      subst this
      exact ⟨inferInstance, inferInstance, by simp [renyi_self α hα]⟩
    | @cons C l Ω₁ Ω₂ _ _ P Q _ _ κ η _ _ hC hl ih =>
      intro rs hrs
      cases rs with
      | nil => simp at hrs
      | cons r rs =>
        simp only [List.map_cons, List.cons.injEq] at hrs
        obtain ⟨rfl, rfl⟩ := hrs
        exact ⟨inferInstance, inferInstance, by
          rw [List.sum_cons]
          exact C37_adaptive_composition α hα r rs.sum P Q κ η hC.2.2 fun x => (ih x rs rfl).2.2⟩
  exact (gen _ P Q h rs rfl).2.2

/-- Two runs of the Gaussian mechanism. -/
example : renyiDiv 2 (gaussianReal 1 1 ⊗ₘ Kernel.const ℝ (gaussianReal 1 1)) (gaussianReal 0 1 ⊗ₘ Kernel.const ℝ (gaussianReal 0 1)) ≤ 1 + 1 := by
  have h := gaussianCurve (2, 1) (by simp)
  exact C37_adaptive_composition 2 (by norm_num) 1 1 _ _ _ _ h fun x => by simpa using h

/-- A run of the Gaussian mechanism followed by a function of its result. -/
example : Adaptive ([1].map (RdpAt 2)) (ℝ × ℝ) (gaussianReal 1 1 ⊗ₘ Kernel.id) (gaussianReal 0 1 ⊗ₘ Kernel.id) :=
  Adaptive.cons _ _ _ _ ⟨inferInstance, inferInstance, gaussianCurve (2, 1) (by simp)⟩ fun x => by
    rw [Kernel.id_apply]
    exact Adaptive.nil _

end Verif.Props
