import Verif.Proofs.RdpConversion
import Mathlib.Data.List.GetD

/-! # Loops of `compute_delta` and `compute_epsilon` -/

namespace Verif.RdpConv
open Verif Verif.Spec MeasureTheory

lemma mexp_coe (x : ℝ) : mexp (x : EReal) = Real.exp x := by
  simp [mexp, ENNReal.toReal_ofReal (Real.exp_pos x).le]

lemma mexp_bot : mexp ⊥ = 0 := by simp [mexp]

lemma mexp_nonneg (x : EReal) : 0 ≤ mexp x := ENNReal.toReal_nonneg

lemma mexp_mono {x y : EReal} (h : x ≤ y) (hy : y ≠ ⊤) : mexp x ≤ mexp y := by
  refine ENNReal.toReal_mono ?_ (EReal.exp_monotone h)
  cases y using EReal.rec with
  | bot => simp
  | coe y => simp
  | top => exact absurd rfl hy

lemma argmin_none {l : List EReal} : argmin l = none ↔ l = [] := by
  cases l with
  | nil => simp [argmin]
  | cons x xs =>
    simp only [argmin, reduceCtorEq, iff_false]
    split <;> [simp; (split_ifs <;> simp)]

lemma argmin_some {l : List EReal} {i : ℕ} (h : argmin l = some i) :
    i < l.length ∧ ∀ x ∈ l, l.getD i ⊤ ≤ x := by
  induction l generalizing i with
  | nil => simp [argmin] at h
  | cons x xs ih =>
    simp only [argmin] at h
    split at h
    · rename_i h'
      rw [argmin_none] at h'
      subst h'
      simp only [Option.some.injEq] at h
      subst h
      simp
    · rename_i j hj
      obtain ⟨h1, h2⟩ := ih hj
      split_ifs at h with hx
      · simp only [Option.some.injEq] at h
        subst h
        refine ⟨by simp, fun y hy => ?_⟩
        rcases List.mem_cons.1 hy with rfl | hy
        · simp
        · simpa using hx.trans (h2 y hy)
      · simp only [Option.some.injEq] at h
        subst h
        refine ⟨by simp [h1], fun y hy => ?_⟩
        rw [not_le] at hx
        rcases List.mem_cons.1 hy with rfl | hy
        · simpa using hx.le
        · simpa using h2 y hy

lemma logDeltas_eq (eps : ℝ) (l : List (ℝ × EReal)) :
    logDeltas eps l = if ∃ x ∈ l, x.1 < 1 then .error .valueError else .ok (l.map fun x => logDelta x.1 x.2 eps) := by
  induction l with
  | nil => simp [logDeltas]
  | cons x l ih =>
    obtain ⟨a, r⟩ := x
    simp only [logDeltas, ih]
    by_cases h1 : a < 1
    · rw [if_pos h1, if_pos ⟨_, List.mem_cons_self, h1⟩]
    · rw [if_neg h1]
      by_cases h2 : ∃ x ∈ l, x.1 < 1
      · rw [if_pos h2, if_pos]
        obtain ⟨x, hx, h⟩ := h2
        exact ⟨x, List.mem_cons_of_mem _ hx, h⟩
      · rw [if_neg h2, if_neg]
        · rfl
        · rintro ⟨x, hx, h⟩
          rcases List.mem_cons.1 hx with rfl | hx
          · exact h1 h
          · exact h2 ⟨x, hx, h⟩

lemma epsList_eq (delta : ℝ) (l : List (ℝ × EReal)) :
    epsList delta l = if ∃ x ∈ l, x.1 < 1 then .error .valueError else .ok (l.map fun x => epsFor x.1 x.2 delta) := by
  induction l with
  | nil => simp [epsList]
  | cons x l ih =>
    obtain ⟨a, r⟩ := x
    simp only [epsList, ih]
    by_cases h1 : a < 1
    · rw [if_pos h1, if_pos ⟨_, List.mem_cons_self, h1⟩]
    · rw [if_neg h1]
      by_cases h2 : ∃ x ∈ l, x.1 < 1
      · rw [if_pos h2, if_pos]
        obtain ⟨x, hx, h⟩ := h2
        exact ⟨x, List.mem_cons_of_mem _ hx, h⟩
      · rw [if_neg h2, if_neg]
        · rfl
        · rintro ⟨x, hx, h⟩
          rcases List.mem_cons.1 hx with rfl | hx
          · exact h1 h
          · exact h2 ⟨x, hx, h⟩

/-- What a successful `compute_delta` returns. -/
lemma computeDelta_ok {orders : List ℝ} {rdp : List EReal} {eps d a : ℝ} (h : computeDelta orders rdp eps = .ok (d, a)) :
    0 ≤ eps ∧ orders.length = rdp.length ∧ (∀ x ∈ orders.zip rdp, 1 ≤ x.1) ∧
    ∃ x ∈ orders.zip rdp, x.1 = a ∧ d = min (mexp (logDelta x.1 x.2 eps)) 1 ∧
      ∀ y ∈ orders.zip rdp, logDelta x.1 x.2 eps ≤ logDelta y.1 y.2 eps := by
  unfold computeDelta at h
  split_ifs at h with h1 h2
  rw [logDeltas_eq] at h
  push Not at h1 h2
  by_cases h3 : ∃ x ∈ orders.zip rdp, x.1 < 1
  · rw [if_pos h3] at h; simp at h
  rw [if_neg h3] at h
  push Not at h3
  simp only at h
  split at h
  · simp at h
  · rename_i i hi
    obtain ⟨hl, hm⟩ := argmin_some hi
    simp only [Except.ok.injEq, Prod.mk.injEq] at h
    rw [List.length_map] at hl
    have hlo : i < orders.length := by rw [List.length_zip] at hl; omega
    refine ⟨h1, h2, h3, (orders.zip rdp)[i], List.getElem_mem hl, ?_, ?_, ?_⟩
    · rw [← h.2, List.getD_eq_getElem _ _ hlo]; simp
    · rw [← h.1, List.getD_eq_getElem _ _ (by simpa using hl)]; simp
    · intro y hy
      have := hm _ (List.mem_map_of_mem (f := fun x => logDelta x.1 x.2 eps) hy)
      rw [List.getD_eq_getElem _ _ (by simpa using hl)] at this
      simpa using this

/-- What a successful `compute_epsilon` with positive delta returns. -/
lemma computeEpsilon_ok {orders : List ℝ} {rdp : List EReal} {delta a : ℝ} {e : EReal} (hd : 0 < delta)
    (h : computeEpsilon orders rdp delta = .ok (e, a)) :
    orders.length = rdp.length ∧ (∀ x ∈ orders.zip rdp, 1 ≤ x.1) ∧
    ∃ x ∈ orders.zip rdp, x.1 = a ∧ e = max 0 (epsFor x.1 x.2 delta) ∧
      ∀ y ∈ orders.zip rdp, epsFor x.1 x.2 delta ≤ epsFor y.1 y.2 delta := by
  unfold computeEpsilon at h
  rw [if_neg hd.le.not_gt, if_neg hd.ne'] at h
  split_ifs at h with h2
  rw [epsList_eq] at h
  push Not at h2
  by_cases h3 : ∃ x ∈ orders.zip rdp, x.1 < 1
  · rw [if_pos h3] at h; simp at h
  rw [if_neg h3] at h
  push Not at h3
  simp only at h
  split at h
  · simp at h
  · rename_i i hi
    obtain ⟨hl, hm⟩ := argmin_some hi
    simp only [Except.ok.injEq, Prod.mk.injEq] at h
    rw [List.length_map] at hl
    have hlo : i < orders.length := by rw [List.length_zip] at hl; omega
    refine ⟨h2, h3, (orders.zip rdp)[i], List.getElem_mem hl, ?_, ?_, ?_⟩
    · rw [← h.2, List.getD_eq_getElem _ _ hlo]; simp
    · rw [← h.1, List.getD_eq_getElem _ _ (by simpa using hl)]; simp
    · intro y hy
      have := hm _ (List.mem_map_of_mem (f := fun x => epsFor x.1 x.2 delta) hy)
      rw [List.getD_eq_getElem _ _ (by simpa using hl)] at this
      simpa using this

/-! ### Per-order bounds -/

variable {Ω : Type*} [MeasurableSpace Ω]

lemma renyi_nonneg {P Q : Measure Ω} [IsProbabilityMeasure P] [IsProbabilityMeasure Q] {a : ℝ} (ha : 1 ≤ a) :
    0 ≤ renyiDiv a P Q := by
  by_contra hc
  rw [not_le] at hc
  obtain ⟨r, h1, h2⟩ := EReal.lt_iff_exists_real_btwn.1 hc
  have := (tv_of_renyi ha h1.le MeasurableSet.univ).1
  have h3 : r < 0 := by exact_mod_cast h2
  linarith

lemma renyi_self (a : ℝ) (ha : 1 ≤ a) (P : Measure Ω) [IsProbabilityMeasure P] : renyiDiv a P P = 0 := by
  refine le_antisymm ?_ (renyi_nonneg ha)
  rcases ha.eq_or_lt with rfl | ha
  · simp [renyiDiv, InformationTheory.klDiv_self]
  · rw [← EReal.coe_zero, renyi_le_iff ha]
    refine ⟨Measure.AbsolutelyContinuous.rfl, ?_⟩
    unfold renyiMoment
    rw [lintegral_congr_ae (g := fun _ => 1)]
    · simp
    · filter_upwards [Measure.rnDeriv_self P] with x hx
      rw [hx]; simp

lemma indist_min {P Q : Measure Ω} {e x y : ℝ} (h1 : Indist P Q e x) (h2 : Indist P Q e y) : Indist P Q e (min x y) := by
  rcases le_total x y with h | h
  · rwa [min_eq_left h]
  · rwa [min_eq_right h]

lemma indist_weaken {P Q : Measure Ω} {e x y : ℝ} (hxy : x ≤ y) (h : Indist P Q e x) : Indist P Q e y :=
  fun S hS => (h S hS).trans (by linarith)

lemma indist_one {P Q : Measure Ω} [IsProbabilityMeasure P] (e : ℝ) : Indist P Q e 1 := by
  intro S _
  have h1 : P.real S ≤ 1 := measureReal_le_one
  have h2 : 0 ≤ Real.exp e * Q.real S := mul_nonneg (Real.exp_pos e).le measureReal_nonneg
  linarith

lemma indist_of_tv {P Q : Measure Ω} {e d : ℝ} (he : 0 ≤ e) (h : ∀ S, MeasurableSet S → P.real S - Q.real S ≤ d) :
    Indist P Q e d := by
  intro S hS
  have h1 := h S hS
  have h2 : 1 ≤ Real.exp e := Real.one_le_exp he
  have h3 : 0 ≤ Q.real S := measureReal_nonneg
  nlinarith

/-- The total-variation part of the bound. -/
noncomputable def tvLog (r : EReal) : EReal :=
  if r < 0 then ⊥ else if r = 0 then ⊥ else ((0.5 * Real.log (1 + -mexp (-r)) : ℝ) : EReal)

lemma mexp_tvLog {r : ℝ} (hr : 0 ≤ r) : mexp (tvLog r) = Real.sqrt (1 - Real.exp (-r)) := by
  unfold tvLog
  rw [if_neg (by exact_mod_cast hr.not_gt)]
  rcases hr.eq_or_lt with rfl | h
  · simp [mexp_bot]
  · have hpos : 0 < 1 - Real.exp (-r) := by
      rw [sub_pos, Real.exp_lt_one_iff]; linarith
    rw [if_neg (by exact_mod_cast h.ne'), mexp_coe, ← EReal.coe_neg, mexp_coe, ← sub_eq_add_neg,
      show (0.5 : ℝ) * Real.log (1 - Real.exp (-r)) = Real.log (1 - Real.exp (-r)) / 2 by ring, Real.exp_half, Real.exp_log hpos]

lemma tvLog_le_zero (r : EReal) : tvLog r ≤ 0 := by
  unfold tvLog
  split_ifs with h1 h2
  · exact bot_le
  · exact bot_le
  · cases r using EReal.rec with
    | bot => simp at h1
    | top => simp [mexp_bot]
    | coe r =>
      rw [← EReal.coe_neg, mexp_coe]
      have hr : 0 < r := lt_of_le_of_ne (by exact_mod_cast not_lt.1 h1) (fun h => h2 (by exact_mod_cast h.symm))
      have h3 : Real.exp (-r) < 1 := by rw [Real.exp_lt_one_iff]; linarith
      have h4 : Real.log (1 + -Real.exp (-r)) ≤ 0 := Real.log_nonpos (by linarith) (by linarith [Real.exp_pos (-r)])
      have : 0.5 * Real.log (1 + -Real.exp (-r)) ≤ 0 := by linarith
      exact_mod_cast this

/-- The Rényi part of the bound. -/
noncomputable def rdpLog (a : ℝ) (r : EReal) (eps : ℝ) : EReal :=
  ((a - 1 : ℝ) : EReal) * (r - (eps : EReal) + ((Real.log (1 + -1 / a) : ℝ) : EReal)) - ((Real.log a : ℝ) : EReal)

lemma logDelta_eq (a : ℝ) (r : EReal) (eps : ℝ) :
    logDelta a r eps = if a > 1.01 then min (tvLog r) (rdpLog a r eps) else tvLog r := rfl

lemma rdpLog_coe (a r eps : ℝ) :
    rdpLog a r eps = (((a - 1) * (r - eps + Real.log (1 - 1 / a)) - Real.log a : ℝ) : EReal) := by
  unfold rdpLog
  rw [neg_div, ← sub_eq_add_neg]
  push_cast
  rfl

lemma logDelta_sound {P Q : Measure Ω} [IsProbabilityMeasure P] [IsProbabilityMeasure Q] {a eps : ℝ} {r : EReal} (ha : 1 ≤ a)
    (he : 0 ≤ eps) (h : renyiDiv a P Q ≤ r) : Indist P Q eps (min (mexp (logDelta a r eps)) 1) := by
  have hr := (renyi_nonneg ha).trans h
  refine indist_min ?_ (indist_one eps)
  have htv : Indist P Q eps (mexp (tvLog r)) := by
    cases r using EReal.rec with
    | bot => simp at hr
    | top => simp only [tvLog]; simp [mexp, indist_one]
    | coe r =>
      have hr' : 0 ≤ r := by exact_mod_cast hr
      rw [mexp_tvLog hr']
      exact indist_of_tv he fun S hS => (tv_of_renyi ha h hS).2
  rw [logDelta_eq]
  split_ifs with h1
  · have hrd : rdpLog a r eps ≤ tvLog r → Indist P Q eps (mexp (rdpLog a r eps)) := by
      intro hle
      have ha' : (1 : ℝ) < a := by norm_num at h1 ⊢; linarith
      cases r using EReal.rec with
      | bot => simp at hr
      | top =>
        exfalso
        have : rdpLog a ⊤ eps = ⊤ := by
          unfold rdpLog
          rw [EReal.top_sub_coe, EReal.top_add_coe, EReal.coe_mul_top_of_pos (by linarith), EReal.top_sub_coe]
        rw [this] at hle
        have := hle.trans (tvLog_le_zero _)
        simp at this
      | coe r =>
        rw [rdpLog_coe, mexp_coe]
        exact indist_of_renyi ha' h eps
    rcases le_total (tvLog r) (rdpLog a r eps) with h2 | h2
    · rwa [min_eq_left h2]
    · rw [min_eq_right h2]; exact hrd h2
  · exact htv

lemma epsFor_sound {P Q : Measure Ω} [IsProbabilityMeasure P] [IsProbabilityMeasure Q] {a delta : ℝ} {r : EReal} (ha : 1 ≤ a)
    (hd : 0 < delta) (h : renyiDiv a P Q ≤ r) (x : ℝ) (hx : max 0 (epsFor a r delta) = (x : EReal)) :
    0 ≤ x ∧ Indist P Q x delta := by
  have hr := (renyi_nonneg ha).trans h
  have hx0 : 0 ≤ x := by
    have : (0 : EReal) ≤ (x : EReal) := hx ▸ le_max_left _ _
    exact_mod_cast this
  refine ⟨hx0, ?_⟩
  unfold epsFor at hx
  rw [if_neg (not_lt.2 hr)] at hx
  cases r using EReal.rec with
  | bot => simp at hr
  | top =>
    split_ifs at hx with h1 h2
    · simp only [EReal.neg_top, mexp_bot, zero_sub] at h1
      exact indist_weaken (by nlinarith) (indist_one x)
    · exfalso
      rw [EReal.top_add_coe, EReal.top_sub_coe] at hx
      simp at hx
    · simp at hx
  | coe r =>
    have hr' : 0 ≤ r := by exact_mod_cast hr
    rw [← EReal.coe_neg, mexp_coe] at hx
    split_ifs at hx with h1 h2
    · refine indist_weaken ?_ (indist_of_tv hx0 fun S hS => (tv_of_renyi ha h hS).2)
      rw [Real.sqrt_le_left hd.le]
      linarith
    · have ha' : (1 : ℝ) < a := by norm_num at h2 ⊢; linarith
      rw [neg_div, ← sub_eq_add_neg] at hx
      norm_cast at hx
      rw [← EReal.coe_zero, ← EReal.coe_strictMono.monotone.map_max] at hx
      norm_cast at hx
      have h3 := indist_of_renyi ha' h x
      refine indist_weaken ?_ h3
      have h4 : r + Real.log (1 - 1 / a) - Real.log (delta * a) / (a - 1) ≤ x := by rw [← hx]; exact le_max_right _ _
      have ha0 : 0 < a - 1 := by linarith
      have h5 : (a - 1) * (r - x + Real.log (1 - 1 / a)) ≤ Real.log (delta * a) := by
        have : r - x + Real.log (1 - 1 / a) ≤ Real.log (delta * a) / (a - 1) := by linarith
        rw [le_div_iff₀ ha0] at this
        linarith
      rw [Real.log_mul hd.ne' (by linarith)] at h5
      calc _ ≤ Real.exp (Real.log delta) := Real.exp_le_exp.2 (by linarith)
        _ = delta := Real.exp_log hd
    · simp at hx

end Verif.RdpConv

namespace Verif.RdpConv
open Verif Verif.Spec

/-- The delta computed at an epsilon computed from `delta` is at most `delta`, order by order. -/
lemma logDelta_epsFor {a delta x : ℝ} {r : EReal} (hd : 0 < delta) (hx : epsFor a r delta ≤ (x : EReal)) :
    min (mexp (logDelta a r x)) 1 ≤ delta := by
  have htv : logDelta a r x ≤ tvLog r := by
    rw [logDelta_eq]; split_ifs
    · exact min_le_left _ _
    · exact le_rfl
  have htop : tvLog r ≠ ⊤ := ne_top_of_le_ne_top EReal.zero_ne_top (tvLog_le_zero r)
  unfold epsFor at hx
  by_cases h0 : r < 0
  · have : logDelta a r x = ⊥ := le_bot_iff.1 (htv.trans (by rw [tvLog, if_pos h0]))
    rw [this, mexp_bot]
    exact (min_le_left _ _).trans hd.le
  rw [if_neg h0] at hx
  cases r using EReal.rec with
  | bot => simp at h0
  | top =>
    split_ifs at hx with h1 h2
    · simp only [EReal.neg_top, mexp_bot, zero_sub] at h1
      exact (min_le_right _ _).trans (by nlinarith)
    · rw [EReal.top_add_coe, EReal.top_sub_coe] at hx
      simp at hx
    · simp at hx
  | coe r =>
    have hr' : 0 ≤ r := by exact_mod_cast not_lt.1 h0
    rw [← EReal.coe_neg, mexp_coe] at hx
    split_ifs at hx with h1 h2
    · refine (min_le_left _ _).trans ((mexp_mono htv htop).trans ?_)
      rw [mexp_tvLog hr', Real.sqrt_le_left hd.le]
      linarith
    · have ha' : (1 : ℝ) < a := by norm_num at h2 ⊢; linarith
      rw [neg_div, ← sub_eq_add_neg] at hx
      norm_cast at hx
      have h3 : logDelta a r x ≤ rdpLog a r x := by
        rw [logDelta_eq, if_pos h2]; exact min_le_right _ _
      have h4 : mexp (logDelta a r x) ≤ mexp (rdpLog a r x) := mexp_mono h3 (by rw [rdpLog_coe]; exact EReal.coe_ne_top _)
      refine (min_le_left _ _).trans (h4.trans ?_)
      rw [rdpLog_coe, mexp_coe]
      have ha0 : 0 < a - 1 := by linarith
      have h5 : (a - 1) * (r - x + Real.log (1 - 1 / a)) ≤ Real.log (delta * a) := by
        have : r - x + Real.log (1 - 1 / a) ≤ Real.log (delta * a) / (a - 1) := by linarith
        rw [le_div_iff₀ ha0] at this
        linarith
      rw [Real.log_mul hd.ne' (by linarith)] at h5
      calc _ ≤ Real.exp (Real.log delta) := Real.exp_le_exp.2 (by linarith)
        _ = delta := Real.exp_log hd
    · simp at hx

/-- Larger delta, smaller epsilon, order by order. -/
lemma epsFor_anti {a d d' : ℝ} {r : EReal} (ha : 1 ≤ a) (hd : 0 < d) (hdd : d ≤ d') :
    max 0 (epsFor a r d') ≤ max 0 (epsFor a r d) := by
  refine max_le (le_max_left _ _) ?_
  unfold epsFor
  by_cases h0 : r < 0
  · simp [h0]
  rw [if_neg h0, if_neg h0]
  by_cases h1 : d' ^ 2 + (mexp (-r) - 1) > 0
  · rw [if_pos h1]; exact le_max_left _ _
  have h1' : ¬ d ^ 2 + (mexp (-r) - 1) > 0 := by
    intro h; apply h1; nlinarith
  rw [if_neg h1, if_neg h1']
  refine le_max_of_le_right ?_
  split_ifs with h2
  · have ha' : (1 : ℝ) < a := by norm_num at h2 ⊢; linarith
    refine EReal.sub_le_sub le_rfl ?_
    have : Real.log (d * a) / (a - 1) ≤ Real.log (d' * a) / (a - 1) := by
      apply div_le_div_of_nonneg_right _ (by linarith)
      apply Real.log_le_log (by positivity)
      nlinarith
    exact_mod_cast this
  · exact le_rfl

/-- Larger RDP, larger epsilon, order by order. -/
lemma epsFor_mono {a d : ℝ} {r r' : EReal} (hrr : r ≤ r') :
    max 0 (epsFor a r d) ≤ max 0 (epsFor a r' d) := by
  refine max_le (le_max_left _ _) ?_
  unfold epsFor
  by_cases h0 : r < 0
  · simp [h0]
  have h0' : ¬ r' < 0 := fun h => h0 (hrr.trans_lt h)
  rw [if_neg h0, if_neg h0']
  by_cases h1 : d ^ 2 + (mexp (-r) - 1) > 0
  · rw [if_pos h1]; exact le_max_left _ _
  have h1' : ¬ d ^ 2 + (mexp (-r') - 1) > 0 := by
    intro h; apply h1
    have : mexp (-r') ≤ mexp (-r) := mexp_mono (EReal.neg_le_neg_iff.2 hrr) (by
      intro hc
      rw [EReal.neg_eq_top_iff] at hc
      subst hc
      simp at h0)
    linarith
  rw [if_neg h1, if_neg h1']
  refine le_max_of_le_right ?_
  split_ifs with h2
  · exact EReal.sub_le_sub (add_le_add hrr le_rfl) le_rfl
  · exact le_rfl

end Verif.RdpConv
