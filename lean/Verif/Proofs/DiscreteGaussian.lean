import Verif.Proofs.AdditiveNoiseInst

/-! # The discrete Gaussian mechanism -/

namespace Verif.Mech
open Verif Spec Pld MeasureTheory LogDomain ProbabilityTheory

/-- Un-normalised weight of an integer. -/
noncomputable def dgW (σ : ℝ) (k : ℤ) : ℝ := Real.exp (-0.5 * (k : ℝ) ^ 2 / σ ^ 2)

lemma dgW_pos (σ : ℝ) (k : ℤ) : 0 < dgW σ k := Real.exp_pos _

/-- Total weight. -/
noncomputable def dgZ (σ : ℝ) (T : ℤ) : ℝ := ∑ j ∈ Finset.Icc (-T) T, dgW σ j

lemma dgZ_pos (σ : ℝ) {T : ℤ} (hT : 0 ≤ T) : 0 < dgZ σ T :=
  Finset.sum_pos (fun k _ => dgW_pos σ k) ⟨0, Finset.mem_Icc.2 ⟨by linarith, hT⟩⟩

/-- The density. -/
noncomputable def dgF (σ : ℝ) (T k : ℤ) : ℝ := if k ∈ Finset.Icc (-T) T then dgW σ k / dgZ σ T else 0

lemma discreteGaussian_eq (σ : ℝ) (T : ℤ) : discreteGaussian σ T = Measure.count.withDensity fun k => ENNReal.ofReal (dgF σ T k) := rfl

lemma dgF_nonneg (σ : ℝ) (T k : ℤ) : 0 ≤ dgF σ T k := by
  unfold dgF
  split_ifs
  · exact div_nonneg (dgW_pos _ _).le (Finset.sum_nonneg fun k _ => (dgW_pos σ k).le)
  · exact le_rfl

lemma dg_measure (σ : ℝ) (T : ℤ) (S : Set ℤ) [DecidablePred (· ∈ S)] :
    (discreteGaussian σ T) S = ENNReal.ofReal (∑ k ∈ (Finset.Icc (-T) T).filter (· ∈ S), dgF σ T k) := by
  have hS : MeasurableSet S := MeasurableSpace.measurableSet_top
  rw [discreteGaussian_eq, withDensity_apply _ hS, ← lintegral_indicator hS, lintegral_count, tsum_eq_sum (s := Finset.Icc (-T) T)]
  · rw [ENNReal.ofReal_sum_of_nonneg fun k _ => dgF_nonneg σ T k, Finset.sum_filter]
    refine Finset.sum_congr rfl fun k _ => ?_
    by_cases h : k ∈ S
    · rw [Set.indicator_of_mem h, if_pos h]
    · rw [Set.indicator_of_notMem h, if_neg h]
  · intro k hk
    by_cases h : k ∈ S
    · rw [Set.indicator_of_mem h, dgF, if_neg hk, ENNReal.ofReal_zero]
    · rw [Set.indicator_of_notMem h]

lemma dg_measureReal (σ : ℝ) (T : ℤ) (S : Set ℤ) [DecidablePred (· ∈ S)] :
    (discreteGaussian σ T).real S = ∑ k ∈ (Finset.Icc (-T) T).filter (· ∈ S), dgW σ k / dgZ σ T := by
  rw [measureReal_def, dg_measure, ENNReal.toReal_ofReal (Finset.sum_nonneg fun k _ => dgF_nonneg σ T k)]
  refine Finset.sum_congr rfl fun k hk => ?_
  rw [dgF, if_pos (Finset.mem_filter.1 hk).1]

lemma dg_prob (σ : ℝ) {T : ℤ} (hT : 0 ≤ T) : IsProbabilityMeasure (discreteGaussian σ T) := by
  classical
  constructor
  rw [dg_measure]
  simp only [Set.mem_univ, Finset.filter_true]
  rw [← ENNReal.ofReal_one]
  congr 1
  have : ∀ k ∈ Finset.Icc (-T) T, dgF σ T k = dgW σ k / dgZ σ T := fun k hk => by rw [dgF, if_pos hk]
  rw [Finset.sum_congr rfl this, ← Finset.sum_div]
  exact div_self (dgZ_pos σ hT).ne'

/-! ### The stored arrays -/

lemma accumulate_length (l : List LogProb) : ∀ acc, (accumulate acc l).length = l.length := by
  induction l with
  | nil => intro acc; rfl
  | cons x l ih => intro acc; simp [accumulate, ih]

lemma accumulate_getD (l : List LogProb) : ∀ acc i, i < l.length →
    expLog ((accumulate acc l).getD i ⊥) = expLog acc + ∑ j ∈ Finset.range (i + 1), expLog (l.getD j ⊥) := by
  induction l with
  | nil => intro acc i hi; simp at hi
  | cons x l ih =>
    intro acc i hi
    cases i with
    | zero => simp [accumulate, Props.C29_log_add]
    | succ i =>
      rw [Finset.sum_range_succ']
      simp only [accumulate, List.getD_cons_succ, List.getD_cons_zero]
      rw [ih _ i (by simpa using hi), Props.C29_log_add]
      ring

lemma getLastD_eq {α : Type} (l : List α) (d : α) : l.getLastD d = l.getD (l.length - 1) d := by
  rw [List.getLastD_eq_getLast?, List.getLast?_eq_getElem?, List.getD_eq_getElem?_getD]

lemma dgLogPmf_length (σ : ℝ) {T : ℤ} (hT : 0 ≤ T) : (dGaussianLogPmf σ T).length = (2 * T + 2).toNat := by
  unfold dGaussianLogPmf PldCommon.pyRange
  simp only [List.length_cons, List.length_map, List.length_range]
  omega

lemma dgLogPmf_get (σ : ℝ) {T : ℤ} (j : ℕ) (hj : (j : ℤ) < 2 * T + 1) :
    (dGaussianLogPmf σ T).getD (j + 1) ⊥ = ((-0.5 * ((-T + j : ℤ) : ℝ) ^ 2 / σ ^ 2 : ℝ) : LogProb) := by
  unfold dGaussianLogPmf PldCommon.pyRange
  rw [List.getD_cons_succ, List.map_map, List.getD_eq_getElem?_getD, List.getElem?_map, List.getElem?_range (by omega)]
  simp

/-- The partial sums. -/
lemma dgAcc (σ : ℝ) {T : ℤ} (hT : 0 ≤ T) (i : ℕ) (hi : (i : ℤ) ≤ 2 * T + 1) :
    expLog ((accumulate ⊥ (dGaussianLogPmf σ T)).getD i ⊥) = ∑ k ∈ Finset.Icc (-T) (-T + i - 1), dgW σ k := by
  rw [accumulate_getD _ _ _ (by rw [dgLogPmf_length σ hT]; omega), Finset.sum_range_succ']
  have e0 : (dGaussianLogPmf σ T).getD 0 ⊥ = ⊥ := rfl
  rw [e0]
  have e1 : ∀ j ∈ Finset.range i, expLog ((dGaussianLogPmf σ T).getD (j + 1) ⊥) = dgW σ (-T + j) := by
    intro j hj
    have := Finset.mem_range.1 hj
    rw [dgLogPmf_get σ j (by omega)]
    rfl
  rw [Finset.sum_congr rfl e1]
  have e2 : Finset.Icc (-T) (-T + i - 1) = (Finset.range i).image fun j : ℕ => -T + (j : ℤ) := by
    ext k
    simp only [Finset.mem_Icc, Finset.mem_image, Finset.mem_range]
    constructor
    · intro h
      exact ⟨(k + T).toNat, by omega, by omega⟩
    · rintro ⟨j, h1, rfl⟩
      omega
  rw [e2, Finset.sum_image (fun a _ b _ h => by simpa using h)]
  simp [expLog]

lemma dgLogCdf_getD (σ : ℝ) {T : ℤ} (hT : 0 ≤ T) (i : ℕ) (hi : (i : ℤ) ≤ 2 * T + 1) :
    expLog ((dGaussianLogCdf σ T).getD i ⊥) = (∑ k ∈ Finset.Icc (-T) (-T + i - 1), dgW σ k) / dgZ σ T := by
  have hlast : expLog ((accumulate ⊥ (dGaussianLogPmf σ T)).getLastD ⊥) = dgZ σ T := by
    rw [getLastD_eq, accumulate_length, dgLogPmf_length σ hT, dgAcc σ hT _ (by omega)]
    unfold dgZ
    congr 1
    congr 1
    omega
  unfold dGaussianLogCdf
  simp only []
  generalize (accumulate ⊥ (dGaussianLogPmf σ T)).getLastD ⊥ = L at hlast
  have hne : L ≠ ⊥ := by
    rintro rfl
    have := dgZ_pos σ hT
    rw [← hlast] at this
    exact lt_irrefl _ this
  obtain ⟨r, rfl⟩ := WithBot.ne_bot_iff_exists.1 hne
  show expLog (((accumulate ⊥ (dGaussianLogPmf σ T)).map (shiftLog r)).getD i ⊥) = _
  rw [← dgAcc σ hT i hi, ← hlast]
  have e2 : ((accumulate ⊥ (dGaussianLogPmf σ T)).map (shiftLog r)).getD i ⊥ =
      shiftLog r ((accumulate ⊥ (dGaussianLogPmf σ T)).getD i ⊥) := List.getD_map _ ⊥ (shiftLog r)
  rw [e2]
  unfold shiftLog
  rw [add_comm, expLog_add, Real.exp_neg, expLog_coe']
  field_simp

lemma dgIndex (T : ℤ) (hT : 0 ≤ T) (x : EReal) :
    0 ≤ dGaussianIndex T x ∧ dGaussianIndex T x ≤ 2 * T + 1 ∧
      ∀ k ∈ Finset.Icc (-T) T, (((k : ℝ) : EReal) ≤ x ↔ k ≤ -T + dGaussianIndex T x - 1) := by
  have hTr : (0 : ℝ) ≤ T := by exact_mod_cast hT
  have key : ∃ c : ℝ, min ((T : ℝ) : EReal) (max ((-1 * (T : ℝ) - 1 : ℝ) : EReal) x) = (c : EReal) ∧ -(T : ℝ) - 1 ≤ c ∧ c ≤ T ∧
      ∀ k ∈ Finset.Icc (-T) T, (((k : ℝ) : EReal) ≤ x ↔ (k : ℝ) ≤ c) := by
    cases x using EReal.rec with
    | bot =>
      refine ⟨-(T : ℝ) - 1, ?_, le_rfl, by linarith, ?_⟩
      · rw [max_eq_left bot_le, min_eq_right]
        · congr 1; ring
        · exact EReal.coe_le_coe_iff.2 (by linarith)
      · intro k hk
        have := (Finset.mem_Icc.1 hk).1
        have : (-T : ℝ) ≤ k := by exact_mod_cast this
        simp only [le_bot_iff, EReal.coe_ne_bot, false_iff, not_le]
        linarith
    | top =>
      refine ⟨T, ?_, by linarith, le_rfl, ?_⟩
      · rw [max_eq_right le_top, min_eq_left le_top]
      · intro k hk
        have := (Finset.mem_Icc.1 hk).2
        simp only [le_top, true_iff]
        exact_mod_cast this
    | coe x =>
      refine ⟨min (T : ℝ) (max (-1 * (T : ℝ) - 1) x), ?_, ?_, min_le_left _ _, ?_⟩
      · rw [EReal.coe_strictMono.monotone.map_min, EReal.coe_strictMono.monotone.map_max]
      · refine le_min (by linarith) (le_max_of_le_left (by linarith))
      · intro k hk
        have h1 : (-T : ℝ) ≤ k := by exact_mod_cast (Finset.mem_Icc.1 hk).1
        have h2 : (k : ℝ) ≤ T := by exact_mod_cast (Finset.mem_Icc.1 hk).2
        rw [EReal.coe_le_coe_iff, le_min_iff, le_max_iff]
        constructor
        · intro h; exact ⟨h2, .inr h⟩
        · rintro ⟨_, h | h⟩
          · linarith
          · exact h
  obtain ⟨c, hc, h1, h2, h3⟩ := key
  have e : dGaussianIndex T x = ⌊c⌋ + T + 1 := by
    unfold dGaussianIndex
    simp only [hc, EReal.toReal_coe]
    ring
  have a1 : -T - 1 ≤ ⌊c⌋ := Int.le_floor.2 (by push_cast; exact h1)
  have a2 : ⌊c⌋ ≤ T := Int.cast_le.1 ((Int.floor_le c).trans h2)
  rw [e]
  refine ⟨by linarith, by linarith, fun k hk => ?_⟩
  rw [h3 k hk, ← Int.le_floor]
  constructor <;> intro h <;> linarith

lemma dg_cdf_sum (σ : ℝ) {T : ℤ} (hT : 0 ≤ T) (x : EReal) :
    cdfOf (fun k : ℤ => (k : ℝ)) (discreteGaussian σ T) x =
      (∑ k ∈ Finset.Icc (-T) (-T + (dGaussianIndex T x).toNat - 1), dgW σ k) / dgZ σ T := by
  classical
  obtain ⟨h1, h2, h3⟩ := dgIndex T hT x
  unfold cdfOf
  rw [dg_measureReal, ← Finset.sum_div]
  congr 2
  ext k
  simp only [Finset.mem_filter, Set.mem_ofPred_eq]
  constructor
  · rintro ⟨a, b⟩
    have := (h3 k a).1 b
    rw [Finset.mem_Icc] at a ⊢
    omega
  · intro a
    have : k ∈ Finset.Icc (-T) T := by rw [Finset.mem_Icc] at a ⊢; omega
    refine ⟨this, (h3 k this).2 ?_⟩
    rw [Finset.mem_Icc] at a
    omega

lemma dg_noiseLogCdf (σ : ℝ) {T : ℤ} (hT : 0 ≤ T) (x : EReal) :
    expLog (dGaussianNoiseLogCdf σ T x) = cdfOf (fun k : ℤ => (k : ℝ)) (discreteGaussian σ T) x := by
  obtain ⟨h1, h2, -⟩ := dgIndex T hT x
  rw [dg_cdf_sum σ hT, dGaussianNoiseLogCdf, dgLogCdf_getD σ hT _ (by omega)]

lemma dg_noiseCdf (σ : ℝ) {T : ℤ} (hT : 0 ≤ T) (x : EReal) :
    dGaussianNoiseCdf σ T x = cdfOf (fun k : ℤ => (k : ℝ)) (discreteGaussian σ T) x := by
  rw [← dg_noiseLogCdf σ hT, dGaussianNoiseCdf, dGaussianNoiseLogCdf]
  have e : (0 : ℝ) = expLog ⊥ := rfl
  conv_lhs => rw [e]
  rw [List.getD_map]

/-! ### The loss -/

lemma dgF_ratio {σ : ℝ} {s T x : ℤ} (hT : 0 ≤ T) (h1 : x ∈ Finset.Icc (-T) T) (h2 : x - s ∈ Finset.Icc (-T) T) :
    dgF σ T x = Real.exp ((s : ℝ) * (0.5 * s - x) / σ ^ 2) * dgF σ T (x - s) ∧ 0 < dgF σ T (x - s) := by
  have := dgZ_pos σ hT
  rw [dgF, dgF, if_pos h1, if_pos h2]
  refine ⟨?_, div_pos (dgW_pos _ _) this⟩
  rw [mul_div_assoc', dgW, dgW, ← Real.exp_add]
  congr 2
  push_cast
  ring

lemma dgF_zero {σ : ℝ} {T x : ℤ} (h : x ∉ Finset.Icc (-T) T) : dgF σ T x = 0 := by rw [dgF, if_neg h]

lemma dgF_pos {σ : ℝ} {T x : ℤ} (hT : 0 ≤ T) (h : x ∈ Finset.Icc (-T) T) : 0 < dgF σ T x := by
  rw [dgF, if_pos h]; exact div_pos (dgW_pos _ _) (dgZ_pos σ hT)

lemma dgInvAdd_iff {σ : ℝ} (hσ : 0 < σ) {s T : ℤ} (hs : 0 < s) (h2 : s ≤ 2 * T) (x : ℤ) (l : ℝ)
    (hx : 0 < dgF σ T x ∨ 0 < dgF σ T (x - s)) :
    x ≤ dGaussianInvAdd σ s T (l : EReal) ↔ Real.exp l * dgF σ T (x - s) ≤ dgF σ T x := by
  have hT : 0 ≤ T := by omega
  have hs' : (0 : ℝ) < s := by exact_mod_cast hs
  have hs2 : 0 < σ ^ 2 := by positivity
  show x ≤ ⌊min (T : ℝ) (max ((s : ℝ) - T - 1) (0.5 * s - l * σ ^ 2 / s))⌋ ↔ _
  rw [Int.le_floor, le_min_iff, le_max_iff]
  have c1 : ((x : ℝ) ≤ T ↔ x ≤ T) := Int.cast_le
  have c2 : ((x : ℝ) ≤ (s : ℝ) - T - 1 ↔ x < s - T) := by
    rw [show (s : ℝ) - T - 1 = ((s - T - 1 : ℤ) : ℝ) by push_cast; ring, Int.cast_le]; omega
  rw [c1, c2]
  by_cases m1 : x ∈ Finset.Icc (-T) T <;> by_cases m2 : x - s ∈ Finset.Icc (-T) T
  · obtain ⟨r1, r2⟩ := dgF_ratio hT m1 m2
    rw [r1, mul_le_mul_iff_left₀ r2, Real.exp_le_exp, le_div_iff₀ hs2, le_sub_comm, div_le_iff₀ hs']
    rw [Finset.mem_Icc] at m1 m2
    constructor
    · rintro ⟨_, h | h⟩
      · omega
      · linarith
    · intro h
      exact ⟨m1.2, .inr (by linarith)⟩
  · rw [dgF_zero m2, mul_zero]
    rw [Finset.mem_Icc] at m1 m2
    simp only [dgF_nonneg, iff_true]
    exact ⟨m1.2, .inl (by omega)⟩
  · rw [dgF_zero m1]
    have := mul_pos (Real.exp_pos l) (dgF_pos (σ := σ) hT m2)
    rw [Finset.mem_Icc] at m1 m2
    constructor
    · rintro ⟨h, _⟩
      omega
    · intro h; linarith
  · rw [dgF_zero m1, dgF_zero m2] at hx
    simp at hx

lemma dgLoss_spec {σ : ℝ} {s T : ℤ} (hs : 0 < s) (h2 : s ≤ 2 * T) (x : ℤ) :
    match dGaussianLossAdd σ s T x with
    | .error e => e = .valueError ∧ dgF σ T x = 0 ∧ dgF σ T (x - s) = 0
    | .ok ⊤ => 0 < dgF σ T x ∧ dgF σ T (x - s) = 0
    | .ok ⊥ => dgF σ T x = 0 ∧ 0 < dgF σ T (x - s)
    | .ok (l : ℝ) => 0 < dgF σ T (x - s) ∧ dgF σ T x = Real.exp l * dgF σ T (x - s) := by
  have hT : 0 ≤ T := by omega
  unfold dGaussianLossAdd
  by_cases c1 : x < -T ∨ x > T + s
  · rw [if_pos c1]
    exact ⟨rfl, dgF_zero (by rw [Finset.mem_Icc]; omega), dgF_zero (by rw [Finset.mem_Icc]; omega)⟩
  rw [if_neg c1]
  by_cases c2 : x > T
  · rw [if_pos c2]
    exact ⟨dgF_zero (by rw [Finset.mem_Icc]; omega), dgF_pos hT (by rw [Finset.mem_Icc]; omega)⟩
  rw [if_neg c2]
  by_cases c3 : x < s - T
  · rw [if_pos c3]
    exact ⟨dgF_pos hT (by rw [Finset.mem_Icc]; omega), dgF_zero (by rw [Finset.mem_Icc]; omega)⟩
  rw [if_neg c3]
  obtain ⟨r1, r2⟩ := dgF_ratio hT (s := s) (x := x) (by rw [Finset.mem_Icc]; omega) (by rw [Finset.mem_Icc]; omega)
  exact ⟨r2, r1⟩

theorem discreteGaussian_faithful {σ q : ℝ} {s : ℤ} {bound : Option ℤ} {adj : Adj} {m : AdditiveNoise ℤ}
    (h : mkDiscreteGaussian σ s bound q adj = .ok m) :
    Faithful m Measure.count (dgF σ (dgBound σ bound)) ∧ m.sensitivity = s ∧ m.samplingProb = q ∧ m.adj = adj ∧ 0 < s ∧ 0 < σ ∧
      s ≤ 2 * dgBound σ bound := by
  unfold mkDiscreteGaussian at h
  by_cases hb : σ ≤ 0
  · rw [if_pos hb] at h; exact absurd h (by simp)
  rw [if_neg hb] at h
  change (if 2 * dgBound σ bound < s then _ else _) = _ at h
  by_cases hl : 2 * dgBound σ bound < s
  · rw [if_pos hl] at h; exact absurd h (by simp)
  rw [if_neg hl] at h
  obtain ⟨⟨s0, q0, q1⟩, rfl⟩ := map_checkBase h
  have hb := not_le.1 hb
  have hl := not_lt.1 hl
  have s0' : 0 < s := by exact_mod_cast s0
  refine ⟨?_, rfl, rfl, rfl, s0', hb, hl⟩
  change Faithful (AdditiveNoise.mk (Int.castAddHom ℝ) s q adj (dGaussianLossNo σ s (dgBound σ bound) adj)
    (dGaussianInvNo σ s (dgBound σ bound) adj) (dGaussianNoiseCdf σ (dgBound σ bound)) (dGaussianNoiseLogCdf σ (dgBound σ bound))) _ _
  generalize dgBound σ bound = T at *
  have hT : 0 ≤ T := by omega
  have hloss : ∀ x, match dGaussianLossNo σ s T adj x with
    | .error e => e = .valueError ∧ num ⟨Int.castAddHom ℝ, s, q, adj, dGaussianLossNo σ s T adj, dGaussianInvNo σ s T adj,
        dGaussianNoiseCdf σ T, dGaussianNoiseLogCdf σ T⟩ (dgF σ T) x = 0 ∧ den ⟨Int.castAddHom ℝ, s, q, adj, dGaussianLossNo σ s T adj, dGaussianInvNo σ s T adj,
        dGaussianNoiseCdf σ T, dGaussianNoiseLogCdf σ T⟩ (dgF σ T) x = 0
    | .ok ⊤ => 0 < num ⟨Int.castAddHom ℝ, s, q, adj, dGaussianLossNo σ s T adj, dGaussianInvNo σ s T adj,
        dGaussianNoiseCdf σ T, dGaussianNoiseLogCdf σ T⟩ (dgF σ T) x ∧ den ⟨Int.castAddHom ℝ, s, q, adj, dGaussianLossNo σ s T adj, dGaussianInvNo σ s T adj,
        dGaussianNoiseCdf σ T, dGaussianNoiseLogCdf σ T⟩ (dgF σ T) x = 0
    | .ok ⊥ => num ⟨Int.castAddHom ℝ, s, q, adj, dGaussianLossNo σ s T adj, dGaussianInvNo σ s T adj,
        dGaussianNoiseCdf σ T, dGaussianNoiseLogCdf σ T⟩ (dgF σ T) x = 0 ∧ 0 < den ⟨Int.castAddHom ℝ, s, q, adj, dGaussianLossNo σ s T adj, dGaussianInvNo σ s T adj,
        dGaussianNoiseCdf σ T, dGaussianNoiseLogCdf σ T⟩ (dgF σ T) x
    | .ok (l : ℝ) => 0 < den ⟨Int.castAddHom ℝ, s, q, adj, dGaussianLossNo σ s T adj, dGaussianInvNo σ s T adj,
        dGaussianNoiseCdf σ T, dGaussianNoiseLogCdf σ T⟩ (dgF σ T) x ∧ num ⟨Int.castAddHom ℝ, s, q, adj, dGaussianLossNo σ s T adj, dGaussianInvNo σ s T adj,
        dGaussianNoiseCdf σ T, dGaussianNoiseLogCdf σ T⟩ (dgF σ T) x = Real.exp l * den ⟨Int.castAddHom ℝ, s, q, adj, dGaussianLossNo σ s T adj, dGaussianInvNo σ s T adj,
        dGaussianNoiseCdf σ T, dGaussianNoiseLogCdf σ T⟩ (dgF σ T) x := by
    intro x
    unfold num den
    cases adj with
    | add => exact dgLoss_spec s0' hl x
    | remove =>
      have := dgLoss_spec (σ := σ) s0' hl (x + s)
      rw [add_sub_cancel_right] at this
      exact this
  refine ⟨q0, q1, measurable_of_countable _, dgF_nonneg σ T, measurable_of_countable _, dg_prob σ hT, dg_noiseCdf σ hT,
    dg_noiseLogCdf σ hT, ?_, ?_, ?_, ?_, ?_⟩
  · intro x l hx
    unfold num den at hx ⊢
    cases adj with
    | add =>
      show ((x : ℝ) : EReal) ≤ (((dGaussianInvAdd σ s T l : ℤ) : ℝ) : EReal) ↔ _
      rw [EReal.coe_le_coe_iff, Int.cast_le]
      exact dgInvAdd_iff hb s0' hl x l hx
    | remove =>
      show ((x : ℝ) : EReal) ≤ (((dGaussianInvAdd σ s T l - s : ℤ) : ℝ) : EReal) ↔ _
      have := dgInvAdd_iff hb s0' hl (x + s) l (by rw [add_sub_cancel_right]; exact hx)
      rw [add_sub_cancel_right] at this
      rw [EReal.coe_le_coe_iff, Int.cast_le, ← this]
      constructor <;> intro h <;> linarith
  · intro x l e
    have := hloss x
    rw [show dGaussianLossNo σ s T adj x = _ from e] at this
    exact this
  · intro x e
    have := hloss x
    rw [show dGaussianLossNo σ s T adj x = _ from e] at this
    exact this
  · intro x e
    have := hloss x
    rw [show dGaussianLossNo σ s T adj x = _ from e] at this
    exact this
  · intro x e' e
    have := hloss x
    rw [show dGaussianLossNo σ s T adj x = _ from e] at this
    exact this

end Verif.Mech
