import Verif.Spec.Privacy
import Verif.Proofs.Pld
import Mathlib.Tactic.Positivity
import Mathlib.Tactic.FieldSimp

namespace Verif.Spec
open MeasureTheory

/-! ### finite measures -/

lemma finMeasure_real {O : Type*} [MeasurableSpace O] (S : Finset O) (p : O → ℝ) (hp : ∀ o ∈ S, 0 ≤ p o)
    {A : Set O} (hA : MeasurableSet A) [DecidablePred (· ∈ A)] :
    (finMeasure S p).real A = ∑ o ∈ S, if o ∈ A then p o else 0 := by
  classical
  unfold finMeasure
  rw [measureReal_def, Measure.finsetSum_apply, ENNReal.toReal_sum]
  · refine Finset.sum_congr rfl fun o ho => ?_
    rw [Measure.smul_apply, Measure.dirac_apply' _ hA]
    by_cases h : o ∈ A
    · simp [h, hp o ho]
    · simp [h]
  · intro o _
    rw [Measure.smul_apply, Measure.dirac_apply' _ hA]
    by_cases h : o ∈ A
    · simp [h]
    · simp [h]

lemma indist_finMeasure {O : Type} [MeasurableSpace O] (S : Finset O) (P Q : O → ℝ) (hP : ∀ o ∈ S, 0 ≤ P o)
    (hQ : ∀ o ∈ S, 0 ≤ Q o) (e : ℝ) : Indist (finMeasure S P) (finMeasure S Q) e (hsFinite S P Q e) := by
  classical
  intro A hA
  rw [finMeasure_real S P hP hA, finMeasure_real S Q hQ hA, hsFinite, Finset.mul_sum, ← Finset.sum_add_distrib]
  refine Finset.sum_le_sum fun o _ => ?_
  split_ifs
  · have := le_max_right 0 (P o - Real.exp e * Q o); linarith
  · have := le_max_left 0 (P o - Real.exp e * Q o); linarith

lemma Indist.mono {Ω : Type*} [MeasurableSpace Ω] {P Q : Measure Ω} {e d d' : ℝ} (h : Indist P Q e d) (hd : d ≤ d') :
    Indist P Q e d' := fun S hS => (h S hS).trans (by linarith)

end Verif.Spec

namespace Verif.Pld
open Verif Verif.Spec Verif.PldPmf MeasureTheory

/-! ### from_privacy_parameters -/

lemma dp_core {p q δ E x : ℝ} (hE : 1 ≤ E) (hx : 0 < x) (hp1 : p ≤ 1) (hq0 : 0 ≤ q)
    (hA : p ≤ E * q + δ) (hB : 1 - q ≤ E * (1 - p) + δ) (hδ : δ ≤ 1) :
    p ≤ x * q + (δ + (1 - δ) * (E / (1 + E)) * max 0 (1 - x / E) + (1 - δ) / (1 + E) * max 0 (1 - x * E)) := by
  have hE0 : 0 < E := by linarith
  have h1E : 0 < 1 + E := by linarith
  by_cases h1 : E ≤ x
  · have e1 : max 0 (1 - x / E) = 0 := max_eq_left (by rw [sub_nonpos, le_div_iff₀ hE0]; linarith)
    have e2 : max 0 (1 - x * E) = 0 := max_eq_left (by nlinarith)
    rw [e1, e2]; nlinarith
  · rw [not_le] at h1
    have e1 : max 0 (1 - x / E) = 1 - x / E := max_eq_right (by rw [sub_nonneg, div_le_one hE0]; linarith)
    rw [e1]
    by_cases h2 : x * E ≤ 1
    · have e2 : max 0 (1 - x * E) = 1 - x * E := max_eq_right (by linarith)
      rw [e2]
      have : δ + (1 - δ) * (E / (1 + E)) * (1 - x / E) + (1 - δ) / (1 + E) * (1 - x * E) = δ + (1 - δ) * (1 - x) := by
        field_simp; ring
      rw [this]
      by_cases h3 : 0 ≤ 1 - q - δ
      · nlinarith
      · rw [not_le] at h3; nlinarith
    · rw [not_le] at h2
      have e2 : max 0 (1 - x * E) = 0 := max_eq_left (by linarith)
      rw [e2]
      have : δ + (1 - δ) * (E / (1 + E)) * (1 - x / E) + (1 - δ) / (1 + E) * 0 = δ + (1 - δ) * (E - x) / (1 + E) := by
        field_simp; ring
      rw [this]
      have hEE : 0 < E ^ 2 - 1 := by nlinarith
      have hg : 0 ≤ (E ^ 2 - 1) * (x * q + (δ + (1 - δ) * (E - x) / (1 + E)) - p) := by
        have : (E ^ 2 - 1) * (x * q + (δ + (1 - δ) * (E - x) / (1 + E)) - p) =
            (x * E - 1) * (E * q + δ - p) + (E - x) * (E * (1 - p) + δ - (1 - q)) := by
          field_simp; ring
        rw [this]
        have a1 : 0 ≤ (x * E - 1) * (E * q + δ - p) := mul_nonneg (by linarith) (by linarith)
        have a2 : 0 ≤ (E - x) * (E * (1 - p) + δ - (1 - q)) := mul_nonneg (by linarith) (by linarith)
        linarith
      have := (mul_nonneg_iff_of_pos_left hEE).1 hg
      linarith

/-- What `from_privacy_parameters` builds. -/
lemma fromPrivacyParameters_spec (eps delta : ℝ) {disc : ℝ} (hd : 0 < disc) :
    ∃ m, fromPrivacyParameters eps delta disc = .ok (mk' m none) ∧ m.WF ∧ m.disc = disc ∧ m.infinityMass = delta ∧
      m.pessimistic = true ∧ (∀ φ, expect m.points φ = (1 - delta) / (1 + Real.exp (-eps)) * φ ⌈eps / disc⌉ +
        (1 - delta) / (1 + Real.exp eps) * φ ⌈-eps / disc⌉) ∧
      (0 ≤ delta → delta ≤ 1 → m.NonNeg) ∧ m.points ≠ [] := by
  have hn : (PyDict.add (PyDict.set [] ⌈eps / disc⌉ ((1 - delta) / (1 + Real.exp (-eps)))) ⌈-eps / disc⌉
      ((1 - delta) / (1 + Real.exp eps))).keys.Nodup :=
    PyDict.nodup_add (PyDict.nodup_set (by simp [PyDict.keys]) _ _) _ _
  obtain ⟨m, h, h1, h2, h3, h4, h5, h6, h7⟩ := createFromRounded_symm (inf := delta) (pess := true) hn hd
  refine ⟨m, h, h1, h2, h3, h4, fun φ => ?_, fun hd0 hd1 => h6 hd0 ?_, h7 ?_⟩
  · rw [h5, PyDict.expect_addK]
    simp [PyDict.set, expect]
  · refine PyDict.add_nonneg (PyDict.set_nonneg (by simp) _ ?_) _ ?_
    · have : 0 ≤ 1 - delta := by linarith
      positivity
    · have : 0 ≤ 1 - delta := by linarith
      positivity
  · simp only [PyDict.add, PyDict.set]
    split_ifs <;> simp

lemma fromPrivacyParameters_dominates {eps delta disc : ℝ} (he : 0 ≤ eps) (hδ1 : delta ≤ 1) (hd : 0 < disc) {p : Pld}
    (hp : fromPrivacyParameters eps delta disc = .ok p) {Ω : Type*} [MeasurableSpace Ω] (P Q : Measure Ω)
    [IsProbabilityMeasure P] [IsProbabilityMeasure Q] (h1 : Indist P Q eps delta) (h2 : Indist Q P eps delta) (e' : ℝ) :
    Indist P Q e' (p.getDeltaForEpsilon e') := by
  obtain ⟨m, g, g1, g2, g3, g4, g5, g6, _⟩ := fromPrivacyParameters_spec eps delta hd
  rw [g] at hp; cases hp
  rw [getDelta_eq (valid_none g1), hs_eq_of_symm (valid_none g1) rfl]
  show Indist P Q e' (m.hs e')
  intro S hS
  have hA := h1 S hS
  have hB := h2 Sᶜ hS.compl
  rw [probReal_compl_eq_one_sub hS, probReal_compl_eq_one_sub hS] at hB
  have core := dp_core (p := P.real S) (q := Q.real S) (δ := delta) (E := Real.exp eps) (x := Real.exp e')
    (Real.one_le_exp he) (Real.exp_pos _) measureReal_le_one measureReal_nonneg hA hB hδ1
  refine core.trans (add_le_add le_rfl ?_)
  unfold Pmf.hs hockeyStick
  rw [g5, g3, g2, ← add_assoc]
  have hm : 0 ≤ 1 - delta := by linarith
  have k1 : eps ≤ (⌈eps / disc⌉ : ℝ) * disc := by
    have := Int.le_ceil (eps / disc); rwa [div_le_iff₀ hd] at this
  have k2 : -eps ≤ (⌈-eps / disc⌉ : ℝ) * disc := by
    have := Int.le_ceil (-eps / disc); rwa [div_le_iff₀ hd] at this
  refine add_le_add (add_le_add le_rfl ?_) ?_
  · have : (1 - delta) / (1 + Real.exp (-eps)) = (1 - delta) * (Real.exp eps / (1 + Real.exp eps)) := by
      rw [Real.exp_neg]; field_simp; ring
    rw [this]
    refine mul_le_mul_of_nonneg_left ?_ (by positivity)
    have := hinge_mono (e' : EReal) k1
    rwa [hinge_coe, Real.exp_sub] at this
  · refine mul_le_mul_of_nonneg_left ?_ (by positivity)
    have := hinge_mono (e' : EReal) k2
    rwa [hinge_coe, sub_neg_eq_add, Real.exp_add] at this

lemma fromPrivacyParameters_exact {eps delta disc : ℝ} (he : 0 ≤ eps) (hd : 0 < disc) {p : Pld}
    (hp : fromPrivacyParameters eps delta disc = .ok p) (n : ℤ) (hn : eps = n * disc) :
    p.getDeltaForEpsilon eps = delta := by
  obtain ⟨m, g, g1, g2, g3, g4, g5, g6, _⟩ := fromPrivacyParameters_spec eps delta hd
  rw [g] at hp; cases hp
  rw [getDelta_eq (valid_none g1), hs_eq_of_symm (valid_none g1) rfl]
  show m.hs eps = delta
  unfold Pmf.hs hockeyStick
  rw [g5, g3, g2]
  have e1 : ⌈eps / disc⌉ = n := by rw [hn, mul_div_assoc, div_self hd.ne', mul_one, Int.ceil_intCast]
  have e2 : ⌈-eps / disc⌉ = -n := by
    rw [hn, neg_div, mul_div_assoc, div_self hd.ne', mul_one, ← Int.cast_neg, Int.ceil_intCast]
  rw [e1, e2, hinge_of_le (by rw [hn]), hinge_of_le]
  · ring
  · have : ((-n : ℤ) : ℝ) * disc = -eps := by push_cast; rw [hn]; ring
    rw [this]; exact_mod_cast (by linarith : -eps ≤ eps)

/-! ### randomised response -/

lemma expLog_logP {x : ℝ} (h : 0 < x) : expLog (logP x) = x := by
  unfold logP; rw [expLog_coe, Real.exp_log h]

lemma sum_two_special {k : ℕ} (x x' : Fin k) (hx : x ≠ x') (A B C : ℝ) :
    ∑ o : Fin k, (if o = x then A else if o = x' then B else C) = A + B + (k - 2) * C := by
  have : ∀ o : Fin k, (if o = x then A else if o = x' then B else C) =
      C + (if o = x then A - C else 0) + (if o = x' then B - C else 0) := by
    intro o
    by_cases h1 : o = x
    · have : o ≠ x' := fun h => hx (h1.symm.trans h)
      simp [h1, hx]
    · by_cases h2 : o = x'
      · simp [h2, hx.symm]
      · simp [h1, h2]
  rw [Finset.sum_congr rfl fun o _ => this o, Finset.sum_add_distrib, Finset.sum_add_distrib]
  simp
  ring

lemma sum_one_special {k : ℕ} (x : Fin k) (A C : ℝ) :
    ∑ o : Fin k, (if o = x then A else C) = A + (k - 1) * C := by
  have : ∀ o : Fin k, (if o = x then A else C) = C + (if o = x then A - C else 0) := by
    intro o
    by_cases h1 : o = x <;> simp [h1]
  rw [Finset.sum_congr rfl fun o _ => this o, Finset.sum_add_distrib]
  simp
  ring

lemma rr_hs {noise : ℝ} {k : ℕ} (hk : 2 ≤ k) (x x' : Fin k) (hx : x ≠ x') (e : ℝ) :
    hsFinite Finset.univ (rrProb noise k x) (rrProb noise k x') e =
      max 0 (1 - noise + noise / k - Real.exp e * (noise / k)) + max 0 (noise / k - Real.exp e * (1 - noise + noise / k)) +
      (k - 2) * max 0 (noise / k - Real.exp e * (noise / k)) := by
  unfold hsFinite
  rw [← sum_two_special x x' hx]
  refine Finset.sum_congr rfl fun o _ => ?_
  unfold rrProb
  by_cases h1 : o = x
  · simp [h1, hx]
  · by_cases h2 : o = x'
    · simp [h2, hx.symm]
    · simp [h1, h2]

lemma max_zero_mul {c : ℝ} (hc : 0 ≤ c) (a : ℝ) : max 0 (c * a) = c * max 0 a := by
  rw [mul_max_of_nonneg _ _ hc, mul_zero]

/-- the dictionaries of `from_randomized_response` under REPLACE_ONE -/
noncomputable def rrUpper (noise : ℝ) (k : ℕ) : LogPmf ℕ :=
  [(0, logP (1 - noise * ((k : ℝ) - 1) / k)), (1, logP (noise / k))] ++
    if (k : ℤ) > 2 then [(2, logP (((k : ℝ) - 2) * noise / k))] else []
noncomputable def rrLower (noise : ℝ) (k : ℕ) : LogPmf ℕ :=
  [(0, logP (noise / k)), (1, logP (1 - noise * ((k : ℝ) - 1) / k))] ++
    if (k : ℤ) > 2 then [(2, logP (((k : ℝ) - 2) * noise / k))] else []

lemma rr_u0 {noise : ℝ} {k : ℕ} (hk : 2 ≤ k) : 1 - noise * ((k : ℝ) - 1) / k = 1 - noise + noise / k := by
  have : (0 : ℝ) < k := by exact_mod_cast (by omega : 0 < k)
  field_simp; ring

lemma rr_sum {noise : ℝ} {k : ℕ} (h0 : 0 < noise) (h1 : noise < 1) (hk : 2 ≤ k) (F : ℝ → ℝ → ℝ) :
    (∑ o ∈ outcomes (rrLower noise k) (rrUpper noise k), F (prob (rrUpper noise k) o) (prob (rrLower noise k) o)) =
      F (1 - noise + noise / k) (noise / k) + F (noise / k) (1 - noise + noise / k) +
      (if k = 2 then 0 else F ((k - 2) * (noise / k)) ((k - 2) * (noise / k))) := by
  have hk0 : (0 : ℝ) < k := by exact_mod_cast (by omega : 0 < k)
  have p1 : 0 < noise / k := by positivity
  have p0 : 0 < 1 - noise * ((k : ℝ) - 1) / k := by rw [rr_u0 hk]; linarith
  have hk1 : (k : ℝ) - 1 = k - 1 := rfl
  by_cases h2 : k = 2
  · have hc : ¬ ((k : ℤ) > 2) := by omega
    have ho : outcomes (rrLower noise k) (rrUpper noise k) = {0, 1} := by
      simp only [outcomes, rrLower, rrUpper, hc, if_false, List.append_nil, List.map_cons, List.map_nil]
      decide
    rw [ho, Finset.sum_pair (by decide), if_pos h2, add_zero]
    simp only [prob, rrUpper, rrLower, hc, if_false, List.append_nil, LogPmf.get]
    simp only [if_true, one_ne_zero, zero_ne_one, if_false]
    rw [expLog_logP p0, expLog_logP p1, rr_u0 hk]
  · have hc : ((k : ℤ) > 2) := by omega
    have p2 : 0 < ((k : ℝ) - 2) * noise / k := by
      have : (2 : ℝ) < k := by exact_mod_cast (by omega : 2 < k)
      have : 0 < (k : ℝ) - 2 := by linarith
      positivity
    have ho : outcomes (rrLower noise k) (rrUpper noise k) = {0, 1, 2} := by
      simp only [outcomes, rrLower, rrUpper, hc, if_true, List.map_cons, List.map_nil, List.cons_append, List.nil_append]
      decide
    rw [ho, if_neg h2]
    rw [Finset.sum_insert (by decide), Finset.sum_pair (by decide)]
    simp only [prob, rrUpper, rrLower, hc, if_true, List.cons_append, List.nil_append, LogPmf.get]
    norm_num
    rw [expLog_logP p0, expLog_logP p1, expLog_logP p2, rr_u0 hk, mul_div_assoc]
    ring

lemma rr_prob_hs {noise : ℝ} {k : ℕ} (h0 : 0 < noise) (h1 : noise < 1) (hk : 2 ≤ k) (x x' : Fin k) (hx : x ≠ x') (e : ℝ) :
    hsFinite (outcomes (rrLower noise k) (rrUpper noise k)) (prob (rrUpper noise k)) (prob (rrLower noise k)) e =
      hsFinite Finset.univ (rrProb noise k x) (rrProb noise k x') e := by
  rw [rr_hs hk x x' hx]
  unfold hsFinite
  rw [rr_sum h0 h1 hk fun a b => max 0 (a - Real.exp e * b)]
  congr 1
  have h2 : (0 : ℝ) ≤ k - 2 := by have : (2 : ℝ) ≤ k := by exact_mod_cast hk
                                  linarith
  by_cases hk2 : k = 2
  · rw [if_pos hk2, hk2]; simp
  · rw [if_neg hk2, ← max_zero_mul h2]; congr 1; ring

/-- the dictionaries of `from_randomized_response` under REPLACE_SPECIAL -/
noncomputable def rrsUpper (noise : ℝ) (k : ℕ) : LogPmf ℕ :=
  [(0, logP (1 - noise * ((k : ℝ) - 1) / k)), (1, logP (((k : ℝ) - 1) * noise / k))]
noncomputable def rrsLower (k : ℕ) : LogPmf ℕ :=
  [(0, ((-Real.log k : ℝ) : LogProb)), (1, logP (1 - 1 / (k : ℝ)))]

lemma rrs_prob {noise : ℝ} {k : ℕ} (h0 : 0 < noise) (h1 : noise < 1) (hk : 2 ≤ k) :
    outcomes (rrsLower k) (rrsUpper noise k) = {0, 1} ∧
    prob (rrsUpper noise k) 0 = 1 - noise + noise / k ∧ prob (rrsUpper noise k) 1 = (k - 1) * (noise / k) ∧
    prob (rrsLower k) 0 = 1 / k ∧ prob (rrsLower k) 1 = (k - 1) * (1 / k) := by
  have hk2 : (2 : ℝ) ≤ k := by exact_mod_cast hk
  have hk0 : (0 : ℝ) < k := by linarith
  have p1 : 0 < noise / k := by positivity
  have p0 : 0 < 1 - noise * ((k : ℝ) - 1) / k := by rw [rr_u0 hk]; linarith
  have p2 : 0 < ((k : ℝ) - 1) * noise / k := by
    have : 0 < (k : ℝ) - 1 := by linarith
    positivity
  have p3 : 0 < 1 - 1 / (k : ℝ) := by
    rw [sub_pos, div_lt_one hk0]; linarith
  refine ⟨by simp only [outcomes, rrsLower, rrsUpper, List.map_cons, List.map_nil]; decide, ?_, ?_, ?_, ?_⟩
  · simp only [prob, rrsUpper, LogPmf.get, if_true]; rw [expLog_logP p0, rr_u0 hk]
  · simp only [prob, rrsUpper, LogPmf.get, zero_ne_one, if_false, if_true]; rw [expLog_logP p2]; ring
  · simp only [prob, rrsLower, LogPmf.get, if_true]; rw [expLog_coe, Real.exp_neg, Real.exp_log hk0, one_div]
  · simp only [prob, rrsLower, LogPmf.get, zero_ne_one, if_false, if_true]; rw [expLog_logP p3]; field_simp

lemma rrs_prob_hs {noise : ℝ} {k : ℕ} (h0 : 0 < noise) (h1 : noise < 1) (hk : 2 ≤ k) (x : Fin k) (e : ℝ) :
    hsFinite (outcomes (rrsLower k) (rrsUpper noise k)) (prob (rrsUpper noise k)) (prob (rrsLower k)) e =
      hsFinite Finset.univ (rrProb noise k x) (fun _ => 1 / (k : ℝ)) e ∧
    hsFinite (outcomes (rrsUpper noise k) (rrsLower k)) (prob (rrsLower k)) (prob (rrsUpper noise k)) e =
      hsFinite Finset.univ (fun _ => 1 / (k : ℝ)) (rrProb noise k x) e := by
  obtain ⟨ho, a0, a1, b0, b1⟩ := rrs_prob h0 h1 hk
  have hk1 : (0 : ℝ) ≤ k - 1 := by have : (2 : ℝ) ≤ k := by exact_mod_cast hk
                                   linarith
  rw [outcomes_comm (rrsUpper noise k)]
  unfold hsFinite
  rw [ho]
  constructor
  · rw [Finset.sum_pair (by decide), a0, a1, b0, b1]
    have : ∀ o : Fin k, max 0 (rrProb noise k x o - Real.exp e * (1 / (k : ℝ))) =
        if o = x then max 0 (1 - noise + noise / k - Real.exp e * (1 / (k : ℝ)))
        else max 0 (noise / k - Real.exp e * (1 / (k : ℝ))) := by
      intro o; unfold rrProb; by_cases h : o = x <;> simp [h]
    rw [Finset.sum_congr rfl fun o _ => this o, sum_one_special, ← max_zero_mul hk1]
    congr 2; ring
  · rw [Finset.sum_pair (by decide), a0, a1, b0, b1]
    have : ∀ o : Fin k, max 0 (1 / (k : ℝ) - Real.exp e * rrProb noise k x o) =
        if o = x then max 0 (1 / (k : ℝ) - Real.exp e * (1 - noise + noise / k))
        else max 0 (1 / (k : ℝ) - Real.exp e * (noise / k)) := by
      intro o; unfold rrProb; by_cases h : o = x <;> simp [h]
    rw [Finset.sum_congr rfl fun o _ => this o, sum_one_special, ← max_zero_mul hk1]
    congr 2; ring

lemma rr_eq_replaceOne {noise : ℝ} {k : ℕ} (h0 : 0 < noise) (h1 : noise < 1) (hk : 2 ≤ k) (pess : Bool) (disc : ℝ) :
    fromRandomizedResponse noise k pess disc .replaceOne = fromTwoPmfs (rrLower noise k) (rrUpper noise k) pess disc ⊥ true := by
  unfold fromRandomizedResponse
  rw [if_neg (by push Not; exact ⟨h0, h1⟩), if_neg (by omega)]
  simp only [Int.cast_natCast]
  rfl

lemma rr_eq_replaceSpecial {noise : ℝ} {k : ℕ} (h0 : 0 < noise) (h1 : noise < 1) (hk : 2 ≤ k) (pess : Bool) (disc : ℝ) :
    fromRandomizedResponse noise k pess disc .replaceSpecial = fromTwoPmfs (rrsLower k) (rrsUpper noise k) pess disc ⊥ false := by
  unfold fromRandomizedResponse
  rw [if_neg (by push Not; exact ⟨h0, h1⟩), if_neg (by omega)]
  simp only [Int.cast_natCast]
  rfl

lemma rr_nodup (noise : ℝ) (k : ℕ) : ((rrLower noise k).map Prod.fst).Nodup ∧ ((rrUpper noise k).map Prod.fst).Nodup := by
  unfold rrLower rrUpper
  split_ifs <;> simp

lemma rrs_nodup (noise : ℝ) (k : ℕ) : ((rrsLower k).map Prod.fst).Nodup ∧ ((rrsUpper noise k).map Prod.fst).Nodup := by
  simp [rrsLower, rrsUpper]

/-- losses of k-ary randomised response: `±log(u0/u1)` and 0 -/
lemma rr_grid {noise : ℝ} {k : ℕ} (h0 : 0 < noise) (h1 : noise < 1) (hk : 2 ≤ k) {disc : ℝ} (n : ℤ)
    (hg : Real.log ((1 - noise + noise / k) / (noise / k)) = n * disc) (o : ℕ) (u l : ℝ)
    (hu : LogPmf.get (rrUpper noise k) o = (u : LogProb)) (hl : LogPmf.get (rrLower noise k) o = (l : LogProb)) :
    ∃ n : ℤ, u - l = n * disc := by
  have hk0 : (0 : ℝ) < k := by exact_mod_cast (by omega : 0 < k)
  have p1 : 0 < noise / k := by positivity
  have p0 : 0 < 1 - noise + noise / k := by linarith
  rw [Real.log_div p0.ne' p1.ne'] at hg
  simp only [rrUpper, rrLower, List.cons_append, List.nil_append, LogPmf.get, logP, rr_u0 hk] at hu hl
  by_cases o0 : o = 0
  · subst o0
    simp only [if_true, WithBot.coe_inj] at hu hl
    exact ⟨n, by rw [← hu, ← hl, hg]⟩
  · by_cases o1 : o = 1
    · subst o1
      simp only [zero_ne_one, if_false, if_true, WithBot.coe_inj] at hu hl
      exact ⟨-n, by rw [← hu, ← hl]; push_cast; linarith⟩
    · simp only [Ne.symm o0, Ne.symm o1, if_false] at hu hl
      rw [hu] at hl
      simp only [WithBot.coe_inj] at hl
      exact ⟨0, by rw [hl]; simp⟩

end Verif.Pld
