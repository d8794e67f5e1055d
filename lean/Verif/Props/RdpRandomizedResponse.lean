import Verif.Proofs.RdpRR

/-!
# C38: RDP of randomised response

`rrReplaceOne p k α`, `rrReplaceSpecial p k α` are the models of `_randomized_response_rdp_replace_one/special`, and
`randomizedResponse` of `_compute_randomized_response_rdp`. `rrMech k p x` is the output distribution of randomised response
over `k` buckets on input `x`, `uniformResponse k` its output on the special record (`Verif/Spec/Mechanisms.lean`).
-/

namespace Verif.Props
open Verif Verif.Spec Verif.Rdp MeasureTheory

/-- **C38 (REPLACE_ONE, exact).** For different inputs the value is the Rényi divergence of the two outputs, for every real
order above 1 and every noise parameter in `[0, 1]` (`⊤` when there is no noise). -/
theorem C38_replace_one_exact (p : ℝ) (h0 : 0 ≤ p) (h1 : p ≤ 1) (k : ℕ) (x y : Fin k) (hxy : x ≠ y) (α : ℝ) (hα : 1 < α) :
    rrReplaceOne p k (α : EReal) = .ok (renyiDiv α (rrMech k p x) (rrMech k p y)) := by
  have hk2 := two_le_of_ne hxy
  have hkpos : (0 : ℝ) < k := by exact_mod_cast (by omega : 0 < k)
  have hk1 : ((k : ℤ)) ≠ 1 := by omega
  have hα1 : ¬ ((α : EReal) ≤ 1) := by rw [not_le]; exact_mod_cast hα
  unfold rrReplaceOne
  rw [if_neg hα1]
  rcases h1.eq_or_lt with rfl | h1'
  · rw [if_pos (Or.inr rfl), rr_one, rr_one]
    have := uniform_prob (k := k) (by omega)
    rw [RdpConv.renyi_self α hα.le]
  rw [if_neg (by push Not; exact ⟨hk1, h1'.ne⟩)]
  rcases h0.eq_or_lt with rfl | h0'
  · rw [if_pos rfl]
    unfold rrMech
    rw [renyi_finMeasure_top hα _ _ _ (Finset.mem_univ x)]
    · simp
    · simp [hxy]
  rw [if_neg h0'.ne']
  have hpk : 0 < p / k := by positivity
  have hL : (1 - p + p / k) / (p / k) = k / p - k + 1 := by field_simp
  have hLpos : 0 < (k : ℝ) / p - k + 1 := by rw [← hL]; exact div_pos (by linarith) hpk
  have h2k : 0 ≤ 1 - 2 / (k : ℝ) := by
    rw [sub_nonneg, div_le_one hkpos]; exact_mod_cast hk2
  have hpos : 0 < p / k * ((k : ℝ) / p - k + 1) ^ α + (1 - p + p / k) * ((k : ℝ) / p - k + 1) ^ (-α) + (1 - 2 / k) * p := by
    have a1 := Real.rpow_pos_of_pos hLpos α
    have a2 := Real.rpow_pos_of_pos hLpos (-α)
    have a3 : 0 < 1 - p + p / k := by linarith
    positivity
  dsimp only
  rw [if_neg (EReal.coe_ne_top _), EReal.toReal_coe]
  unfold rrMech
  rw [renyi_finMeasure hα _ _ _ (fun o _ => (rr_mass_pos h0' h1 x o).le) (fun o _ => rr_mass_pos h0' h1 y o)
    (by rw [rr_moment h0' h1 hxy]; exact hpos), rr_moment h0' h1 hxy]
  congr 4
  unfold logSumExp
  simp only [List.map_cons, List.map_nil, List.sum_cons, List.sum_nil, Real.exp_zero, mul_one, add_zero, Int.cast_natCast]
  rw [Real.rpow_def_of_pos hLpos, Real.rpow_def_of_pos hLpos, mul_comm (Real.log _), mul_comm (Real.log _), add_assoc]

/-- **C38 (REPLACE_SPECIAL, exact).** The value is the larger of the Rényi divergences, in the two directions, between the
output on any input and the output on the special record. -/
theorem C38_replace_special_exact (p : ℝ) (h0 : 0 ≤ p) (h1 : p ≤ 1) (k : ℕ) (x : Fin k) (α : ℝ) (hα : 1 < α) :
    rrReplaceSpecial p k (α : EReal) =
      .ok (max (renyiDiv α (rrMech k p x) (uniformResponse k)) (renyiDiv α (uniformResponse k) (rrMech k p x))) := by
  have hk0 := x.pos
  have hkpos : (0 : ℝ) < k := by exact_mod_cast hk0
  have hα1 : ¬ ((α : EReal) ≤ 1) := by rw [not_le]; exact_mod_cast hα
  have hu := uniform_prob (k := k) hk0
  unfold rrReplaceSpecial
  rw [if_neg hα1]
  by_cases hk1 : k = 1
  · subst hk1
    have : rrMech 1 p x = uniformResponse 1 := by
      unfold rrMech uniformResponse
      congr 1; funext o
      rw [if_pos (Subsingleton.elim o x)]; norm_num
    rw [if_pos (Or.inl (by norm_num)), this, RdpConv.renyi_self α hα.le, max_self]
  have hk2 : 2 ≤ k := by omega
  have hk1' : ((k : ℤ)) ≠ 1 := by exact_mod_cast hk1
  rcases h1.eq_or_lt with rfl | h1'
  · rw [if_pos (Or.inr rfl), rr_one, RdpConv.renyi_self α hα.le, max_self]
  rw [if_neg (by push Not; exact ⟨hk1', h1'.ne⟩)]
  rcases h0.eq_or_lt with rfl | h0'
  · rw [if_pos rfl]
    obtain ⟨y, hy⟩ : ∃ y : Fin k, y ≠ x := by
      by_cases hx : x.1 = 0
      · exact ⟨⟨1, hk2⟩, fun h => by rw [← h] at hx; simp at hx⟩
      · exact ⟨⟨0, hk0⟩, fun h => hx (by rw [← h])⟩
    have : renyiDiv α (uniformResponse k) (rrMech k 0 x) = ⊤ := by
      unfold rrMech uniformResponse
      refine renyi_finMeasure_top hα _ _ _ (Finset.mem_univ y) (by positivity) ?_
      simp [hy]
    rw [this, max_eq_right le_top]
  rw [if_neg h0'.ne']
  have hA : 0 < (k : ℝ) * (1 - p) + p := by nlinarith
  have hk1r : 0 ≤ 1 - 1 / (k : ℝ) := by
    rw [sub_nonneg, div_le_one hkpos]; exact_mod_cast hk0
  have hpos : ∀ a : ℝ, 0 < 1 / (k : ℝ) * (k * (1 - p) + p) ^ a + (1 - 1 / k) * p ^ a := by
    intro a
    have a1 := Real.rpow_pos_of_pos hA a
    have a2 := Real.rpow_pos_of_pos h0' a
    positivity
  have hls : ∀ a : ℝ, logSumExp [(a * Real.log (k * (1 - p) + p), 1 / (k : ℝ)), (a * Real.log p, 1 - 1 / (k : ℝ))] =
      Real.log (1 / (k : ℝ) * (k * (1 - p) + p) ^ a + (1 - 1 / k) * p ^ a) := by
    intro a
    unfold logSumExp
    simp only [List.map_cons, List.map_nil, List.sum_cons, List.sum_nil, add_zero]
    rw [Real.rpow_def_of_pos hA, Real.rpow_def_of_pos h0', mul_comm (Real.log _), mul_comm (Real.log _)]
  dsimp only
  rw [if_neg (EReal.coe_ne_top _), EReal.toReal_coe]
  simp only [Int.cast_natCast]
  rw [hls, hls]
  unfold rrMech uniformResponse
  rw [renyi_finMeasure hα _ _ _ (fun o _ => (rr_mass_pos h0' h1 x o).le) (fun o _ => by positivity)
      (by rw [rr_special_moment h0']; exact hpos α), rr_special_moment h0',
    renyi_finMeasure hα _ _ _ (fun o _ => by positivity) (fun o _ => rr_mass_pos h0' h1 x o)
      (by rw [rr_special_moment' h0' h1]; exact hpos _), rr_special_moment' h0' h1]
  rw [← EReal.coe_strictMono.monotone.map_max, ← max_div_div_right (by linarith)]

/-- **C38 (order infinity, REPLACE_ONE).** The value at order infinity is the least `r` for which the outputs on two different
inputs are `(r, 0)`-indistinguishable. -/
theorem C38_replace_one_infinite_order (p : ℝ) (h0 : 0 < p) (h1 : p ≤ 1) (k : ℕ) (x y : Fin k) (hxy : x ≠ y) :
    ∃ r : ℝ, rrReplaceOne p k ⊤ = .ok (r : EReal) ∧ IsLeast {r | Indist (rrMech k p x) (rrMech k p y) r 0} r := by
  have hk2 := two_le_of_ne hxy
  have hkpos : (0 : ℝ) < k := by exact_mod_cast (by omega : 0 < k)
  have hk1 : ((k : ℤ)) ≠ 1 := by omega
  have hpk : 0 < p / k := by positivity
  have hL : (1 - p + p / k) = (k / p - k + 1) * (p / k) := by field_simp
  have hLpos : 1 ≤ (k : ℝ) / p - k + 1 := by
    have : (k : ℝ) ≤ k / p := by rw [le_div_iff₀ h0]; nlinarith
    linarith
  refine ⟨Real.log (k / p - k + 1), ?_, ?_⟩
  · unfold rrReplaceOne
    rw [if_neg (by rw [not_le]; exact EReal.coe_lt_top 1)]
    by_cases hp1 : p = 1
    · rw [if_pos (Or.inr hp1), hp1]
      simp
    · rw [if_neg (by push Not; exact ⟨hk1, hp1⟩), if_neg h0.ne']
      dsimp only
      rw [if_pos rfl]
      simp
  · have hiff : ∀ r, Indist (rrMech k p x) (rrMech k p y) r 0 ↔ _ := fun r =>
      indist_fin_iff Finset.univ _ _ (fun o _ => (rr_mass_pos h0 h1 x o).le) (fun o _ => (rr_mass_pos h0 h1 y o).le) r
    constructor
    · show Indist _ _ _ _
      rw [hiff, Real.exp_log (by linarith)]
      intro o _
      by_cases hx : o = x
      · simp only [hx, hxy, if_true, if_false, mul_one, mul_zero, zero_add]
        rw [hL]
      · have hg := rr_mass_pos h0 h1 y o
        have : p / k ≤ (1 - p) * (if o = y then 1 else 0) + p / k := by split_ifs <;> linarith
        simp only [hx, if_false, mul_zero, zero_add]
        nlinarith
    · intro r hr
      have := (hiff r).1 hr x (Finset.mem_univ x)
      simp only [hxy, if_true, if_false, mul_one, mul_zero, zero_add] at this
      rw [hL] at this
      rw [Real.log_le_iff_le_exp (by linarith)]
      exact le_of_mul_le_mul_right this hpk

/-- **C38 (order infinity, REPLACE_SPECIAL).** The value at order infinity is the least `r` for which the outputs on any
input and on the special record are `(r, 0)`-indistinguishable in both directions. -/
theorem C38_replace_special_infinite_order (p : ℝ) (h0 : 0 < p) (h1 : p ≤ 1) (k : ℕ) (hk : 2 ≤ k) (x : Fin k) :
    ∃ r : ℝ, rrReplaceSpecial p k ⊤ = .ok (r : EReal) ∧
      IsLeast {r | Indist (rrMech k p x) (uniformResponse k) r 0 ∧ Indist (uniformResponse k) (rrMech k p x) r 0} r := by
  have hkpos : (0 : ℝ) < k := by exact_mod_cast (by omega : 0 < k)
  have hk1r : (1 : ℝ) ≤ k := by exact_mod_cast (by omega : 1 ≤ k)
  have hk1 : ((k : ℤ)) ≠ 1 := by omega
  have hpk : 0 < p / k := by positivity
  have hA : 1 ≤ (k : ℝ) * (1 - p) + p := by nlinarith
  obtain ⟨y, hy⟩ : ∃ y : Fin k, y ≠ x := by
    by_cases hx : x.1 = 0
    · exact ⟨⟨1, hk⟩, fun h => by rw [← h] at hx; simp at hx⟩
    · exact ⟨⟨0, by omega⟩, fun h => hx (by rw [← h])⟩
  have hAe : (1 - p) + p / k = (k * (1 - p) + p) * (1 / k) := by field_simp
  have hpe : p / k = p * (1 / (k : ℝ)) := by ring
  have hik : 0 < 1 / (k : ℝ) := by positivity
  refine ⟨max (Real.log (k * (1 - p) + p)) (-Real.log p), ?_, ?_⟩
  · unfold rrReplaceSpecial
    rw [if_neg (by rw [not_le]; exact EReal.coe_lt_top 1)]
    by_cases hp1 : p = 1
    · rw [if_pos (Or.inr hp1), hp1]
      simp
    · rw [if_neg (by push Not; exact ⟨hk1, hp1⟩), if_neg h0.ne']
      dsimp only
      rw [if_pos rfl]
      simp
  · have hiff : ∀ r, Indist (rrMech k p x) (uniformResponse k) r 0 ↔ _ := fun r =>
      indist_fin_iff Finset.univ _ _ (fun o _ => (rr_mass_pos h0 h1 x o).le) (fun o _ => by positivity) r
    have hiff' : ∀ r, Indist (uniformResponse k) (rrMech k p x) r 0 ↔ _ := fun r =>
      indist_fin_iff Finset.univ _ _ (fun o _ => by positivity) (fun o _ => (rr_mass_pos h0 h1 x o).le) r
    have e1 : (k : ℝ) * (1 - p) + p ≤ Real.exp (max (Real.log (k * (1 - p) + p)) (-Real.log p)) := by
      rw [← Real.log_le_iff_le_exp (by linarith)]; exact le_max_left _ _
    have e2 : 1 / p ≤ Real.exp (max (Real.log (k * (1 - p) + p)) (-Real.log p)) := by
      rw [← Real.log_le_iff_le_exp (by positivity), one_div, Real.log_inv]; exact le_max_right _ _
    constructor
    · refine ⟨(hiff _).2 fun o _ => ?_, (hiff' _).2 fun o _ => ?_⟩
      · refine le_trans ?_ (mul_le_mul_of_nonneg_right e1 hik.le)
        rw [← hAe]
        split_ifs <;> linarith
      · have hg : p / k ≤ (1 - p) * (if o = x then 1 else 0) + p / k := by split_ifs <;> linarith
        refine le_trans ?_ (mul_le_mul e2 hg hpk.le (Real.exp_pos _).le)
        exact le_of_eq (by field_simp)
    · intro r hr
      have a1 := (hiff r).1 hr.1 x (Finset.mem_univ x)
      have a2 := (hiff' r).1 hr.2 y (Finset.mem_univ y)
      simp only [hy, if_true, if_false, mul_one, mul_zero, zero_add] at a1 a2
      rw [hAe] at a1
      refine max_le ?_ ?_
      · rw [Real.log_le_iff_le_exp (by linarith)]
        exact le_of_mul_le_mul_right a1 hik
      · rw [← Real.log_inv, Real.log_le_iff_le_exp (by positivity), ← one_div, div_le_iff₀ h0]
        rw [hpe, ← mul_assoc] at a2
        exact le_of_mul_le_mul_right (by linarith) hik

/-- The conditions under which `_compute_randomized_response_rdp` returns. -/
lemma rr_ok {n : ℕ} {orders : Fin n → EReal} {p : PyNum} {k : ℕ} {nr : NeighborRel} {arr : Arr n}
    (h : Rdp.randomizedResponse orders p k nr = .ok arr) :
    0 ≤ p.val.toReal ∧ p.val.toReal ≤ 1 ∧ ∀ i, (if nr = .replaceOne then rrReplaceOne p.val.toReal k (orders i)
      else rrReplaceSpecial p.val.toReal k (orders i)) = .ok (arr i) := by
  unfold Rdp.randomizedResponse at h
  by_cases h1 : p.val < 0 ∨ p.val > 1
  · rw [if_pos h1] at h; simp at h
  by_cases h2 : (k : ℤ) < 1
  · rw [if_neg h1, if_pos h2] at h; simp at h
  rw [if_neg h1, if_neg h2] at h
  push Not at h1
  refine ⟨EReal.toReal_nonneg h1.1, ?_, fun i => ?_⟩
  · have := EReal.toReal_le_toReal h1.2 (by intro h; rw [h] at h1; simp at h1) (EReal.coe_ne_top 1)
    simpa using this
  · have := collect_ok h i
    exact this

/-- **C38 (mechanism, REPLACE_ONE).** Whenever the function returns, its entry at a real order bounds the Rényi divergence
between the outputs of randomised response on any two inputs. -/
theorem C38_replace_one_mechanism {n : ℕ} (orders : Fin n → EReal) (p : PyNum) (k : ℕ) (arr : Arr n)
    (h : Rdp.randomizedResponse orders p k .replaceOne = .ok arr) (i : Fin n) (α : ℝ) (hi : orders i = (α : EReal))
    {Ω : Type} [MeasurableSpace Ω] (P Q : Measure Ω) (hPQ : RRReplaceOne k p.val.toReal Ω P Q) : renyiDiv α P Q ≤ arr i := by
  obtain ⟨h0, h1, h2⟩ := rr_ok h
  have h3 := h2 i
  rw [if_pos rfl, hi] at h3
  have hα : 1 < α := by
    by_contra hc
    have : (α : EReal) ≤ 1 := by exact_mod_cast not_lt.1 hc
    rw [rrReplaceOne, if_pos this] at h3
    exact absurd h3 (by simp)
  cases hPQ with
  | mk x y =>
    by_cases hxy : x = y
    · have := rr_prob h0 h1 y
      rw [hxy, RdpConv.renyi_self α hα.le]
      by_cases hk : ∃ z : Fin k, z ≠ y
      · obtain ⟨z, hz⟩ := hk
        have := rr_prob h0 h1 z
        rw [C38_replace_one_exact _ h0 h1 k z y hz α hα, Except.ok.injEq] at h3
        rw [← h3]
        exact RdpConv.renyi_nonneg hα.le
      · push Not at hk
        have hk1 : k = 1 := by
          by_contra hne
          have := y.pos
          by_cases hy : y.1 = 0
          · have := hk ⟨1, by omega⟩
            rw [← this] at hy; simp at hy
          · exact hy (by rw [← hk ⟨0, by omega⟩])
        rw [rrReplaceOne, if_neg (by rw [not_le]; exact_mod_cast hα), if_pos (Or.inl (by exact_mod_cast hk1)), Except.ok.injEq] at h3
        rw [← h3]
    · rw [C38_replace_one_exact _ h0 h1 k x y hxy α hα, Except.ok.injEq] at h3
      rw [← h3]

/-- **C38 (mechanism, REPLACE_SPECIAL).** -/
theorem C38_replace_special_mechanism {n : ℕ} (orders : Fin n → EReal) (p : PyNum) (k : ℕ) (arr : Arr n)
    (h : Rdp.randomizedResponse orders p k .replaceSpecial = .ok arr) (i : Fin n) (α : ℝ) (hi : orders i = (α : EReal))
    {Ω : Type} [MeasurableSpace Ω] (P Q : Measure Ω) (hPQ : RRReplaceSpecial k p.val.toReal Ω P Q) : renyiDiv α P Q ≤ arr i := by
  obtain ⟨h0, h1, h2⟩ := rr_ok h
  have h3 := h2 i
  rw [if_neg (by simp), hi] at h3
  have hα : 1 < α := by
    by_contra hc
    have : (α : EReal) ≤ 1 := by exact_mod_cast not_lt.1 hc
    rw [rrReplaceSpecial, if_pos this] at h3
    exact absurd h3 (by simp)
  cases hPQ with
  | toSpecial x =>
    rw [C38_replace_special_exact _ h0 h1 k x α hα, Except.ok.injEq] at h3
    rw [← h3]; exact le_max_left _ _
  | ofSpecial x =>
    rw [C38_replace_special_exact _ h0 h1 k x α hα, Except.ok.injEq] at h3
    rw [← h3]; exact le_max_right _ _

/-- A concrete case: the function returns for a fair coin over two buckets at order 2. -/
example : ∃ arr, Rdp.randomizedResponse (fun _ : Fin 1 => ((2 : ℝ) : EReal)) (.float (1 / 2)) 2 .replaceOne = .ok arr := by
  have h : ∀ i : Fin 1, ∃ r, rrReplaceOne (1 / 2) ((2 : ℕ) : ℤ) ((2 : ℝ) : EReal) = .ok r := fun i =>
    ⟨_, C38_replace_one_exact (1 / 2) (by norm_num) (by norm_num) 2 0 1 (by decide) 2 (by norm_num)⟩
  obtain ⟨r, hr⟩ := h 0
  refine ⟨fun _ => r, ?_⟩
  unfold Rdp.randomizedResponse
  rw [if_neg, if_neg (by norm_num)]
  · unfold collect
    have e : PyNum.val (.float (1 / 2)) = ((1 / 2 : ℝ) : EReal) := rfl
    simp only [if_true, e, EReal.toReal_coe]
    rw [show ((2 : ℤ)) = ((2 : ℕ) : ℤ) by norm_num, hr]
    simp
  · rw [show PyNum.val (.float (1 / 2)) = ((1 / 2 : ℝ) : EReal) from rfl]
    push Not
    constructor <;> norm_cast <;> norm_num

end Verif.Props
