import Mathlib.Analysis.MeanInequalitiesPow
import Mathlib.MeasureTheory.Integral.Bochner.Set
import Mathlib.MeasureTheory.Integral.Bochner.Basic
import Mathlib.Data.Nat.Choose.Sum

/-!
# Amplification by sampling without replacement: the abstract argument

Wang, Balle, Kasiviswanathan, "Subsampled Rényi differential privacy and analytical moments accountant".
-/

namespace Verif.Wor
open MeasureTheory Finset

/-- Joint convexity of `y (|x| / y)^j`. -/
lemma persp {ι : Type*} (K : Finset ι) (W x y : ι → ℝ) (hW : ∀ k ∈ K, 0 ≤ W k) (hy : ∀ k ∈ K, 0 < y k)
    (hY : 0 < ∑ k ∈ K, W k * y k) (j : ℕ) :
    (∑ k ∈ K, W k * y k) * (|∑ k ∈ K, W k * x k| / ∑ k ∈ K, W k * y k) ^ j ≤ ∑ k ∈ K, W k * (y k * (|x k| / y k) ^ j) := by
  set Y := ∑ k ∈ K, W k * y k with hYd
  have h1 : |∑ k ∈ K, W k * x k| / Y ≤ ∑ k ∈ K, (W k * y k / Y) * (|x k| / y k) := by
    rw [div_le_iff₀ hY, Finset.sum_mul]
    refine (Finset.abs_sum_le_sum_abs _ _).trans (Finset.sum_le_sum fun k hk => ?_)
    rw [abs_mul, abs_of_nonneg (hW k hk)]
    have := (hy k hk).ne'
    exact le_of_eq (by field_simp)
  have h2 : (∑ k ∈ K, (W k * y k / Y) * (|x k| / y k)) ^ j ≤ ∑ k ∈ K, (W k * y k / Y) * (|x k| / y k) ^ j := by
    refine Real.pow_arith_mean_le_arith_mean_pow K _ _ (fun k hk => ?_) ?_ (fun k hk => ?_) j
    · exact div_nonneg (mul_nonneg (hW k hk) (hy k hk).le) hY.le
    · rw [← Finset.sum_div, ← hYd, div_self hY.ne']
    · exact div_nonneg (abs_nonneg _) (hy k hk).le
  have h3 : (|∑ k ∈ K, W k * x k| / Y) ^ j ≤ ∑ k ∈ K, (W k * y k / Y) * (|x k| / y k) ^ j :=
    (pow_le_pow_left₀ (div_nonneg (abs_nonneg _) hY.le) h1 j).trans h2
  refine (mul_le_mul_of_nonneg_left h3 hY.le).trans (le_of_eq ?_)
  rw [Finset.mul_sum]
  refine Finset.sum_congr rfl fun k _ => ?_
  field_simp

/-- A mixture of two families. -/
lemma persp2 {κ : Type*} (K : Finset κ) (w x y y' : κ → ℝ) {g : ℝ} (h0 : 0 ≤ g) (h1 : g ≤ 1) (hw : ∀ k ∈ K, 0 ≤ w k)
    (hy : ∀ k ∈ K, 0 < y k) (hy' : ∀ k ∈ K, 0 < y' k) (hY : 0 < ∑ k ∈ K, w k * ((1 - g) * y k + g * y' k)) (j : ℕ) :
    (∑ k ∈ K, w k * ((1 - g) * y k + g * y' k)) * (|∑ k ∈ K, w k * x k| / ∑ k ∈ K, w k * ((1 - g) * y k + g * y' k)) ^ j ≤
      ∑ k ∈ K, w k * ((1 - g) * (y k * (|x k| / y k) ^ j) + g * (y' k * (|x k| / y' k) ^ j)) := by
  classical
  have e1 : ∀ a b : κ → ℝ, ∑ i ∈ K.disjSum K, Sum.elim (fun k => w k * (1 - g) * a k) (fun k => w k * g * b k) i =
      ∑ k ∈ K, w k * ((1 - g) * a k + g * b k) := by
    intro a b
    rw [Finset.sum_disjSum, ← Finset.sum_add_distrib]
    exact Finset.sum_congr rfl fun k _ => by simp only [Sum.elim_inl, Sum.elim_inr]; ring
  have e2 : ∀ (a b : κ → ℝ) (i : κ ⊕ κ), Sum.elim (fun k => w k * (1 - g)) (fun k => w k * g) i * Sum.elim a b i =
      Sum.elim (fun k => w k * (1 - g) * a k) (fun k => w k * g * b k) i := by
    intro a b i; cases i <;> rfl
  have h := persp (K.disjSum K) (Sum.elim (fun k => w k * (1 - g)) (fun k => w k * g)) (Sum.elim x x) (Sum.elim y y')
    (by
      intro i hi
      cases i with
      | inl k => exact mul_nonneg (hw k (by simpa using hi)) (by linarith)
      | inr k => exact mul_nonneg (hw k (by simpa using hi)) h0)
    (by
      intro i hi
      cases i with
      | inl k => exact hy k (by simpa using hi)
      | inr k => exact hy' k (by simpa using hi))
    (by simp only [e2, e1]; exact hY) j
  have e3 : ∀ i : κ ⊕ κ, Sum.elim y y' i * (|Sum.elim x x i| / Sum.elim y y' i) ^ j =
      Sum.elim (fun k => y k * (|x k| / y k) ^ j) (fun k => y' k * (|x k| / y' k) ^ j) i := by
    intro i; cases i <;> rfl
  simp only [e3, e2, e1] at h
  convert h using 5
  exact Finset.sum_congr rfl fun k _ => by ring

variable {Ω κ : Type*} [MeasurableSpace Ω]

/-- The Rényi moment of a mixture in which a component is replaced with probability `g`. -/
theorem moment_le (ρ : Measure Ω) (K : Finset κ) (w : κ → ℝ) (hw : ∀ k ∈ K, 0 ≤ w k) (hw1 : ∑ k ∈ K, w k = 1) {g : ℝ} (h0 : 0 ≤ g)
    (h1 : g ≤ 1) (r p p' : κ → Ω → ℝ) (hr : ∀ k x, 0 < r k x) (hp' : ∀ k x, 0 < p' k x)
    (mr : ∀ k, Measurable (r k)) (mp : ∀ k, Measurable (p k)) (mp' : ∀ k, Measurable (p' k))
    (ir : ∀ k, Integrable (r k) ρ) (ip : ∀ k, Integrable (p k) ρ) (ip' : ∀ k, Integrable (p' k) ρ)
    (jr : ∀ k, ∫ x, r k x ∂ρ = 1) (jp : ∀ k, ∫ x, p k x ∂ρ = 1) (jp' : ∀ k, ∫ x, p' k x ∂ρ = 1) (a : ℕ) (B : ℕ → ℝ)
    (hB : ∀ k, ∀ j, 2 ≤ j → j ≤ a → Integrable (fun x => r k x * (|p k x - p' k x| / r k x) ^ j) ρ ∧
      ∫ x, r k x * (|p k x - p' k x| / r k x) ^ j ∂ρ ≤ B j)
    (hB' : ∀ k, ∀ j, 2 ≤ j → j ≤ a → Integrable (fun x => p' k x * (|p k x - p' k x| / p' k x) ^ j) ρ ∧
      ∫ x, p' k x * (|p k x - p' k x| / p' k x) ^ j ∂ρ ≤ B j) :
    let P := fun x => ∑ k ∈ K, w k * ((1 - g) * r k x + g * p k x)
    let Q := fun x => ∑ k ∈ K, w k * ((1 - g) * r k x + g * p' k x)
    Integrable (fun x => Q x * (P x / Q x) ^ a) ρ ∧
      ∫ x, Q x * (P x / Q x) ^ a ∂ρ ≤ 1 + ∑ j ∈ Finset.Icc 2 a, (a.choose j : ℝ) * g ^ j * B j := by
  intro P Q
  have hQ : ∀ x, 0 < Q x := by
    intro x
    have hne : ∃ k ∈ K, 0 < w k := by
      by_contra hc
      push Not at hc
      have : ∑ k ∈ K, w k ≤ 0 := Finset.sum_nonpos hc
      linarith
    have hpos : ∀ k, 0 < (1 - g) * r k x + g * p' k x := by
      intro k
      rcases h0.eq_or_lt with rfl | h
      · simpa using hr k x
      · have := mul_nonneg (sub_nonneg.2 h1) (hr k x).le
        have := mul_pos h (hp' k x)
        linarith
    obtain ⟨k, hk, hwk⟩ := hne
    exact Finset.sum_pos' (fun k hk => mul_nonneg (hw k hk) (hpos k).le) ⟨k, hk, mul_pos hwk (hpos k)⟩
  set δ := fun x => ∑ k ∈ K, w k * (p k x - p' k x) with hδ
  have hPQ : ∀ x, P x = Q x + g * δ x := by
    intro x
    simp only [P, Q, hδ, Finset.mul_sum, ← Finset.sum_add_distrib]
    exact Finset.sum_congr rfl fun k _ => by ring
  have mQ : Measurable Q := by
    have : ∀ k ∈ K, Measurable fun x => w k * ((1 - g) * r k x + g * p' k x) := fun k _ => by
      have := mr k; have := mp' k; fun_prop
    exact Finset.measurable_fun_sum K this
  have mδ : Measurable δ := by
    have : ∀ k ∈ K, Measurable fun x => w k * (p k x - p' k x) := fun k _ => by
      have := mp k; have := mp' k; fun_prop
    exact Finset.measurable_fun_sum K this
  have iQ : Integrable Q ρ := integrable_finsetSum K fun k _ => (((ir k).const_mul _).add ((ip' k).const_mul _)).const_mul _
  have iδ : Integrable δ ρ := integrable_finsetSum K fun k _ => ((ip k).sub (ip' k)).const_mul _
  have jQ : ∫ x, Q x ∂ρ = 1 := by
    have e := integral_finsetSum (μ := ρ) K (f := fun k x => w k * ((1 - g) * r k x + g * p' k x))
      fun k _ => (((ir k).const_mul _).add ((ip' k).const_mul _)).const_mul _
    refine e.trans (Eq.trans (Finset.sum_congr rfl fun k _ => ?_) hw1)
    rw [integral_const_mul]
    have : ∫ x, ((1 - g) * r k x + g * p' k x) ∂ρ = 1 := by
      rw [integral_add ((ir k).const_mul _) ((ip' k).const_mul _), integral_const_mul, integral_const_mul, jr, jp']; ring
    rw [this, mul_one]
  have jδ : ∫ x, δ x ∂ρ = 0 := by
    have e := integral_finsetSum (μ := ρ) K (f := fun k x => w k * (p k x - p' k x))
      fun k _ => ((ip k).sub (ip' k)).const_mul _
    refine e.trans ?_
    refine Finset.sum_eq_zero fun k _ => ?_
    rw [integral_const_mul, integral_sub (ip k) (ip' k), jp, jp', sub_self, mul_zero]
  -- the terms of the binomial expansion
  have hexp : ∀ x, Q x * (P x / Q x) ^ a = ∑ j ∈ Finset.range (a + 1), (a.choose j : ℝ) * g ^ j * (Q x * (δ x / Q x) ^ j) := by
    intro x
    have hq := (hQ x).ne'
    have : P x / Q x = g * (δ x / Q x) + 1 := by rw [hPQ]; field_simp; ring
    rw [this, add_pow, Finset.mul_sum]
    refine Finset.sum_congr rfl fun j _ => ?_
    rw [mul_pow, one_pow]; ring
  let E : ℕ → Ω → ℝ := fun j x => ∑ k ∈ K, w k * ((1 - g) * (r k x * (|p k x - p' k x| / r k x) ^ j) +
    g * (p' k x * (|p k x - p' k x| / p' k x) ^ j))
  have hSE : ∀ j x, |Q x * (δ x / Q x) ^ j| ≤ E j x := by
    intro j x
    rw [abs_mul, abs_of_pos (hQ x), abs_pow, abs_div, abs_of_pos (hQ x)]
    exact persp2 K w (fun k => p k x - p' k x) (fun k => r k x) (fun k => p' k x) h0 h1 hw (fun k _ => hr k x) (fun k _ => hp' k x)
      (hQ x) j
  have iE : ∀ j, 2 ≤ j → j ≤ a → Integrable (E j) ρ := fun j h2 ha =>
    integrable_finsetSum K fun k _ => (((hB k j h2 ha).1.const_mul _).add ((hB' k j h2 ha).1.const_mul _)).const_mul _
  have jE : ∀ j, 2 ≤ j → j ≤ a → ∫ x, E j x ∂ρ ≤ B j := by
    intro j h2 ha
    have e := integral_finsetSum (μ := ρ) K (f := fun k x => w k * ((1 - g) * (r k x * (|p k x - p' k x| / r k x) ^ j) +
      g * (p' k x * (|p k x - p' k x| / p' k x) ^ j)))
      fun k _ => (((hB k j h2 ha).1.const_mul _).add ((hB' k j h2 ha).1.const_mul _)).const_mul _
    refine e.le.trans ?_
    have : ∑ k ∈ K, w k * B j = B j := by rw [← Finset.sum_mul, hw1, one_mul]
    rw [← this]
    refine Finset.sum_le_sum fun k hk => ?_
    rw [integral_const_mul]
    refine mul_le_mul_of_nonneg_left ?_ (hw k hk)
    rw [integral_add ((hB k j h2 ha).1.const_mul _) ((hB' k j h2 ha).1.const_mul _), integral_const_mul, integral_const_mul]
    have a1 := mul_le_mul_of_nonneg_left (hB k j h2 ha).2 (sub_nonneg.2 h1)
    have a2 := mul_le_mul_of_nonneg_left (hB' k j h2 ha).2 h0
    linarith
  have iS : ∀ j ≤ a, Integrable (fun x => Q x * (δ x / Q x) ^ j) ρ := by
    intro j ha
    rcases Nat.lt_or_ge j 2 with h | h
    · interval_cases j
      · simpa using iQ
      · refine iδ.congr (Filter.Eventually.of_forall fun x => ?_)
        have := (hQ x).ne'
        simp only [pow_one]; field_simp
    · refine (iE j h ha).mono' (by fun_prop) (Filter.Eventually.of_forall fun x => ?_)
      rw [Real.norm_eq_abs]; exact hSE j x
  have iT : ∀ j ∈ Finset.range (a + 1), Integrable (fun x => (a.choose j : ℝ) * g ^ j * (Q x * (δ x / Q x) ^ j)) ρ := fun j hj =>
    (iS j (by rw [Finset.mem_range] at hj; omega)).const_mul _
  simp only [hexp]
  refine ⟨integrable_finsetSum _ iT, ?_⟩
  rw [integral_finsetSum _ iT]
  simp only [integral_const_mul]
  have hterm : ∀ j ∈ Finset.range (a + 1), (a.choose j : ℝ) * g ^ j * ∫ x, Q x * (δ x / Q x) ^ j ∂ρ ≤
      (a.choose j : ℝ) * g ^ j * (if j = 0 then 1 else if j = 1 then 0 else B j) := by
    intro j hj
    refine mul_le_mul_of_nonneg_left ?_ (by positivity)
    have ha : j ≤ a := by rw [Finset.mem_range] at hj; omega
    rcases Nat.lt_or_ge j 2 with h | h
    · interval_cases j
      · simp [jQ]
      · simp only [pow_one, one_ne_zero, if_false, if_true]
        refine le_of_eq ?_
        rw [← jδ]
        refine integral_congr_ae (Filter.Eventually.of_forall fun x => ?_)
        have := (hQ x).ne'
        simp only; field_simp
    · rw [if_neg (by omega), if_neg (by omega)]
      refine le_trans ?_ (jE j h ha)
      exact integral_mono (iS j ha) (iE j h ha) fun x => (le_abs_self _).trans (hSE j x)
  refine (Finset.sum_le_sum hterm).trans (le_of_eq ?_)
  have hsplit : ∀ a : ℕ, ∑ j ∈ Finset.range (a + 1), (a.choose j : ℝ) * g ^ j * (if j = 0 then 1 else if j = 1 then 0 else B j) =
      1 + ∑ j ∈ Finset.Icc 2 a, (a.choose j : ℝ) * g ^ j * B j := by
    intro a
    rw [Finset.sum_range_succ']
    simp only [Nat.choose_zero_right, Nat.cast_one, pow_zero, mul_one, if_true]
    rw [add_comm]
    congr 1
    cases a with
    | zero => simp
    | succ b =>
      rw [Finset.sum_range_succ']
      simp only [zero_add, one_ne_zero, if_false, if_true, mul_zero, add_zero]
      have : Finset.Icc 2 (b + 1) = (Finset.range b).map (addRightEmbedding 2) := by
        rw [Finset.range_eq_Ico, Finset.map_add_right_Ico]
        ext x; simp only [Finset.mem_Icc, Finset.mem_Ico]; omega
      rw [this, Finset.sum_map]
      refine Finset.sum_congr rfl fun j _ => ?_
      have e : j + 1 + 1 = j + 2 := by omega
      simp [e]
  exact hsplit a

/-- The ternary divergence is bounded by binary ones. -/
lemma ternary_le {p q r : ℝ} (hp : 0 < p) (hq : 0 < q) (hr : 0 < r) (j : ℕ) :
    r * (|p - q| / r) ^ j ≤ r * (|p - r| / r) ^ j + r * (|q - r| / r) ^ j + q * (|p - q| / q) ^ j + p * (|q - p| / p) ^ j := by
  have n1 : 0 ≤ r * (|p - r| / r) ^ j := by positivity
  have n2 : 0 ≤ r * (|q - r| / r) ^ j := by positivity
  have n3 : 0 ≤ q * (|p - q| / q) ^ j := by positivity
  have n4 : 0 ≤ p * (|q - p| / p) ^ j := by positivity
  have same : ∀ {p q : ℝ}, |p - q| ≤ |p - r| → r * (|p - q| / r) ^ j ≤ r * (|p - r| / r) ^ j := by
    intro p q h
    gcongr
  rcases Nat.eq_zero_or_pos j with rfl | hj
  · simp; linarith
  have base : ∀ {s t : ℝ}, 0 < s → s ≤ r → 0 ≤ t → r * (t / r) ^ j ≤ s * (t / s) ^ j := by
    intro s t hs hsr ht
    obtain ⟨i, rfl⟩ : ∃ i, j = i + 1 := ⟨j - 1, by omega⟩
    have e : ∀ u : ℝ, 0 < u → u * (t / u) ^ (i + 1) = t * (t / u) ^ i := by
      intro u hu
      rw [pow_succ]; field_simp
    rw [e r hr, e s hs]
    gcongr
  rcases le_total r p with h1 | h1 <;> rcases le_total r q with h2 | h2
  · rcases le_total p q with h3 | h3
    · have : r * (|p - q| / r) ^ j ≤ r * (|q - r| / r) ^ j := by
        rw [abs_sub_comm]
        exact same (by rw [abs_of_nonneg (by linarith), abs_of_nonneg (by linarith)]; linarith)
      linarith
    · have := same (p := p) (q := q) (by rw [abs_of_nonneg (by linarith), abs_of_nonneg (by linarith)]; linarith)
      linarith
  · have := base hq h2 (abs_nonneg (p - q))
    linarith
  · have := base hp h1 (abs_nonneg (q - p))
    rw [abs_sub_comm p q]
    rw [abs_sub_comm p q] at n3
    linarith
  · rcases le_total p q with h3 | h3
    · have := same (p := p) (q := q) (by rw [abs_of_nonpos (by linarith), abs_of_nonpos (by linarith)]; linarith)
      linarith
    · have : r * (|p - q| / r) ^ j ≤ r * (|q - r| / r) ^ j := by
        rw [abs_sub_comm]
        exact same (by rw [abs_of_nonpos (by linarith), abs_of_nonpos (by linarith)]; linarith)
      linarith

lemma ternary_le' {p q r : ℝ} (hp : 0 < p) (hq : 0 < q) (hr : 0 < r) (j : ℕ) :
    r * (|p - q| / r) ^ j ≤ r * (p / r) ^ j + r * (q / r) ^ j := by
  have n1 : 0 ≤ r * (p / r) ^ j := by positivity
  have n2 : 0 ≤ r * (q / r) ^ j := by positivity
  rcases le_total p q with h | h
  · have : r * (|p - q| / r) ^ j ≤ r * (q / r) ^ j := by
      rw [abs_of_nonpos (by linarith)]
      refine mul_le_mul_of_nonneg_left (pow_le_pow_left₀ (div_nonneg (by linarith) hr.le) ?_ j) hr.le
      gcongr
      linarith
    linarith
  · have : r * (|p - q| / r) ^ j ≤ r * (p / r) ^ j := by
      rw [abs_of_nonneg (by linarith)]
      refine mul_le_mul_of_nonneg_left (pow_le_pow_left₀ (div_nonneg (by linarith) hr.le) ?_ j) hr.le
      gcongr
      linarith
    linarith

end Verif.Wor
