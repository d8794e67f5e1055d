import Verif.Proofs.Mcdiarmid
import Verif.Spec.Privacy
import Mathlib.Probability.Moments.Variance

/-!
# Counts of independent samples in disjoint cells

The deviation of the empirical frequencies from the probabilities, bounded by quantities known from the samples.
-/

namespace Verif.Histogram

open MeasureTheory ProbabilityTheory Real

variable {S : Type*} [MeasurableSpace S] {k : ℕ}

/-- The number of samples in the `i`-th cell. -/
noncomputable def cnt (C : Fin k → Set S) {n : ℕ} (x : Fin n → S) (i : Fin k) : ℝ := ∑ j, (C i).indicator 1 (x j)

structure Cells (C : Fin k → Set S) : Prop where
  measurable : ∀ i, MeasurableSet (C i)
  disjoint : ∀ i j, i ≠ j → Disjoint (C i) (C j)

variable {C : Fin k → Set S}

theorem ind_nonneg (A : Set S) (s : S) : (0 : ℝ) ≤ A.indicator 1 s := Set.indicator_nonneg (fun _ _ => zero_le_one) s

theorem ind_le_one (A : Set S) (s : S) : (A.indicator 1 s : ℝ) ≤ 1 := Set.indicator_le_self' (fun _ _ => zero_le_one) s

theorem cnt_nonneg {n : ℕ} (x : Fin n → S) (i : Fin k) : 0 ≤ cnt C x i := Finset.sum_nonneg fun _ _ => ind_nonneg _ _

theorem cnt_le {n : ℕ} (x : Fin n → S) (i : Fin k) : cnt C x i ≤ n := by
  refine (Finset.sum_le_sum fun j _ => ind_le_one _ _).trans ?_
  simp

theorem measurable_cnt (h : Cells C) {n : ℕ} (i : Fin k) : Measurable fun x : Fin n → S => cnt C x i := by
  unfold cnt
  exact Finset.measurable_fun_sum _ fun j _ => (measurable_const.indicator (h.measurable i)).comp (measurable_pi_apply j)

theorem sum_ind_le (h : Cells C) (s : S) : ∑ i, (C i).indicator (1 : S → ℝ) s ≤ 1 := by
  by_cases hs : ∃ i, s ∈ C i
  · obtain ⟨i, hi⟩ := hs
    rw [Finset.sum_eq_single i]
    · exact ind_le_one _ _
    · intro j _ hj
      exact Set.indicator_of_notMem (fun hm => Set.disjoint_left.1 (h.disjoint j i hj) hm hi) _
    · simp
  · push Not at hs
    rw [Finset.sum_eq_zero fun i _ => Set.indicator_of_notMem (hs i) _]
    exact zero_le_one

theorem cnt_update {n : ℕ} (x : Fin n → S) (j : Fin n) (a : S) (i : Fin k) :
    cnt C (Function.update x j a) i = cnt C x i + (C i).indicator 1 a - (C i).indicator 1 (x j) := by
  have key : ∀ y : Fin n → S, cnt C y i = (C i).indicator 1 (y j) + ∑ l ∈ Finset.univ.erase j, (C i).indicator 1 (y l) := fun y =>
    (Finset.add_sum_erase _ _ (Finset.mem_univ j)).symm
  rw [key, key x, Function.update_self]
  have : ∑ l ∈ Finset.univ.erase j, (C i).indicator (1 : S → ℝ) (Function.update x j a l) =
      ∑ l ∈ Finset.univ.erase j, (C i).indicator 1 (x l) :=
    Finset.sum_congr rfl fun l hl => by rw [Function.update_of_ne (Finset.ne_of_mem_erase hl)]
  rw [this]
  ring

theorem ind_eq_zero_or_one (A : Set S) (s : S) : (A.indicator 1 s : ℝ) = 0 ∨ (A.indicator 1 s : ℝ) = 1 := by
  by_cases h : s ∈ A
  · exact Or.inr (Set.indicator_of_mem h _)
  · exact Or.inl (Set.indicator_of_notMem h _)

/-- Sums of increasing functions of the counts that grow by at most `d` have bounded differences. -/
theorem diff_mono (h : Cells C) {n : ℕ} {g : Fin k → ℝ → ℝ} {d : ℝ} (hd : 0 ≤ d) (hmono : ∀ i, Monotone (g i))
    (hstep : ∀ i c, 0 ≤ c → g i (c + 1) ≤ g i c + d) (x : Fin n → S) (j : Fin n) (a : S) :
    (∑ i, g i (cnt C (Function.update x j a) i)) - ∑ i, g i (cnt C x i) ≤ d := by
  rw [← Finset.sum_sub_distrib]
  calc ∑ i, (g i (cnt C (Function.update x j a) i) - g i (cnt C x i)) ≤ ∑ i, d * (C i).indicator 1 a := by
        refine Finset.sum_le_sum fun i _ => ?_
        have h1 : cnt C (Function.update x j a) i ≤ cnt C x i + (C i).indicator 1 a := by
          rw [cnt_update]; linarith [ind_nonneg (C i) (x j)]
        have h2 := hmono i h1
        rcases ind_eq_zero_or_one (C i) a with e | e
        · rw [e, add_zero] at h2; rw [e]; linarith
        · rw [e] at h2; rw [e]; linarith [hstep i _ (cnt_nonneg (C := C) x i)]
    _ = d * ∑ i, (C i).indicator 1 a := (Finset.mul_sum _ _ _).symm
    _ ≤ d := mul_le_of_le_one_right hd (sum_ind_le h a)

theorem diff_anti (h : Cells C) {n : ℕ} {g : Fin k → ℝ → ℝ} {d : ℝ} (hd : 0 ≤ d) (hmono : ∀ i, Antitone (g i))
    (hstep : ∀ i c, g i c ≤ g i (c + 1) + d) (x : Fin n → S) (j : Fin n) (a : S) :
    (∑ i, g i (cnt C (Function.update x j a) i)) - ∑ i, g i (cnt C x i) ≤ d := by
  rw [← Finset.sum_sub_distrib]
  calc ∑ i, (g i (cnt C (Function.update x j a) i) - g i (cnt C x i)) ≤ ∑ i, d * (C i).indicator 1 (x j) := by
        refine Finset.sum_le_sum fun i _ => ?_
        have h1 : cnt C x i - (C i).indicator 1 (x j) ≤ cnt C (Function.update x j a) i := by
          rw [cnt_update]; linarith [ind_nonneg (C i) a]
        have h2 := hmono i h1
        rcases ind_eq_zero_or_one (C i) (x j) with e | e
        · rw [e, sub_zero] at h2; rw [e]; linarith
        · rw [e] at h2; rw [e]
          have := hstep i (cnt C x i - 1)
          rw [sub_add_cancel] at this
          linarith
    _ = d * ∑ i, (C i).indicator 1 (x j) := (Finset.mul_sum _ _ _).symm
    _ ≤ d := mul_le_of_le_one_right hd (sum_ind_le h _)

/-! ### Moments of the counts -/

section Moments

variable (P : Measure S) [IsProbabilityMeasure P] (n : ℕ)

local notation "ℙ" => Measure.pi fun _ : Fin n => P

theorem integrable_cnt (h : Cells C) (i : Fin k) : Integrable (fun x => cnt C x i) (Measure.pi fun _ : Fin n => P) :=
  integrable_bdd (measurable_cnt h i) (B := n) fun x => by rw [abs_of_nonneg (cnt_nonneg x i)]; exact cnt_le x i

theorem integral_ind {A : Set S} (hA : MeasurableSet A) (j : Fin n) :
    ∫ x, A.indicator (1 : S → ℝ) (x j) ∂(Measure.pi fun _ : Fin n => P) = P.real A := by
  rw [integral_comp_eval (μ := fun _ : Fin n => P) (i := j) (measurable_one.indicator hA).aestronglyMeasurable]
  exact integral_indicator_one hA

theorem integral_cnt (h : Cells C) (i : Fin k) : ∫ x, cnt C x i ∂(Measure.pi fun _ : Fin n => P) = n * P.real (C i) := by
  unfold cnt
  rw [integral_finsetSum]
  · simp_rw [integral_ind P n (h.measurable i)]
    simp
  · intro j _
    exact integrable_bdd ((measurable_one.indicator (h.measurable i)).comp (measurable_pi_apply j)) (B := 1)
      fun x => by rw [abs_of_nonneg (ind_nonneg _ _)]; exact ind_le_one _ _

theorem integral_cnt_sub_sq (h : Cells C) (i : Fin k) :
    ∫ x, (cnt C x i - n * P.real (C i)) ^ 2 ∂(Measure.pi fun _ : Fin n => P) ≤ n * P.real (C i) := by
  have hm : Measurable ((C i).indicator (1 : S → ℝ)) := measurable_one.indicator (h.measurable i)
  have hl : MemLp ((C i).indicator (1 : S → ℝ)) 2 P :=
    MemLp.of_bound hm.aestronglyMeasurable 1 (Filter.Eventually.of_forall fun s => by
      rw [Real.norm_eq_abs, abs_of_nonneg (ind_nonneg _ _)]; exact ind_le_one _ _)
  have hv := variance_sum_pi (μ := fun _ : Fin n => P) (X := fun _ => (C i).indicator (1 : S → ℝ)) fun _ => hl
  have e : (∑ j : Fin n, fun ω : Fin n → S => (C i).indicator (1 : S → ℝ) (ω j)) = fun x => cnt C x i := by
    funext x; rw [Finset.sum_apply]; rfl
  rw [e, variance_eq_integral (measurable_cnt h i).aemeasurable, integral_cnt P n h i] at hv
  rw [hv]
  have h1 : Var[(C i).indicator (1 : S → ℝ); P] ≤ P.real (C i) := by
    refine (variance_le_expectation_sq hm.aestronglyMeasurable).trans (le_of_eq ?_)
    have e2 : ((C i).indicator (1 : S → ℝ)) ^ 2 = (C i).indicator (1 : S → ℝ) := by
      funext s
      rw [Pi.pow_apply]
      rcases ind_eq_zero_or_one (C i) s with e | e <;> rw [e] <;> norm_num
    rw [e2]
    exact integral_indicator_one (h.measurable i)
  calc ∑ _ : Fin n, Var[(C i).indicator (1 : S → ℝ); P] ≤ ∑ _ : Fin n, P.real (C i) := Finset.sum_le_sum fun _ _ => h1
    _ = n * P.real (C i) := by simp

theorem integrable_sq (h : Cells C) (i : Fin k) (m : ℝ) :
    Integrable (fun x => (cnt C x i - m) ^ 2) (Measure.pi fun _ : Fin n => P) := by
  refine integrable_bdd (B := (n + |m|) ^ 2) (((measurable_cnt h i).sub_const m).pow_const 2) fun x => ?_
  rw [abs_of_nonneg (sq_nonneg _)]
  refine sq_le_sq' ?_ ?_
  · linarith [cnt_nonneg (C := C) x i, le_abs_self m, (Nat.cast_nonneg n : (0 : ℝ) ≤ n)]
  · linarith [cnt_le (C := C) x i, neg_abs_le m]

/-- The positive part of a deviation of a count is at most the square root of the mean. -/
theorem integral_dev_le (h : Cells C) (i : Fin k) {g : ℝ → ℝ} (hg : ∀ c, g c ≤ |c - n * P.real (C i)|)
    (hi : Integrable (fun x => g (cnt C x i)) (Measure.pi fun _ : Fin n => P)) :
    ∫ x, g (cnt C x i) ∂(Measure.pi fun _ : Fin n => P) ≤ √(n * P.real (C i)) := by
  set μ := n * P.real (C i) with hμ
  have hμ0 : 0 ≤ μ := mul_nonneg (Nat.cast_nonneg n) measureReal_nonneg
  rcases hμ0.eq_or_lt with h0 | hpos
  · have hsq : ∫ x, (cnt C x i - μ) ^ 2 ∂(Measure.pi fun _ : Fin n => P) ≤ 0 := by
      exact (integral_cnt_sub_sq P n h i).trans h0.ge
    have hz : ∫ x, (cnt C x i - μ) ^ 2 ∂(Measure.pi fun _ : Fin n => P) = 0 :=
      le_antisymm hsq (integral_nonneg fun _ => sq_nonneg _)
    rw [integral_eq_zero_iff_of_nonneg (fun _ => sq_nonneg _) (integrable_sq P n h i μ)] at hz
    rw [← h0, Real.sqrt_zero]
    refine integral_nonpos_of_ae ?_
    filter_upwards [hz] with x hx
    have hx' : (cnt C x i - μ) ^ 2 = 0 := hx
    have := hg (cnt C x i)
    rw [pow_eq_zero_iff two_ne_zero] at hx'
    rw [hx', abs_zero] at this
    exact this
  · have hs : 0 < √μ := Real.sqrt_pos.2 hpos
    calc ∫ x, g (cnt C x i) ∂(Measure.pi fun _ : Fin n => P)
        ≤ ∫ x, ((cnt C x i - μ) ^ 2 / √μ + √μ) / 2 ∂(Measure.pi fun _ : Fin n => P) := by
          refine integral_mono hi ((((integrable_sq P n h i μ).div_const _).add (integrable_const _)).div_const _) fun x => ?_
          refine (hg _).trans ?_
          have h1 : 0 ≤ (|cnt C x i - μ| - √μ) ^ 2 := sq_nonneg _
          have h2 : |cnt C x i - μ| ^ 2 = (cnt C x i - μ) ^ 2 := sq_abs _
          have h3 : √μ ^ 2 = μ := Real.sq_sqrt hμ0
          show |cnt C x i - μ| ≤ ((cnt C x i - μ) ^ 2 / √μ + √μ) / 2
          rw [le_div_iff₀ two_pos, ← sub_nonneg]
          have e : (cnt C x i - μ) ^ 2 / √μ + √μ - |cnt C x i - μ| * 2 = (|cnt C x i - μ| - √μ) ^ 2 / √μ := by
            field_simp
            rw [← h2]; ring
          rw [e]
          positivity
      _ = ((∫ x, (cnt C x i - μ) ^ 2 ∂(Measure.pi fun _ : Fin n => P)) / √μ + √μ) / 2 := by
          rw [integral_div, integral_add ((integrable_sq P n h i μ).div_const _) (integrable_const _), integral_div]
          simp
      _ ≤ (μ / √μ + √μ) / 2 := by
          have := integral_cnt_sub_sq P n h i
          rw [← hμ] at this
          gcongr
      _ = √μ := by rw [Real.div_sqrt]; ring

theorem sqrt_ge {a c : ℝ} (ha : 0 < a) (hc : 0 ≤ c) : 3 / 2 * c / √a - c ^ 2 / (2 * a * √a) ≤ √c := by
  set s := √a with hs
  have hs0 : 0 < s := Real.sqrt_pos.2 ha
  have e1 : a = s ^ 2 := (Real.sq_sqrt ha.le).symm
  set y := √c with hy
  have hy0 : 0 ≤ y := Real.sqrt_nonneg _
  have e2 : c = y ^ 2 := (Real.sq_sqrt hc).symm
  rw [e1, e2, ← sub_nonneg]
  have : y - (3 / 2 * y ^ 2 / s - (y ^ 2) ^ 2 / (2 * s ^ 2 * s)) = y * ((y - s) ^ 2 * (y + 2 * s)) / (2 * s ^ 3) := by
    field_simp
    ring
  rw [this]
  positivity

theorem integrable_sqrt (h : Cells C) (i : Fin k) : Integrable (fun x => √(cnt C x i)) (Measure.pi fun _ : Fin n => P) :=
  integrable_bdd (measurable_cnt h i).sqrt (B := √n) fun x => by
    rw [abs_of_nonneg (Real.sqrt_nonneg _)]; exact Real.sqrt_le_sqrt (cnt_le x i)

theorem integral_sqrt_ge (h : Cells C) (i : Fin k) :
    n * P.real (C i) / √(1 + n * P.real (C i)) ≤ ∫ x, √(cnt C x i) ∂(Measure.pi fun _ : Fin n => P) := by
  set μ := n * P.real (C i) with hμ
  have hμ0 : 0 ≤ μ := mul_nonneg (Nat.cast_nonneg n) measureReal_nonneg
  have ha : 0 < 1 + μ := by linarith
  have hs : 0 < √(1 + μ) := Real.sqrt_pos.2 ha
  have hic := integrable_cnt P n h i
  have hisq : Integrable (fun x => cnt C x i ^ 2) (Measure.pi fun _ : Fin n => P) := by
    simpa using integrable_sq P n h i 0
  have hsq : ∫ x, cnt C x i ^ 2 ∂(Measure.pi fun _ : Fin n => P) ≤ μ + μ ^ 2 := by
    have h1 := integral_cnt_sub_sq P n h i
    rw [← hμ] at h1
    have e : ∀ x : Fin n → S, cnt C x i ^ 2 = (cnt C x i - μ) ^ 2 + (2 * μ * cnt C x i - μ ^ 2) := fun x => by ring
    simp_rw [e]
    have hi2 : Integrable (fun x => 2 * μ * cnt C x i - μ ^ 2) (Measure.pi fun _ : Fin n => P) :=
      (hic.const_mul _).sub (integrable_const _)
    rw [integral_add (integrable_sq P n h i μ) hi2,
      integral_sub (hic.const_mul _) (integrable_const _), integral_const_mul, integral_cnt P n h i, ← hμ]
    simp
    nlinarith
  calc μ / √(1 + μ) ≤ 3 / 2 * μ / √(1 + μ) - (∫ x, cnt C x i ^ 2 ∂(Measure.pi fun _ : Fin n => P)) / (2 * (1 + μ) * √(1 + μ)) := by
        have : (∫ x, cnt C x i ^ 2 ∂(Measure.pi fun _ : Fin n => P)) / (2 * (1 + μ) * √(1 + μ)) ≤ (μ + μ ^ 2) / (2 * (1 + μ) * √(1 + μ)) := by
          gcongr
        have e : 3 / 2 * μ / √(1 + μ) - (μ + μ ^ 2) / (2 * (1 + μ) * √(1 + μ)) = μ / √(1 + μ) := by
          field_simp
          ring
        linarith
    _ = ∫ x, (3 / 2 * cnt C x i / √(1 + μ) - cnt C x i ^ 2 / (2 * (1 + μ) * √(1 + μ))) ∂(Measure.pi fun _ : Fin n => P) := by
        rw [integral_sub ((hic.const_mul _).div_const _) (hisq.div_const _), integral_div, integral_div, integral_const_mul,
          integral_cnt P n h i, ← hμ]
    _ ≤ _ := integral_mono (((hic.const_mul _).div_const _).sub (hisq.div_const _)) (integrable_sqrt P n h i)
        fun x => sqrt_ge ha (cnt_nonneg x i)

/-- The expected one-sided deviation of a count is at most twice the expected square root of the count. -/
theorem integral_dev_le_sqrt (h : Cells C) (i : Fin k) {g : ℝ → ℝ} (hg : ∀ c, g c ≤ |c - n * P.real (C i)|)
    (hi : Integrable (fun x => g (cnt C x i)) (Measure.pi fun _ : Fin n => P))
    (hg2 : ∫ x, g (cnt C x i) ∂(Measure.pi fun _ : Fin n => P) ≤ n * P.real (C i)) :
    ∫ x, g (cnt C x i) ∂(Measure.pi fun _ : Fin n => P) ≤ 2 * ∫ x, √(cnt C x i) ∂(Measure.pi fun _ : Fin n => P) := by
  have h1 := integral_dev_le P n h i hg hi
  have h2 := integral_sqrt_ge P n h i
  set μ := n * P.real (C i) with hμ
  have hμ0 : 0 ≤ μ := mul_nonneg (Nat.cast_nonneg n) measureReal_nonneg
  have hs : 0 < √(1 + μ) := Real.sqrt_pos.2 (by linarith)
  refine le_trans ?_ (mul_le_mul_of_nonneg_left h2 two_pos.le)
  rw [← mul_div_assoc, le_div_iff₀ hs]
  rcases le_total 1 μ with hm | hm
  · calc _ ≤ √μ * √(1 + μ) := mul_le_mul_of_nonneg_right h1 hs.le
      _ = √(μ * (1 + μ)) := (Real.sqrt_mul hμ0 _).symm
      _ ≤ √((2 * μ) ^ 2) := Real.sqrt_le_sqrt (by nlinarith)
      _ = 2 * μ := Real.sqrt_sq (by linarith)
  · calc _ ≤ μ * √(1 + μ) := mul_le_mul_of_nonneg_right hg2 hs.le
      _ ≤ μ * 2 := by
        refine mul_le_mul_of_nonneg_left ?_ hμ0
        rw [Real.sqrt_le_left two_pos.le]
        linarith
      _ = 2 * μ := mul_comm _ _

/-- The total deviation upwards and downwards of the empirical frequencies. -/
noncomputable def devUp (C : Fin k → Set S) (x : Fin n → S) : ℝ := ∑ i, max (cnt C x i / n - P.real (C i)) 0

noncomputable def devDown (C : Fin k → Set S) (x : Fin n → S) : ℝ := ∑ i, max (P.real (C i) - cnt C x i / n) 0

noncomputable def rootSum (C : Fin k → Set S) (x : Fin n → S) : ℝ := ∑ i, √(cnt C x i) / n

variable {n}

theorem subG_of {g : Fin k → ℝ → ℝ} (h : Cells C) (hn : 0 < n) (hm : ∀ i, Measurable (g i)) (hB : ∀ i, ∃ B, ∀ c : ℝ, 0 ≤ c → c ≤ n → |g i c| ≤ B)
    (hd : ∀ (x : Fin n → S) j a, (∑ i, g i (cnt C (Function.update x j a) i)) - ∑ i, g i (cnt C x i) ≤ 1 / n) :
    SubG (Measure.pi fun _ : Fin n => P) (fun x => ∑ i, g i (cnt C x i)) (1 / (4 * n)) := by
  choose B hB using hB
  have := SubG.pi P n (fun x => ∑ i, g i (cnt C x i)) (c := 1 / n)
    (Finset.measurable_fun_sum _ fun i _ => (hm i).comp (measurable_cnt h i))
    ⟨∑ i, B i, fun x => (Finset.abs_sum_le_sum_abs _ _).trans (Finset.sum_le_sum fun i _ => hB i _ (cnt_nonneg x i) (cnt_le x i))⟩ hd
  have hn' : (n : ℝ) ≠ 0 := by exact_mod_cast hn.ne'
  have e : (n : ℝ) * ((1 / n) ^ 2 / 4) = 1 / (4 * n) := by field_simp
  rwa [e] at this

theorem bdd_of {n : ℕ} {g : ℝ → ℝ} {a b : ℝ} (h : ∀ c : ℝ, 0 ≤ c → c ≤ n → a ≤ g c ∧ g c ≤ b) : ∃ B, ∀ c : ℝ, 0 ≤ c → c ≤ n → |g c| ≤ B := by
  refine ⟨|a| + |b|, fun c h0 h1 => ?_⟩
  obtain ⟨ha, hb⟩ := h c h0 h1
  rw [abs_le]
  constructor
  · linarith [neg_abs_le a, abs_nonneg b]
  · linarith [le_abs_self b, abs_nonneg a]

theorem subG_devUp (h : Cells C) (hn : 0 < n) : SubG (Measure.pi fun _ : Fin n => P) (devUp P n C) (1 / (4 * n)) := by
  have hn' : (0 : ℝ) < n := by exact_mod_cast hn
  refine subG_of P (g := fun i c => max (c / n - P.real (C i)) 0) h hn (fun i => by fun_prop) (fun i => ?_) fun x j a => ?_
  · refine bdd_of (a := 0) (b := 1) fun c h0 h1 => ⟨le_max_right _ _, max_le ?_ zero_le_one⟩
    have : c / n ≤ 1 := (div_le_one hn').2 h1
    linarith [measureReal_nonneg (μ := P) (s := C i)]
  · refine diff_mono (g := fun i c => max (c / n - P.real (C i)) 0) (d := 1 / n) h (by positivity) (fun i a b hab => ?_) (fun i c _ => ?_) x j a
    · exact max_le_max (sub_le_sub_right (div_le_div_of_nonneg_right hab hn'.le) _) le_rfl
    · rw [add_div]
      refine max_le ?_ (by positivity)
      linarith [le_max_left (c / n - P.real (C i)) 0]

theorem subG_devDown (h : Cells C) (hn : 0 < n) : SubG (Measure.pi fun _ : Fin n => P) (devDown P n C) (1 / (4 * n)) := by
  have hn' : (0 : ℝ) < n := by exact_mod_cast hn
  refine subG_of P (g := fun i c => max (P.real (C i) - c / n) 0) h hn (fun i => by fun_prop) (fun i => ?_) fun x j a => ?_
  · refine bdd_of (a := 0) (b := 1) fun c h0 h1 => ⟨le_max_right _ _, max_le ?_ zero_le_one⟩
    have : 0 ≤ c / n := by positivity
    linarith [measureReal_le_one (μ := P) (s := C i)]
  · refine diff_anti (g := fun i c => max (P.real (C i) - c / n) 0) (d := 1 / n) h (by positivity) (fun i a b hab => ?_) (fun i c => ?_) x j a
    · exact max_le_max (sub_le_sub_left (div_le_div_of_nonneg_right hab hn'.le) _) le_rfl
    · rw [add_div]
      refine max_le ?_ (by positivity)
      linarith [le_max_left (P.real (C i) - (c / n + 1 / n)) 0]

theorem subG_rootSum (h : Cells C) (hn : 0 < n) : SubG (Measure.pi fun _ : Fin n => P) (rootSum n C) (1 / (4 * n)) := by
  have hn' : (0 : ℝ) < n := by exact_mod_cast hn
  refine subG_of P (g := fun i c => √c / n) h hn (fun i => by fun_prop) (fun i => ?_) fun x j a => ?_
  · refine bdd_of (a := 0) (b := √n / n) fun c h0 h1 => ⟨by positivity, ?_⟩
    gcongr
  · refine diff_mono (g := fun i c => √c / n) (d := 1 / n) h (by positivity) (fun i a b hab => ?_) (fun i c hc => ?_) x j a
    · exact div_le_div_of_nonneg_right (Real.sqrt_le_sqrt hab) hn'.le
    · rw [← add_div]
      gcongr
      rw [Real.sqrt_le_left (by positivity)]
      nlinarith [Real.sq_sqrt hc, Real.sqrt_nonneg c]

theorem integrable_g (h : Cells C) (i : Fin k) {g : ℝ → ℝ} (hm : Measurable g) (hB : ∃ B, ∀ c : ℝ, 0 ≤ c → c ≤ n → |g c| ≤ B) :
    Integrable (fun x => g (cnt C x i)) (Measure.pi fun _ : Fin n => P) := by
  obtain ⟨B, hB⟩ := hB
  exact integrable_bdd (hm.comp (measurable_cnt h i)) fun x => hB _ (cnt_nonneg x i) (cnt_le x i)

/-- Facts about one cell, for either sign. -/
theorem one_cell (h : Cells C) (hn : 0 < n) (i : Fin k) {g : ℝ → ℝ}
    (hg : g = (fun c => max (c / n - P.real (C i)) 0) ∨ g = fun c => max (P.real (C i) - c / n) 0) :
    Integrable (fun x => g (cnt C x i)) (Measure.pi fun _ : Fin n => P) ∧
    (∫ x, g (cnt C x i) ∂(Measure.pi fun _ : Fin n => P) ≤ 2 * ∫ x, √(cnt C x i) / n ∂(Measure.pi fun _ : Fin n => P)) ∧
    ∫ x, g (cnt C x i) ∂(Measure.pi fun _ : Fin n => P) ≤ √(P.real (C i)) / √n := by
  have hn' : (0 : ℝ) < n := by exact_mod_cast hn
  have hp0 := measureReal_nonneg (μ := P) (s := C i)
  have hp1 := measureReal_le_one (μ := P) (s := C i)
  have hmeas : Measurable g := by rcases hg with rfl | rfl <;> fun_prop
  have hbd : ∃ B, ∀ c : ℝ, 0 ≤ c → c ≤ n → |g c| ≤ B := by
    refine bdd_of (a := 0) (b := 1) fun c h0 h1 => ?_
    have h2 : c / n ≤ 1 := (div_le_one hn').2 h1
    have h3 : 0 ≤ c / n := by positivity
    rcases hg with rfl | rfl
    · exact ⟨le_max_right _ _, max_le (by linarith) zero_le_one⟩
    · exact ⟨le_max_right _ _, max_le (by linarith) zero_le_one⟩
  have hi := integrable_g P h i hmeas hbd
  have habs : ∀ c, (fun c => n * g c) c ≤ |c - n * P.real (C i)| := by
    intro c
    rcases hg with rfl | rfl
    · simp only
      rw [mul_max_of_nonneg _ _ hn'.le, mul_zero, mul_sub, mul_div_cancel₀ _ hn'.ne']
      exact max_le (le_abs_self _) (abs_nonneg _)
    · simp only
      rw [mul_max_of_nonneg _ _ hn'.le, mul_zero, mul_sub, mul_div_cancel₀ _ hn'.ne', abs_sub_comm]
      exact max_le (le_abs_self _) (abs_nonneg _)
  have hmean : ∫ x, n * g (cnt C x i) ∂(Measure.pi fun _ : Fin n => P) ≤ n * P.real (C i) := by
    rcases hg with rfl | rfl
    · rw [← integral_cnt P n h i]
      refine integral_mono (hi.const_mul _) (integrable_cnt P n h i) fun x => ?_
      have h0 := cnt_nonneg (C := C) x i
      show n * max (cnt C x i / n - P.real (C i)) 0 ≤ cnt C x i
      rw [mul_max_of_nonneg _ _ hn'.le, mul_zero, mul_sub, mul_div_cancel₀ _ hn'.ne']
      exact max_le (by nlinarith) h0
    · have : ∫ _ : Fin n → S, n * P.real (C i) ∂(Measure.pi fun _ : Fin n => P) = n * P.real (C i) := by simp
      rw [← this]
      refine integral_mono (hi.const_mul _) (integrable_const _) fun x => ?_
      have h0 : 0 ≤ cnt C x i / n := div_nonneg (cnt_nonneg (C := C) x i) hn'.le
      show n * max (P.real (C i) - cnt C x i / n) 0 ≤ n * P.real (C i)
      exact mul_le_mul_of_nonneg_left (max_le (by linarith) hp0) hn'.le
  refine ⟨hi, ?_, ?_⟩
  · have h1 := integral_dev_le_sqrt P n h i habs (hi.const_mul _) hmean
    rw [integral_const_mul] at h1
    rw [integral_div, ← mul_div_assoc, le_div_iff₀ hn', mul_comm]
    exact h1
  · have h1 := integral_dev_le P n h i habs (hi.const_mul _)
    rw [integral_const_mul] at h1
    rw [← mul_le_mul_iff_right₀ hn']
    refine h1.trans (le_of_eq ?_)
    rw [Real.sqrt_mul hn'.le]
    have h2 : √(n : ℝ) ≠ 0 := (Real.sqrt_pos.2 hn').ne'
    have h3 := Real.mul_self_sqrt hn'.le
    field_simp
    rw [sq, h3]
    ring

theorem sum_le_one (h : Cells C) : ∑ i, P.real (C i) ≤ 1 := by
  rw [← measureReal_biUnion_finset (fun i _ j _ hij => h.disjoint i j hij) fun i _ => h.measurable i]
  exact measureReal_le_one

theorem sum_sqrt_le (h : Cells C) : ∑ i, √(P.real (C i)) ≤ √k := by
  have h1 := Finset.sum_mul_sq_le_sq_mul_sq Finset.univ (fun _ : Fin k => (1 : ℝ)) fun i => √(P.real (C i))
  simp only [one_mul, one_pow, Finset.sum_const, Finset.card_univ, Fintype.card_fin, nsmul_eq_mul, mul_one] at h1
  have h2 : ∑ i, √(P.real (C i)) ^ 2 = ∑ i, P.real (C i) := Finset.sum_congr rfl fun i _ => Real.sq_sqrt measureReal_nonneg
  rw [h2] at h1
  refine Real.le_sqrt_of_sq_le (h1.trans ?_)
  exact mul_le_of_le_one_right (Nat.cast_nonneg k) (sum_le_one P h)

/-- The deviations in the sum, both ways. -/
theorem dev_tails (h : Cells C) (hn : 0 < n) {D : (Fin n → S) → ℝ} (hD : D = devUp P n C ∨ D = devDown P n C) {t : ℝ} (ht : 0 ≤ t) :
    (Measure.pi fun _ : Fin n => P).real {x | 2 * rootSum n C x + 3 * t ≤ D x} ≤ 2 * exp (-(2 * n * t ^ 2)) ∧
    (Measure.pi fun _ : Fin n => P).real {x | √k / √n + t ≤ D x} ≤ exp (-(2 * n * t ^ 2)) := by
  have hn' : (0 : ℝ) < n := by exact_mod_cast hn
  have hv : (0 : ℝ) ≤ 1 / (4 * n) := by positivity
  have hsub : SubG (Measure.pi fun _ : Fin n => P) D (1 / (4 * n)) := by
    rcases hD with rfl | rfl
    · exact subG_devUp P h hn
    · exact subG_devDown P h hn
  obtain ⟨g, hgD, hg⟩ : ∃ g : Fin k → ℝ → ℝ, (D = fun x => ∑ i, g i (cnt C x i)) ∧ ∀ i,
      (g i = (fun c => max (c / n - P.real (C i)) 0) ∨ g i = fun c => max (P.real (C i) - c / n) 0) := by
    rcases hD with rfl | rfl
    · exact ⟨fun i c => max (c / n - P.real (C i)) 0, rfl, fun i => Or.inl rfl⟩
    · exact ⟨fun i c => max (P.real (C i) - c / n) 0, rfl, fun i => Or.inr rfl⟩
  have hE : ∫ x, D x ∂(Measure.pi fun _ : Fin n => P) = ∑ i, ∫ x, g i (cnt C x i) ∂(Measure.pi fun _ : Fin n => P) := by
    rw [hgD]
    exact integral_finsetSum _ fun i _ => (one_cell P h hn i (hg i)).1
  have hf : ∫ x, rootSum n C x ∂(Measure.pi fun _ : Fin n => P) = ∑ i, ∫ x, √(cnt C x i) / n ∂(Measure.pi fun _ : Fin n => P) := by
    unfold rootSum
    exact integral_finsetSum _ fun i _ => (integrable_sqrt P n h i).div_const _
  have e : -t ^ 2 / (2 * (1 / (4 * (n : ℝ)))) = -(2 * n * t ^ 2) := by field_simp; ring
  have t1 := hsub.tail hv ht
  have t2 := (subG_rootSum P h hn).tail_neg hv ht
  rw [e] at t1 t2
  constructor
  · have hle : ∫ x, D x ∂(Measure.pi fun _ : Fin n => P) ≤ 2 * ∫ x, rootSum n C x ∂(Measure.pi fun _ : Fin n => P) := by
      rw [hE, hf, Finset.mul_sum]
      exact Finset.sum_le_sum fun i _ => (one_cell P h hn i (hg i)).2.1
    have hsubset : {x | 2 * rootSum n C x + 3 * t ≤ D x} ⊆
        {x | ∫ y, D y ∂(Measure.pi fun _ : Fin n => P) + t ≤ D x} ∪
          {x | rootSum n C x ≤ ∫ y, rootSum n C y ∂(Measure.pi fun _ : Fin n => P) - t} := by
      intro x hx
      simp only [Set.mem_ofPred_eq, Set.mem_union] at hx ⊢
      by_contra hcon
      push Not at hcon
      linarith [hcon.1, hcon.2]
    refine (measureReal_mono hsubset).trans ((measureReal_union_le _ _).trans ?_)
    linarith
  · have hle : ∫ x, D x ∂(Measure.pi fun _ : Fin n => P) ≤ √k / √n := by
      rw [hE]
      refine (Finset.sum_le_sum fun i _ => (one_cell P h hn i (hg i)).2.2).trans ?_
      rw [← Finset.sum_div]
      exact div_le_div_of_nonneg_right (sum_sqrt_le P h) (Real.sqrt_nonneg _)
    refine (measureReal_mono fun x hx => ?_).trans t1
    simp only [Set.mem_ofPred_eq] at hx ⊢
    linarith

end Moments

/-! ### The hockey-stick divergence of the histograms -/

theorem sum_pos_le {P Q : Measure S} [IsProbabilityMeasure P] [IsProbabilityMeasure Q] {eps delta : ℝ} (h : Cells C)
    (hi : Spec.Indist P Q eps delta) : ∑ i, max (P.real (C i) - exp eps * Q.real (C i)) 0 ≤ delta := by
  classical
  set A : Finset (Fin k) := Finset.univ.filter fun i => exp eps * Q.real (C i) < P.real (C i) with hA
  have h1 : ∑ i, max (P.real (C i) - exp eps * Q.real (C i)) 0 = ∑ i ∈ A, (P.real (C i) - exp eps * Q.real (C i)) := by
    rw [hA, Finset.sum_filter]
    refine Finset.sum_congr rfl fun i _ => ?_
    split
    · rw [max_eq_left]; linarith
    · rw [max_eq_right]; linarith
  have h2 := hi (⋃ i ∈ A, C i) (Finset.measurableSet_biUnion _ fun i _ => h.measurable i)
  rw [measureReal_biUnion_finset (fun i _ j _ hij => h.disjoint i j hij) fun i _ => h.measurable i,
    measureReal_biUnion_finset (fun i _ j _ hij => h.disjoint i j hij) fun i _ => h.measurable i] at h2
  rw [h1, Finset.sum_sub_distrib, ← Finset.mul_sum]
  linarith

theorem estimate_le {n1 n2 : ℕ} {P Q : Measure S} [IsProbabilityMeasure P] [IsProbabilityMeasure Q] {eps delta : ℝ} (h : Cells C)
    (hi : Spec.Indist P Q eps delta) (x : Fin n1 → S) (y : Fin n2 → S) :
    ∑ i, max (cnt C x i / n1 - exp eps * (cnt C y i / n2)) 0 ≤ delta + devUp P n1 C x + exp eps * devDown Q n2 C y := by
  refine le_trans ?_ (add_le_add (add_le_add (sum_pos_le h hi) le_rfl) le_rfl)
  rw [devUp, devDown, Finset.mul_sum, ← Finset.sum_add_distrib, ← Finset.sum_add_distrib]
  refine Finset.sum_le_sum fun i _ => ?_
  have e0 := exp_pos eps
  refine max_le ?_ ?_
  · have a1 := le_max_left (P.real (C i) - exp eps * Q.real (C i)) 0
    have a2 := le_max_left (cnt C x i / n1 - P.real (C i)) 0
    have a3 := mul_le_mul_of_nonneg_left (le_max_left (Q.real (C i) - cnt C y i / n2) 0) e0.le
    rw [mul_sub] at a3
    linarith
  · have := mul_nonneg e0.le (le_max_right (Q.real (C i) - cnt C y i / n2) 0)
    linarith [le_max_right (P.real (C i) - exp eps * Q.real (C i)) 0, le_max_right (cnt C x i / n1 - P.real (C i)) 0]

end Verif.Histogram
