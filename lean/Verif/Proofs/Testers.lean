import Verif.Model.Testers
import Verif.Spec.Testers
import Verif.Proofs.Histogram

/-!
# The histogram tester
-/

namespace Verif.Testers

open MeasureTheory Real Histogram

/-! ### Lists -/

theorem sum_filter_pos (l : List ℝ) : (l.filter fun d => 0 < d).sum = (l.map fun d => max d 0).sum := by
  induction l with
  | nil => rfl
  | cons a l ih =>
    rw [List.map_cons, List.sum_cons, ← ih, List.filter_cons]
    by_cases h : 0 < a
    · rw [if_pos (by simpa using h), List.sum_cons, max_eq_left h.le]
    · rw [if_neg (by simpa using h), max_eq_right (not_lt.1 h), zero_add]

theorem sum_map_range (k : ℕ) (f : ℕ → ℝ) : ((List.range k).map f).sum = ∑ i : Fin k, f i := by
  rw [← Finset.sum_range]
  rfl

theorem zipWith_map_range (k : ℕ) (f g : ℕ → ℝ) (op : ℝ → ℝ → ℝ) :
    List.zipWith op ((List.range k).map f) ((List.range k).map g) = (List.range k).map fun i => op (f i) (g i) := by
  rw [List.zipWith_map, List.zipWith_self]

open Classical in
theorem countP_ofFn {S : Type} {n : ℕ} (x : Fin n → S) (A : Set S) :
    (((List.ofFn x).countP fun s => s ∈ A : ℕ) : ℝ) = ∑ j, A.indicator 1 (x j) := by
  induction n with
  | zero => simp
  | succ n ih =>
    rw [List.ofFn_succ, List.countP_cons, Fin.sum_univ_succ]
    push_cast
    rw [ih, add_comm]
    congr 1
    by_cases h : x 0 ∈ A <;> simp [h]

theorem sum_countP {S : Type} {k : ℕ} {p : ℕ → S → Prop} [∀ i, DecidablePred (p i)] {l : List S}
    (h : ∀ s ∈ l, ∃ i < k, p i s ∧ ∀ j < k, p j s → j = i) :
    ((List.range k).map fun i => (l.countP fun s => p i s)).sum = l.length := by
  induction l with
  | nil => simp
  | cons a l ih =>
    have e : ∀ i, (List.countP (fun s => decide (p i s)) (a :: l)) = l.countP (fun s => p i s) + if p i a then 1 else 0 := by
      intro i
      rw [List.countP_cons]
      simp
    simp_rw [e]
    rw [List.sum_map_add, ih fun s hs => h s (List.mem_cons_of_mem _ hs), List.length_cons]
    congr 1
    obtain ⟨i, hi, hp, hu⟩ := h a List.mem_cons_self
    have : ((List.range k).map fun i => if p i a then 1 else 0).sum = ∑ i ∈ Finset.range k, if p i a then 1 else 0 := rfl
    rw [this, Finset.sum_eq_single i]
    · rw [if_pos hp]
    · intro j hj hne
      rw [if_neg fun hq => hne (hu j (Finset.mem_range.1 hj) hq)]
    · intro hne
      exact absurd (Finset.mem_range.2 hi) hne

/-! ### The bins of a continuous histogram -/

theorem outerEdges_lt {lo hi : ℝ} (h : lo ≤ hi) : (outerEdges lo hi).1 < (outerEdges lo hi).2 := by
  unfold outerEdges
  split
  · norm_num; linarith
  · rename_i hne
    exact lt_of_le_of_ne h hne

theorem outerEdges_le {lo hi : ℝ} (h : lo ≤ hi) : (outerEdges lo hi).1 ≤ lo ∧ hi ≤ (outerEdges lo hi).2 := by
  unfold outerEdges
  split
  · constructor <;> norm_num
  · exact ⟨le_rfl, le_rfl⟩

theorem clip_mem {lo hi : ℝ} (h : lo ≤ hi) (x : ℝ) : lo ≤ clip lo hi x ∧ clip lo hi x ≤ hi :=
  ⟨le_min (le_max_right _ _) h, min_le_right _ _⟩

theorem edge_mono {lo hi : ℝ} (h : lo ≤ hi) {k : ℕ} (hk : 0 < k) {i j : ℕ} (hij : i < j) : edge lo hi k i < edge lo hi k j := by
  have h1 := outerEdges_lt h
  have hk' : (0 : ℝ) < k := by exact_mod_cast hk
  have hw : 0 < ((outerEdges lo hi).2 - (outerEdges lo hi).1) / k := div_pos (by linarith) hk'
  unfold edge
  have : (i : ℝ) < j := by exact_mod_cast hij
  nlinarith

theorem inBin_unique {lo hi : ℝ} (h : lo ≤ hi) {k : ℕ} (hk : 0 < k) {i j : ℕ} (hi' : i < k) (hj : j < k) {x : ℝ} (h1 : inBin lo hi k i x)
    (h2 : inBin lo hi k j x) : i = j := by
  have key : ∀ {i j : ℕ}, j < k → inBin lo hi k i x → inBin lo hi k j x → ¬ i < j := by
    intro i j hj h1 h2 hij
    have h3 : edge lo hi k (i + 1) ≤ edge lo hi k j := by
      rcases (Nat.succ_le_of_lt hij).eq_or_lt with e | e
      · rw [Nat.succ_eq_add_one] at e; rw [e]
      · exact (edge_mono h hk e).le
    rcases h1.2 with h4 | ⟨h4, -⟩
    · linarith [h2.1]
    · omega
  exact le_antisymm (not_lt.1 (key hi' h2 h1)) (not_lt.1 (key hj h1 h2))

theorem inBin_exists {lo hi : ℝ} (h : lo ≤ hi) {k : ℕ} (hk : 0 < k) {x : ℝ} (h1 : lo ≤ x) (h2 : x ≤ hi) : ∃ i < k, inBin lo hi k i x := by
  have h3 := outerEdges_lt h
  have h4 := outerEdges_le h
  have hk' : (0 : ℝ) < k := by exact_mod_cast hk
  set a := (outerEdges lo hi).1
  set b := (outerEdges lo hi).2
  set w := (b - a) / k with hw
  have hw0 : 0 < w := div_pos (by linarith) hk'
  have hkw : k * w = b - a := by rw [hw]; field_simp
  have hy0 : 0 ≤ (x - a) / w := div_nonneg (by linarith [h4.1]) hw0.le
  have hfl := Nat.floor_le hy0
  have hlt := Nat.lt_floor_add_one ((x - a) / w)
  rw [le_div_iff₀ hw0] at hfl
  rw [div_lt_iff₀ hw0] at hlt
  by_cases hc : ⌊(x - a) / w⌋₊ < k
  · refine ⟨_, hc, ?_, Or.inl ?_⟩
    · show a + (⌊(x - a) / w⌋₊ : ℝ) * w ≤ x
      linarith
    · show x < a + ((⌊(x - a) / w⌋₊ + 1 : ℕ) : ℝ) * w
      push_cast
      linarith
  · have hge : (k : ℝ) ≤ ⌊(x - a) / w⌋₊ := by exact_mod_cast not_lt.1 hc
    have hx : x = b := by
      have : k * w ≤ ⌊(x - a) / w⌋₊ * w := mul_le_mul_of_nonneg_right hge hw0.le
      linarith [h4.2]
    refine ⟨k - 1, by omega, ?_, Or.inr ⟨by omega, ?_⟩⟩
    · show a + ((k - 1 : ℕ) : ℝ) * w ≤ x
      rw [Nat.cast_sub hk]
      push_cast
      linarith
    · show x = a + ((k - 1 + 1 : ℕ) : ℝ) * w
      rw [Nat.sub_add_cancel hk, hkw, hx]
      ring

theorem measurableSet_bin (lo hi : ℝ) (k j : ℕ) : MeasurableSet {x : ℝ | inBin lo hi k j (clip lo hi x)} := by
  have hm : Measurable (clip lo hi) := by unfold clip; fun_prop
  unfold inBin
  refine MeasurableSet.inter (measurableSet_le measurable_const hm) (MeasurableSet.union (measurableSet_lt hm measurable_const) ?_)
  exact MeasurableSet.inter (MeasurableSet.const _) (measurableSet_eq_fun hm measurable_const)

/-! ### Soundness of the tester -/

open Classical in
/-- What the soundness proof needs to know of the estimation of a distribution. -/
def Estimates {S : Type} (t : HistogramTester S) (k : ℕ) (C : Fin k → Set S) : Prop :=
  ∀ l p, t.estimate l = .ok p → l ≠ [] ∧ (t.histogramSize : ℝ) = k ∧
    p = (List.range k).map fun i => if h : i < k then ((l.countP fun s => s ∈ C ⟨i, h⟩ : ℕ) : ℝ) / l.length else 0

theorem real_prod_fst {X Y : Type*} [MeasurableSpace X] [MeasurableSpace Y] {μ : Measure X} {ν : Measure Y} [IsProbabilityMeasure μ]
    [IsProbabilityMeasure ν] (A : Set X) : (μ.prod ν).real {z | z.1 ∈ A} = μ.real A := by
  have : {z : X × Y | z.1 ∈ A} = A ×ˢ Set.univ := by ext z; simp
  rw [this, measureReal_prod_prod]
  simp

theorem real_prod_snd {X Y : Type*} [MeasurableSpace X] [MeasurableSpace Y] {μ : Measure X} {ν : Measure Y} [IsProbabilityMeasure μ]
    [IsProbabilityMeasure ν] (A : Set Y) : (μ.prod ν).real {z | z.2 ∈ A} = ν.real A := by
  have : {z : X × Y | z.2 ∈ A} = Set.univ ×ˢ A := by ext z; simp
  rw [this, measureReal_prod_prod]
  simp

theorem tolerance_sqrt {c m n : ℝ} (hc : 0 ≤ c) (hn : 0 < n) (hm : n ≤ m) : √c / m ≤ 1 / √n * √(c / m) := by
  have hm0 : 0 < m := hn.trans_le hm
  rw [Real.sqrt_div hc, one_div_mul_eq_div, div_div]
  refine div_le_div_of_nonneg_left (Real.sqrt_nonneg _) (by positivity) ?_
  calc √m * √n ≤ √m * √m := mul_le_mul_of_nonneg_left (Real.sqrt_le_sqrt hm) (Real.sqrt_nonneg _)
    _ = m := Real.mul_self_sqrt hm0.le

theorem sound {S : Type} [MeasurableSpace S] (t : HistogramTester S) {k : ℕ} {C : Fin k → Set S} (hC : Cells C) (ht : Estimates t k C)
    {P Q : Measure S} [IsProbabilityMeasure P] [IsProbabilityMeasure Q] {delta : ℝ} (hi : Spec.Indist P Q t.epsilon delta) (n1 n2 : ℕ)
    {fp : ℝ} (hf0 : 0 < fp) (hf1 : fp ≤ 1) :
    (Spec.independentSamples P Q n1 n2).real
      {z | ∃ b, t.estimateLowerBound (List.ofFn z.1) (List.ofFn z.2) fp = .ok b ∧ delta ≤ b} ≤ fp := by
  classical
  unfold Spec.independentSamples
  by_cases hn : n1 = 0 ∨ n2 = 0
  · have : {z : (Fin n1 → S) × (Fin n2 → S) | ∃ b, t.estimateLowerBound (List.ofFn z.1) (List.ofFn z.2) fp = .ok b ∧ delta ≤ b} = ∅ := by
      rw [Set.eq_empty_iff_forall_notMem]
      rintro ⟨x, y⟩ ⟨b, hb, -⟩
      unfold HistogramTester.estimateLowerBound at hb
      simp only at hb
      split at hb
      · cases hb
      · rename_i p1 h1
        split at hb
        · cases hb
        · rename_i p2 h2
          rcases hn with rfl | rfl
          · exact (ht _ _ h1).1 rfl
          · exact (ht _ _ h2).1 rfl
    rw [this]
    simpa using hf0.le
  push Not at hn
  have hn1 : 0 < n1 := Nat.pos_of_ne_zero hn.1
  have hn2 : 0 < n2 := Nat.pos_of_ne_zero hn.2
  set n := min n1 n2 with hndef
  have hn0 : 0 < n := lt_min hn1 hn2
  have hnr : (0 : ℝ) < n := by exact_mod_cast hn0
  have hle1 : (n : ℝ) ≤ n1 := by exact_mod_cast min_le_left n1 n2
  have hle2 : (n : ℝ) ≤ n2 := by exact_mod_cast min_le_right n1 n2
  set s := √(log (4 / fp) / (2 * n)) with hs
  have hs0 : 0 ≤ s := Real.sqrt_nonneg _
  have hlog : 0 ≤ log (4 / fp) := log_nonneg (by rw [le_div_iff₀ hf0]; linarith)
  have hs2 : s ^ 2 = log (4 / fp) / (2 * n) := Real.sq_sqrt (by positivity)
  have hexp : ∀ m : ℕ, (n : ℝ) ≤ m → exp (-(2 * m * s ^ 2)) ≤ fp / 4 := by
    intro m hm
    calc exp (-(2 * m * s ^ 2)) ≤ exp (-(2 * n * s ^ 2)) := by
          refine exp_le_exp.2 ?_
          nlinarith [sq_nonneg s]
      _ = exp (-log (4 / fp)) := by rw [hs2]; congr 2; field_simp
      _ = fp / 4 := by rw [exp_neg, exp_log (by positivity), inv_div]
  set u := exp t.epsilon with hu
  have hu0 : 0 < u := exp_pos _
  -- the values computed
  have hval : ∀ (x : Fin n1 → S) (y : Fin n2 → S) b, t.estimateLowerBound (List.ofFn x) (List.ofFn y) fp = .ok b →
      (t.histogramSize : ℝ) = k ∧
      b = (∑ i, max (cnt C x i / n1 - u * (cnt C y i / n2)) 0) -
        ((if t.useOriginal then 2 * (1 + u) * √(k / n)
          else 2 / √n * (∑ i, √(cnt C x i / n1)) + 2 * u / √n * ∑ i, √(cnt C y i / n2)) + 6 * (1 + u) * s) := by
    intro x y b hb
    unfold HistogramTester.estimateLowerBound at hb
    simp only at hb
    split at hb
    · cases hb
    rename_i p1 h1
    split at hb
    · cases hb
    rename_i p2 h2
    rw [if_neg hf0.ne'] at hb
    have hb := (Except.ok.inj hb).symm
    obtain ⟨-, hk, e1⟩ := ht _ _ h1
    obtain ⟨-, -, e2⟩ := ht _ _ h2
    have f1 : ∀ i : Fin k, (if h : (i : ℕ) < k then (((List.ofFn x).countP fun s => s ∈ C ⟨i, h⟩ : ℕ) : ℝ) / n1 else 0) =
        cnt C x i / n1 := by
      intro i
      rw [dif_pos i.2, countP_ofFn]
      rfl
    have f2 : ∀ i : Fin k, (if h : (i : ℕ) < k then (((List.ofFn y).countP fun s => s ∈ C ⟨i, h⟩ : ℕ) : ℝ) / n2 else 0) =
        cnt C y i / n2 := by
      intro i
      rw [dif_pos i.2, countP_ofFn]
      rfl
    simp only [List.length_ofFn] at e1 e2
    refine ⟨hk, ?_⟩
    rw [hb, sum_filter_pos, e1, e2, zipWith_map_range, List.map_map, sum_map_range]
    unfold HistogramTester.errorTolerance
    simp only [List.map_map, sum_map_range, Function.comp, f1, f2, List.length_ofFn, hk]
    rfl
  have hsqrt : ∀ (m : ℕ), (n : ℝ) ≤ m → √k / √m ≤ √(k / n) := by
    intro m hm
    rw [Real.sqrt_div (Nat.cast_nonneg k)]
    exact div_le_div_of_nonneg_left (Real.sqrt_nonneg _) (Real.sqrt_pos.2 hnr) (Real.sqrt_le_sqrt hm)
  have hroot : ∀ {m : ℕ} (x : Fin m → S), (n : ℝ) ≤ m → rootSum m C x ≤ 1 / √n * ∑ i, √(cnt C x i / m) := by
    intro m x hm
    rw [Finset.mul_sum]
    exact Finset.sum_le_sum fun i _ => tolerance_sqrt (cnt_nonneg x i) hnr hm
  obtain ⟨A, B, hA, hB, hsub⟩ : ∃ (A : Set (Fin n1 → S)) (B : Set (Fin n2 → S)), (Measure.pi fun _ : Fin n1 => P).real A ≤ fp / 2 ∧
      (Measure.pi fun _ : Fin n2 => Q).real B ≤ fp / 2 ∧
      {z : (Fin n1 → S) × (Fin n2 → S) | ∃ b, t.estimateLowerBound (List.ofFn z.1) (List.ofFn z.2) fp = .ok b ∧ delta ≤ b} ⊆
        {z | z.1 ∈ A} ∪ {z | z.2 ∈ B} := by
    by_cases ho : t.useOriginal = true
    · refine ⟨{x | √k / √n1 + s ≤ devUp P n1 C x}, {y | √k / √n2 + s ≤ devDown Q n2 C y}, ?_, ?_, ?_⟩
      · exact ((dev_tails P hC hn1 (Or.inl rfl) hs0).2.trans (hexp n1 hle1)).trans (by linarith)
      · exact ((dev_tails Q hC hn2 (Or.inr rfl) hs0).2.trans (hexp n2 hle2)).trans (by linarith)
      · rintro ⟨x, y⟩ ⟨b, hb, hd⟩
        by_contra hcon
        simp only [Set.mem_union, Set.mem_ofPred_eq, not_or, not_le] at hcon
        obtain ⟨h1, h2⟩ := hcon
        obtain ⟨-, hbe⟩ := hval x y b hb
        rw [if_pos ho] at hbe
        have h3 := estimate_le hC hi x y
        have h4 := hsqrt n1 hle1
        have h5 := hsqrt n2 hle2
        have h6 : u * devDown Q n2 C y < u * (√(k / n) + s) := mul_lt_mul_of_pos_left (by linarith) hu0
        have h7 : 0 ≤ √((k : ℝ) / n) := Real.sqrt_nonneg _
        rw [← hu] at h3
        nlinarith
    · refine ⟨{x | 2 * rootSum n1 C x + 3 * s ≤ devUp P n1 C x}, {y | 2 * rootSum n2 C y + 3 * s ≤ devDown Q n2 C y}, ?_, ?_, ?_⟩
      · exact (dev_tails P hC hn1 (Or.inl rfl) hs0).1.trans (by linarith [hexp n1 hle1])
      · exact (dev_tails Q hC hn2 (Or.inr rfl) hs0).1.trans (by linarith [hexp n2 hle2])
      · rintro ⟨x, y⟩ ⟨b, hb, hd⟩
        by_contra hcon
        simp only [Set.mem_union, Set.mem_ofPred_eq, not_or, not_le] at hcon
        obtain ⟨h1, h2⟩ := hcon
        obtain ⟨-, hbe⟩ := hval x y b hb
        rw [if_neg ho] at hbe
        have h3 := estimate_le hC hi x y
        have h4 := hroot x hle1
        have h5 := hroot y hle2
        have h6 : u * devDown Q n2 C y < u * (2 * (1 / √n * ∑ i, √(cnt C y i / n2)) + 3 * s) := mul_lt_mul_of_pos_left (by linarith) hu0
        rw [← hu] at h3
        have e1 : 2 / √(n : ℝ) * (∑ i, √(cnt C x i / n1)) = 2 * (1 / √n * ∑ i, √(cnt C x i / n1)) := by ring
        have e2 : 2 * u / √(n : ℝ) * (∑ i, √(cnt C y i / n2)) = u * (2 * (1 / √n * ∑ i, √(cnt C y i / n2))) := by ring
        rw [e1, e2] at hbe
        nlinarith
  refine (measureReal_mono hsub).trans ((measureReal_union_le _ _).trans ?_)
  rw [real_prod_fst, real_prod_snd]
  linarith

end Verif.Testers
