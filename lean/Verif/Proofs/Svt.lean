import Verif.Spec.Svt
import Verif.Proofs.Laplace
import Verif.Proofs.SampledNoise
import Mathlib.Data.Fin.Basic

/-! # Sparse vector technique -/

namespace Verif.Svt
open MeasureTheory Verif.Spec

open Classical in
lemma cnt_zero {k : ℕ} (p : Fin k → Prop) : countBelow p 0 = 0 := by
  unfold countBelow; simp

open Classical in
lemma cnt_succ {k : ℕ} (p : Fin k → Prop) (i : Fin k) : countBelow p (i.val + 1) = countBelow p i.val + if p i then 1 else 0 := by
  unfold countBelow
  have e : (Finset.univ.filter fun j : Fin k => j.val < i.val + 1 ∧ p j) =
      (Finset.univ.filter fun j : Fin k => j.val < i.val ∧ p j) ∪ (if p i then {i} else ∅) := by
    ext j
    by_cases hp : p i
    · simp only [hp, if_true, Finset.mem_filter, Finset.mem_univ, true_and, Finset.mem_union, Finset.mem_singleton]
      constructor
      · rintro ⟨h1, h2⟩
        rcases Nat.lt_succ_iff_lt_or_eq.1 h1 with h | h
        · exact Or.inl ⟨h, h2⟩
        · exact Or.inr (Fin.ext h)
      · rintro (⟨h1, h2⟩ | rfl)
        · exact ⟨by omega, h2⟩
        · exact ⟨by omega, hp⟩
    · simp only [hp, if_false, Finset.mem_filter, Finset.mem_univ, true_and, Finset.union_empty]
      constructor
      · rintro ⟨h1, h2⟩
        rcases Nat.lt_succ_iff_lt_or_eq.1 h1 with h | h
        · exact ⟨h, h2⟩
        · exact absurd (Fin.ext h ▸ h2) hp
      · rintro ⟨h1, h2⟩
        exact ⟨by omega, h2⟩
  rw [e, Finset.card_union_of_disjoint]
  · by_cases hp : p i <;> simp [hp]
  · by_cases hp : p i <;> simp [hp]

lemma cnt_mono {k : ℕ} (p : Fin k → Prop) {i j : ℕ} (h : i ≤ j) : countBelow p i ≤ countBelow p j := by
  classical
  refine Finset.card_le_card fun x hx => ?_
  simp only [Finset.mem_filter, Finset.mem_univ, true_and] at hx ⊢
  exact ⟨lt_of_lt_of_le hx.1 h, hx.2⟩

open Classical in
/-- What a row of the answer should be: the answers until `c` of them passed. -/
noncomputable def rowSpec {k : ℕ} (c : ℤ) (p : Fin k → Prop) (ans : Fin k → SvtOut) (i : Fin k) : SvtOut :=
  if (countBelow p i.val : ℤ) < c then ans i else .noResponse

lemma finRange_drop {k : ℕ} (i : Fin k) : (List.finRange k).drop i.val = i :: (List.finRange k).drop (i.val + 1) := by
  rw [List.drop_eq_getElem_cons (by simp)]
  simp

open Classical in
lemma loop_eq {n k : ℕ} (c : ℤ) (p : Fin n → Fin k → Prop) (ans : Fin n → Fin k → SvtOut) : ∀ (m i : ℕ), i + m = k →
    loop c p ((List.finRange k).drop i) (fun s j => if j.val < i then rowSpec c (p s) (ans s) j else ans s j)
      (fun s => (countBelow (p s) i : ℤ)) = fun s => rowSpec c (p s) (ans s) := by
  intro m
  induction m with
  | zero =>
    intro i hi
    have : (List.finRange k).drop i = [] := List.drop_eq_nil_of_le (by simp; omega)
    rw [this]
    funext s j
    unfold loop
    simp only []
    rw [if_pos (by omega)]
  | succ m ih =>
    intro i hi
    have hlt : i < k := by omega
    have hd := finRange_drop (⟨i, hlt⟩ : Fin k)
    simp only [] at hd
    rw [hd, loop]
    simp only []
    by_cases hall : (∑ s : Fin n, if ((countBelow (p s) i : ℕ) : ℤ) ≥ c then 1 else 0) = n
    · rw [if_pos hall]
      have hall' : ∀ s, ((countBelow (p s) i : ℕ) : ℤ) ≥ c := by
        rw [← Finset.card_filter] at hall
        have : (Finset.univ.filter fun s : Fin n => ((countBelow (p s) i : ℕ) : ℤ) ≥ c) = Finset.univ :=
          Finset.eq_univ_of_card _ (by rw [hall, Fintype.card_fin])
        intro s
        have hs := Finset.mem_univ s
        rw [← this] at hs
        exact (Finset.mem_filter.1 hs).2
      funext s j
      by_cases hj : i ≤ j.val
      · rw [if_pos (show (⟨i, hlt⟩ : Fin k) ≤ j from hj), rowSpec, if_neg]
        have := cnt_mono (p s) hj
        have := hall' s
        omega
      · rw [if_neg (show ¬ (⟨i, hlt⟩ : Fin k) ≤ j from hj), if_pos (by omega)]
    · rw [if_neg hall]
      rw [← ih (i + 1) (by omega)]
      congr 1
      · funext s j
        by_cases hj : j = ⟨i, hlt⟩
        · subst hj
          rw [if_pos (show i < i + 1 by omega)]
          by_cases ha : ((countBelow (p s) i : ℕ) : ℤ) ≥ c
          · rw [if_pos ⟨ha, rfl⟩, rowSpec, if_neg (by simpa using ha)]
          · rw [if_neg (fun h => ha h.1), if_neg (by simp), rowSpec, if_pos (by simpa using ha)]
        · rw [if_neg (fun h => hj h.2)]
          have hne : j.val ≠ i := fun h => hj (Fin.ext h)
          by_cases hl : j.val < i
          · rw [if_pos hl, if_pos (by omega)]
          · rw [if_neg hl, if_neg (by omega)]
      · funext s
        have := cnt_succ (p s) ⟨i, hlt⟩
        simp only [] at this
        rw [this]
        push_cast
        rfl

/-- A successful call gives every sample its row. -/
lemma call_eq {v : SvtVariant} {cfg : SvtConfig} {data : List ℝ} {n : ℕ} {draws : Draws n cfg.numQueries}
    {q : Fin cfg.numQueries → ℝ} (hq : queryValues cfg data = .ok q) (ht : 0 ≤ thresholdScale cfg v) (hs : 0 ≤ queryScale cfg v) :
    call v cfg data n draws = .ok fun s => rowSpec cfg.maxAnswered
      (fun i => cfg.threshold + thresholdScale cfg v * (draws s).1 ≤ q i + queryScale cfg v * (draws s).2 i)
      (fun i => queryOutput v (q i + queryScale cfg v * (draws s).2 i) (cfg.threshold + thresholdScale cfg v * (draws s).1)) := by
  unfold call
  rw [hq]
  simp only []
  rw [if_neg (not_lt.2 ht), if_neg (not_lt.2 hs)]
  have := loop_eq cfg.maxAnswered
    (fun s i => cfg.threshold + thresholdScale cfg v * (draws s).1 ≤ q i + queryScale cfg v * (draws s).2 i)
    (fun s i => queryOutput v (q i + queryScale cfg v * (draws s).2 i) (cfg.threshold + thresholdScale cfg v * (draws s).1))
    cfg.numQueries 0 (by omega)
  simp only [List.drop_zero, Nat.not_lt_zero, if_false, cnt_zero, Nat.cast_zero] at this
  rw [this]

lemma call_ok {v : SvtVariant} {cfg : SvtConfig} {data : List ℝ} {n : ℕ} {draws : Draws n cfg.numQueries}
    {out : Fin n → Fin cfg.numQueries → SvtOut} (h : call v cfg data n draws = .ok out) :
    ∃ q, queryValues cfg data = .ok q ∧ 0 ≤ thresholdScale cfg v ∧ 0 ≤ queryScale cfg v := by
  unfold call at h
  cases hq : queryValues cfg data with
  | error e => rw [hq] at h; cases h
  | ok q =>
    rw [hq] at h
    simp only [] at h
    by_cases ht : thresholdScale cfg v < 0
    · rw [if_pos ht] at h; cases h
    · rw [if_neg ht] at h
      by_cases hs : queryScale cfg v < 0
      · rw [if_pos hs] at h; cases h
      · exact ⟨q, rfl, not_lt.1 ht, not_lt.1 hs⟩

open Classical in
/-- Two rows with the same answers wherever the first one has answers are equal. -/
lemma rowSpec_congr {k : ℕ} {c : ℤ} {p p' : Fin k → Prop} {ans ans' : Fin k → SvtOut}
    (h : ∀ i : Fin k, (countBelow p i.val : ℤ) < c → (p i ↔ p' i) ∧ ans i = ans' i) : rowSpec c p ans = rowSpec c p' ans' := by
  have key : ∀ i : ℕ, i ≤ k → (((countBelow p i : ℤ) < c ∧ countBelow p' i = countBelow p i) ∨ (c ≤ (countBelow p i : ℤ) ∧ c ≤ (countBelow p' i : ℤ))) := by
    intro i
    induction i with
    | zero =>
      intro _
      rw [cnt_zero, cnt_zero]
      by_cases h0 : (0 : ℤ) < c
      · exact Or.inl ⟨by simpa using h0, rfl⟩
      · exact Or.inr ⟨by simpa using h0, by simpa using h0⟩
    | succ i ih =>
      intro hi
      have hlt : i < k := by omega
      have e1 := cnt_succ p ⟨i, hlt⟩
      have e2 := cnt_succ p' ⟨i, hlt⟩
      simp only [] at e1 e2
      rcases ih (by omega) with ⟨a, b⟩ | ⟨a, b⟩
      · have := (h ⟨i, hlt⟩ a).1
        have e : countBelow p' (i + 1) = countBelow p (i + 1) := by rw [e1, e2, b]; simp only [this]
        by_cases hc : (countBelow p (i + 1) : ℤ) < c
        · exact Or.inl ⟨hc, e⟩
        · exact Or.inr ⟨not_lt.1 hc, by rw [e]; exact not_lt.1 hc⟩
      · exact Or.inr ⟨le_trans a (by exact_mod_cast cnt_mono p (Nat.le_succ i)), le_trans b (by exact_mod_cast cnt_mono p' (Nat.le_succ i))⟩
  funext i
  unfold rowSpec
  rcases key i.val i.isLt.le with ⟨a, b⟩ | ⟨a, b⟩
  · rw [if_pos a, if_pos (by rw [b]; exact a), (h i a).2]
  · rw [if_neg (not_lt.2 a), if_neg (not_lt.2 b)]

open Classical in
/-- At most `c` answers pass. -/
lemma pass_card {k : ℕ} {c : ℤ} (p : Fin k → Prop) :
    ((Finset.univ.filter fun i : Fin k => (countBelow p i.val : ℤ) < c ∧ p i).card : ℤ) ≤ max c 0 := by
  have key : ∀ i : ℕ, i ≤ k → (countBelow (fun j : Fin k => (countBelow p j.val : ℤ) < c ∧ p j) i : ℤ) ≤ max c 0 ∧
      countBelow (fun j : Fin k => (countBelow p j.val : ℤ) < c ∧ p j) i ≤ countBelow p i := by
    intro i
    induction i with
    | zero => intro _; simp [cnt_zero]
    | succ i ih =>
      intro hi
      have hlt : i < k := by omega
      have e1 := cnt_succ p ⟨i, hlt⟩
      have e2 := cnt_succ (fun j : Fin k => (countBelow p j.val : ℤ) < c ∧ p j) ⟨i, hlt⟩
      obtain ⟨a, b⟩ := ih (by omega)
      simp only [] at e1 e2
      rw [e2, e1]
      by_cases hp : p ⟨i, hlt⟩
      · by_cases hc : (countBelow p i : ℤ) < c
        · rw [if_pos ⟨hc, hp⟩, if_pos hp]
          refine ⟨?_, by omega⟩
          refine le_trans ?_ (le_max_left _ _)
          push_cast
          omega
        · rw [if_neg (fun h => hc h.1), if_pos hp]
          exact ⟨by simpa using a, by omega⟩
      · rw [if_neg (fun h => hp h.2), if_neg hp]
        exact ⟨by simpa using a, by omega⟩
  have := (key k le_rfl).1
  refine le_trans (le_of_eq ?_) this
  unfold countBelow
  congr 2
  ext j
  simp

/-! ### Shifts of Laplace noise -/

lemma laplace_map_le (v : ℝ) : (laplace 0 1).map (fun x => x + v) ≤ ENNReal.ofReal (Real.exp |v|) • laplace 0 1 := by
  refine Measure.le_iff.2 fun S hS => ?_
  rw [Measure.map_apply (by fun_prop) hS, Measure.smul_apply, smul_eq_mul]
  unfold laplace
  rw [withDensity_apply _ ((by fun_prop : Measurable fun x : ℝ => x + v) hS), withDensity_apply _ hS,
    ← lintegral_const_mul _ (by fun_prop), ← lintegral_indicator ((by fun_prop : Measurable fun x : ℝ => x + v) hS),
    ← lintegral_indicator hS]
  refine le_trans ?_ (le_of_eq (lintegral_add_right_eq_self _ v))
  refine lintegral_mono fun x => ?_
  by_cases hx : x + v ∈ S
  · rw [Set.indicator_of_mem (show x ∈ (fun x => x + v) ⁻¹' S from hx), Set.indicator_of_mem hx, ← ENNReal.ofReal_mul (Real.exp_pos _).le]
    refine ENNReal.ofReal_le_ofReal ?_
    have : Real.exp (-|x - 0| / 1) ≤ Real.exp |v| * Real.exp (-|x + v - 0| / 1) := by
      rw [← Real.exp_add]
      refine Real.exp_le_exp.2 ?_
      have := abs_add_le x v
      simp only [sub_zero, div_one]
      linarith
    nlinarith
  · rw [Set.indicator_of_notMem (show x ∉ (fun x => x + v) ⁻¹' S from hx)]
    exact zero_le

lemma pi_le {X : Type} [MeasurableSpace X] : ∀ {k : ℕ} (μ ν : Fin k → Measure X) [∀ i, IsFiniteMeasure (μ i)] [∀ i, IsFiniteMeasure (ν i)]
    (c : Fin k → ENNReal) (_ : ∀ i, c i ≠ ⊤) (_ : ∀ i, μ i ≤ c i • ν i), Measure.pi μ ≤ (∏ i, c i) • Measure.pi ν := by
  intro k
  induction k with
  | zero =>
    intro μ ν _ _ c _ _
    simp only [Finset.univ_eq_empty, Finset.prod_empty, one_smul]
    rw [Measure.pi_of_empty, Measure.pi_of_empty]
  | succ k ih =>
    intro μ ν _ _ c hc h
    have e1 := (measurePreserving_piFinSuccAbove μ 0).symm.map_eq
    have e2 := (measurePreserving_piFinSuccAbove ν 0).symm.map_eq
    rw [← e1, ← e2, ← Measure.map_smul]
    refine Measure.map_mono ?_ (MeasurableEquiv.measurable _)
    have h0 := ih (fun j => μ (Fin.succAbove 0 j)) (fun j => ν (Fin.succAbove 0 j)) (fun j => c (Fin.succAbove 0 j)) (fun j => hc _) (fun j => h _)
    have hfin : ∏ j, c (Fin.succAbove 0 j) ≠ ⊤ := ENNReal.prod_ne_top fun j _ => hc _
    have : IsFiniteMeasure (c 0 • ν 0) := Measure.smul_finite _ (hc 0)
    have : IsFiniteMeasure ((∏ j, c (Fin.succAbove 0 j)) • Measure.pi fun j => ν (Fin.succAbove 0 j)) := Measure.smul_finite _ hfin
    refine le_trans (Measure.prod_mono (h 0) h0) (le_of_eq ?_)
    rw [Measure.prod_smul_left, Measure.prod_smul_right, smul_smul, Fin.prod_univ_succ]
    simp

instance : IsProbabilityMeasure (laplace 0 1) := laplace_prob 0 one_pos

instance (k : ℕ) : IsProbabilityMeasure (svtDraw k) := by unfold svtDraw; infer_instance

lemma drawLaw_map_le {k : ℕ} (u : ℝ) (w : Fin k → ℝ) :
    (svtDraw k).map (fun d => (d.1 + u, fun i => d.2 i + w i)) ≤ ENNReal.ofReal (Real.exp (|u| + ∑ i, |w i|)) • svtDraw k := by
  unfold svtDraw
  have e : (fun d : ℝ × (Fin k → ℝ) => (d.1 + u, fun i => d.2 i + w i)) = Prod.map (fun x => x + u) (fun y i => y i + w i) := rfl
  have h1 : Measurable fun x : ℝ => x + u := by fun_prop
  have h2 : Measurable fun (y : Fin k → ℝ) i => y i + w i := by fun_prop
  rw [e, ← Measure.map_prod_map _ _ h1 h2]
  have e2 : (Measure.pi fun _ : Fin k => laplace 0 1).map (fun y i => y i + w i) = Measure.pi fun i => (laplace 0 1).map fun x => x + w i := by
    have hp : ∀ i : Fin k, IsProbabilityMeasure ((laplace 0 1).map fun x => x + w i) := fun i =>
      Measure.isProbabilityMeasure_map (by fun_prop)
    exact (Measure.pi_map_pi (fun i => (by fun_prop : AEMeasurable (fun x : ℝ => x + w i) (laplace 0 1))))
  have hp : ∀ i : Fin k, IsProbabilityMeasure ((laplace 0 1).map fun x => x + w i) := fun i =>
    Measure.isProbabilityMeasure_map (by fun_prop)
  rw [e2]
  have h3 := pi_le (fun i => (laplace 0 1).map fun x => x + w i) (fun _ => laplace 0 1) (fun i => ENNReal.ofReal (Real.exp |w i|))
    (fun _ => ENNReal.ofReal_ne_top) (fun i => laplace_map_le (w i))
  have : IsFiniteMeasure (ENNReal.ofReal (Real.exp |u|) • laplace 0 1) := Measure.smul_finite _ ENNReal.ofReal_ne_top
  have : IsFiniteMeasure ((∏ i, ENNReal.ofReal (Real.exp |w i|)) • Measure.pi fun _ : Fin k => laplace 0 1) :=
    Measure.smul_finite _ (ENNReal.prod_ne_top fun _ _ => ENNReal.ofReal_ne_top)
  refine le_trans (Measure.prod_mono (laplace_map_le u) h3) (le_of_eq ?_)
  rw [Measure.prod_smul_left, Measure.prod_smul_right, smul_smul, ← ENNReal.ofReal_prod_of_nonneg (fun _ _ => (Real.exp_pos _).le),
    ← ENNReal.ofReal_mul (Real.exp_pos _).le, Real.exp_add, Real.exp_sum]

/-! ### Privacy of the variants with yes/no answers -/

open Classical in
/-- A row of yes/no answers. -/
noncomputable def binRow {k : ℕ} (c : ℤ) (p : Fin k → Prop) : Fin k → SvtOut := rowSpec c p fun i => if p i then .above else .below

/-- The noisy comparisons. -/
def passes {k : ℕ} (t ts qs : ℝ) (q : Fin k → ℝ) (d : ℝ × (Fin k → ℝ)) (i : Fin k) : Prop := t + ts * d.1 ≤ q i + qs * d.2 i

lemma measurable_event {k : ℕ} (t ts qs : ℝ) (q : Fin k → ℝ) (c : ℤ) (S : Set (Fin k → SvtOut)) :
    MeasurableSet {d : ℝ × (Fin k → ℝ) | binRow c (passes t ts qs q d) ∈ S} := by
  have hm : Measurable fun (d : ℝ × (Fin k → ℝ)) (i : Fin k) => passes t ts qs q d i := by
    refine measurable_pi_lambda _ fun i => ?_
    refine measurable_to_prop ?_
    unfold passes
    have : ((fun a : ℝ × (Fin k → ℝ) => t + ts * a.1 ≤ q i + qs * a.2 i) ⁻¹' {True}) = {a | t + ts * a.1 ≤ q i + qs * a.2 i} := by
      ext a; simp
    rw [this]
    exact measurableSet_le (by fun_prop) (by fun_prop)
  exact hm (MeasurableSet.of_discrete (s := {p : Fin k → Prop | binRow c p ∈ S}))

open Classical in
lemma binRow_shift {k : ℕ} {t ts qs Δ u w : ℝ} {q q' : Fin k → ℝ} {c : ℤ} (hq : ∀ i, |q i - q' i| ≤ Δ) (hu : ts * u = Δ) (hw : qs * w = 2 * Δ)
    (d : ℝ × (Fin k → ℝ)) {a : Fin k → SvtOut} (ha : binRow c (passes t ts qs q d) = a) :
    binRow c (passes t ts qs q' (d.1 + u, fun i => d.2 i + if a i = .above then w else 0)) = a := by
  rw [← ha]
  symm
  unfold binRow
  have key : ∀ i : Fin k, (countBelow (passes t ts qs q d) i.val : ℤ) < c →
      (passes t ts qs q d i ↔ passes t ts qs q' (d.1 + u, fun i => d.2 i + if binRow c (passes t ts qs q d) i = .above then w else 0) i) := by
    intro i hi
    have hr : binRow c (passes t ts qs q d) i = if passes t ts qs q d i then .above else .below := by
      unfold binRow rowSpec; rw [if_pos hi]
    obtain ⟨h1, h2⟩ := abs_le.1 (hq i)
    by_cases hp : passes t ts qs q d i
    · refine ⟨fun _ => ?_, fun _ => hp⟩
      rw [if_pos hp] at hr
      show t + ts * (d.1 + u) ≤ q' i + qs * (d.2 i + if binRow c (passes t ts qs q d) i = .above then w else 0)
      rw [if_pos hr]
      have hp' : t + ts * d.1 ≤ q i + qs * d.2 i := hp
      nlinarith
    · refine ⟨fun h => absurd h hp, fun h => ?_⟩
      exfalso
      rw [if_neg hp] at hr
      apply hp
      have h' : t + ts * (d.1 + u) ≤ q' i + qs * (d.2 i + if binRow c (passes t ts qs q d) i = .above then w else 0) := h
      rw [if_neg (by rw [hr]; simp)] at h'
      show t + ts * d.1 ≤ q i + qs * d.2 i
      nlinarith
  refine rowSpec_congr fun i hi => ⟨key i hi, ?_⟩
  simp only [key i hi]
  rfl

open Classical in
lemma above_card {k : ℕ} {c : ℤ} (hc : 0 ≤ c) (p : Fin k → Prop) :
    ((Finset.univ.filter fun i => binRow c p i = .above).card : ℤ) ≤ c := by
  have := pass_card (c := c) p
  rw [max_eq_left hc] at this
  refine le_trans ?_ this
  refine Nat.cast_le.2 (Finset.card_le_card fun i hi => ?_)
  simp only [Finset.mem_filter, Finset.mem_univ, true_and] at hi ⊢
  unfold binRow rowSpec at hi
  by_cases h1 : (countBelow p i.val : ℤ) < c
  · rw [if_pos h1] at hi
    by_cases h2 : p i
    · exact ⟨h1, h2⟩
    · change (if p i then SvtOut.above else SvtOut.below) = _ at hi
      rw [if_neg h2] at hi; cases hi
  · rw [if_neg h1] at hi; cases hi

lemma binRow_values {k : ℕ} (c : ℤ) (p : Fin k → Prop) (i : Fin k) :
    binRow c p i = .above ∨ binRow c p i = .below ∨ binRow c p i = .noResponse := by
  classical
  unfold binRow rowSpec
  by_cases h1 : (countBelow p i.val : ℤ) < c
  · rw [if_pos h1]
    by_cases h2 : p i
    · exact Or.inl (if_pos h2)
    · exact Or.inr (Or.inl (if_neg h2))
  · rw [if_neg h1]; exact Or.inr (Or.inr rfl)

/-- The rows of yes/no answers. -/
lemma finite_rows (k : ℕ) (c : ℤ) : {a : Fin k → SvtOut | ∃ p, binRow c p = a}.Finite :=
  Set.finite_range (binRow c)

lemma row_le {k : ℕ} {t ts qs Δ : ℝ} {q q' : Fin k → ℝ} {c : ℤ} (hc : 0 ≤ c) (hts : 0 < ts) (hqs : 0 < qs) (hΔ : 0 ≤ Δ)
    (hq : ∀ i, |q i - q' i| ≤ Δ) (a : Fin k → SvtOut) :
    (svtDraw k).real {d | binRow c (passes t ts qs q d) = a} ≤
      Real.exp (Δ / ts + c * (2 * Δ / qs)) * (svtDraw k).real {d | binRow c (passes t ts qs q' d) = a} := by
  classical
  by_cases hne : ∃ d, binRow c (passes t ts qs q d) = a
  swap
  · have : {d | binRow c (passes t ts qs q d) = a} = ∅ := by
      ext d; exact ⟨fun h => hne ⟨d, h⟩, fun h => h.elim⟩
    rw [this]
    simp only [measureReal_empty]
    positivity
  obtain ⟨d0, hd0⟩ := hne
  set w : Fin k → ℝ := fun i => if a i = .above then 2 * Δ / qs else 0 with hw
  have hS := measurable_event t ts qs q' c {a}
  have hsub : {d | binRow c (passes t ts qs q d) = a} ⊆
      (fun d : ℝ × (Fin k → ℝ) => (d.1 + Δ / ts, fun i => d.2 i + w i)) ⁻¹' {d | binRow c (passes t ts qs q' d) ∈ ({a} : Set _)} := by
    intro d hd
    exact binRow_shift hq (by field_simp) (by field_simp) d hd
  have hcard := above_card hc (passes t ts qs q d0)
  rw [hd0] at hcard
  have hsum : |Δ / ts| + ∑ i, |w i| ≤ Δ / ts + c * (2 * Δ / qs) := by
    have e : ∀ i, |w i| = if a i = .above then 2 * Δ / qs else 0 := by
      intro i
      simp only [hw]
      by_cases hi : a i = .above
      · rw [if_pos hi, abs_of_nonneg (by positivity)]
      · rw [if_neg hi, abs_zero]
    rw [abs_of_nonneg (by positivity), Finset.sum_congr rfl fun i _ => e i, ← Finset.sum_filter, Finset.sum_const, nsmul_eq_mul]
    have : ((Finset.univ.filter fun i => a i = .above).card : ℝ) ≤ c := by exact_mod_cast hcard
    have h2 : 0 ≤ 2 * Δ / qs := by positivity
    nlinarith
  have h1 : (svtDraw k) {d | binRow c (passes t ts qs q d) = a} ≤
      ENNReal.ofReal (Real.exp (Δ / ts + c * (2 * Δ / qs))) * (svtDraw k) {d | binRow c (passes t ts qs q' d) = a} := by
    refine le_trans (measure_mono hsub) ?_
    rw [← Measure.map_apply (by fun_prop) hS]
    refine le_trans (drawLaw_map_le (Δ / ts) w _) ?_
    rw [Measure.smul_apply, smul_eq_mul]
    exact mul_le_mul_left (ENNReal.ofReal_le_ofReal (Real.exp_le_exp.2 hsum)) _
  rw [measureReal_def, measureReal_def]
  refine le_trans (ENNReal.toReal_mono (ENNReal.mul_ne_top ENNReal.ofReal_ne_top (measure_ne_top _ _)) h1) (le_of_eq ?_)
  rw [ENNReal.toReal_mul, ENNReal.toReal_ofReal (Real.exp_pos _).le]

/-- Rows of yes/no answers to queries at distance at most `Δ`. -/
lemma rows_le {k : ℕ} {t ts qs Δ : ℝ} {q q' : Fin k → ℝ} {c : ℤ} (hc : 0 ≤ c) (hts : 0 < ts) (hqs : 0 < qs) (hΔ : 0 ≤ Δ)
    (hq : ∀ i, |q i - q' i| ≤ Δ) (S : Set (Fin k → SvtOut)) :
    (svtDraw k).real {d | binRow c (passes t ts qs q d) ∈ S} ≤
      Real.exp (Δ / ts + c * (2 * Δ / qs)) * (svtDraw k).real {d | binRow c (passes t ts qs q' d) ∈ S} := by
  classical
  set F := (finite_rows k c).toFinset.filter (· ∈ S) with hF
  have e : ∀ q : Fin k → ℝ, (svtDraw k).real {d | binRow c (passes t ts qs q d) ∈ S} =
      ∑ a ∈ F, (svtDraw k).real {d | binRow c (passes t ts qs q d) = a} := by
    intro q
    have : {d | binRow c (passes t ts qs q d) ∈ S} = ⋃ a ∈ F, {d | binRow c (passes t ts qs q d) = a} := by
      ext d
      simp only [Set.mem_ofPred_eq, Set.mem_iUnion, hF, Finset.mem_filter, Set.Finite.mem_toFinset, exists_prop]
      exact ⟨fun h => ⟨_, ⟨⟨_, rfl⟩, h⟩, rfl⟩, fun ⟨a, ⟨_, h⟩, h'⟩ => h' ▸ h⟩
    rw [this, measureReal_biUnion_finset]
    · intro a _ b _ hab
      exact Set.disjoint_left.2 fun d h1 h2 => hab (h1.symm.trans h2)
    · intro a _
      exact measurable_event t ts qs q c {a}
  rw [e q, e q', Finset.mul_sum]
  exact Finset.sum_le_sum fun a _ => row_le hc hts hqs hΔ hq a

/-! ### The variants -/

open Classical in
lemma queryOutput_bin {v : SvtVariant} (hv : v ≠ .svt3) (x t : ℝ) : queryOutput v x t = if t ≤ x then .above else .below := by
  unfold queryOutput
  cases v <;> first | rfl | exact absurd rfl hv

lemma svtProb_eq {v : SvtVariant} {cfg : SvtConfig} {data : List ℝ} {n : ℕ} {q : Fin cfg.numQueries → ℝ} (hv : v ≠ .svt3)
    (hq : queryValues cfg data = .ok q) (ht : 0 ≤ thresholdScale cfg v) (hs : 0 ≤ queryScale cfg v) (s : Fin n)
    (S : Set (Fin cfg.numQueries → SvtOut)) : svtProb v cfg data n s S =
      (svtDraw cfg.numQueries).real {d | binRow cfg.maxAnswered (passes cfg.threshold (thresholdScale cfg v) (queryScale cfg v) q d) ∈ S} := by
  have hm := measurable_event cfg.threshold (thresholdScale cfg v) (queryScale cfg v) q cfg.maxAnswered S
  have hp := measurePreserving_eval (fun _ : Fin n => svtDraw cfg.numQueries) s
  unfold svtProb
  rw [measureReal_def, measureReal_def, ← hp.measure_preimage hm.nullMeasurableSet]
  congr 2
  ext draws
  simp only [call_eq hq ht hs, queryOutput_bin hv]
  constructor
  · rintro ⟨out, h1, h2⟩
    injection h1 with h1
    rw [← h1] at h2
    exact h2
  · intro h
    exact ⟨_, rfl, h⟩

lemma svtProb_zero {v : SvtVariant} {cfg : SvtConfig} {data : List ℝ} {n : ℕ} (h : thresholdScale cfg v < 0 ∨ queryScale cfg v < 0)
    (s : Fin n) (S : Set (Fin cfg.numQueries → SvtOut)) : svtProb v cfg data n s S = 0 := by
  have : {draws | ∃ out, Svt.call v cfg data n draws = .ok out ∧ out s ∈ S} = ∅ := by
    ext draws
    refine ⟨?_, fun h => h.elim⟩
    rintro ⟨out, h1, _⟩
    obtain ⟨_, _, h2, h3⟩ := call_ok h1
    rcases h with h | h <;> linarith
  unfold svtProb
  rw [this, measureReal_empty]

lemma binRow_nonpos {k : ℕ} {c : ℤ} (hc : c ≤ 0) (p : Fin k → Prop) : binRow c p = fun _ => .noResponse := by
  funext i
  unfold binRow rowSpec
  exact if_neg (by omega)

/-- The guarantee of all variants with yes/no answers and noisy queries. -/
lemma svt_le {v : SvtVariant} {cfg : SvtConfig} {data data' : List ℝ} {n : ℕ} {e : ℝ} (hv : v ≠ .svt3) (hcl : svtClose cfg data data') (he : 0 ≤ e)
    (hb : 0 < thresholdScale cfg v → 0 < queryScale cfg v → 0 < cfg.maxAnswered →
      sensitivity cfg / thresholdScale cfg v + cfg.maxAnswered * (2 * sensitivity cfg / queryScale cfg v) ≤ e)
    (hz : 0 < cfg.maxAnswered → sensitivity cfg ≠ 0 → thresholdScale cfg v ≠ 0 ∧ queryScale cfg v ≠ 0)
    (s : Fin n) (S : Set (Fin cfg.numQueries → SvtOut)) :
    svtProb v cfg data n s S ≤ Real.exp e * svtProb v cfg data' n s S := by
  have h1 : 1 ≤ Real.exp e := Real.one_le_exp he
  by_cases hneg : thresholdScale cfg v < 0 ∨ queryScale cfg v < 0
  · rw [svtProb_zero hneg, svtProb_zero hneg, mul_zero]
  push Not at hneg
  obtain ⟨q, q', hq, hq', hqq⟩ := hcl
  rw [svtProb_eq hv hq hneg.1 hneg.2, svtProb_eq hv hq' hneg.1 hneg.2]
  rcases le_or_gt cfg.maxAnswered 0 with hc | hc
  · simp only [binRow_nonpos hc]
    exact le_mul_of_one_le_left measureReal_nonneg h1
  by_cases hs : sensitivity cfg = 0
  · have : q = q' := by
      funext i
      have := hqq i
      rw [hs] at this
      exact sub_eq_zero.1 (abs_eq_zero.1 (le_antisymm this (abs_nonneg _)))
    rw [this]
    exact le_mul_of_one_le_left measureReal_nonneg h1
  obtain ⟨h2, h3⟩ := hz hc hs
  have ht := lt_of_le_of_ne hneg.1 (Ne.symm h2)
  have hqs := lt_of_le_of_ne hneg.2 (Ne.symm h3)
  rcases Nat.eq_zero_or_pos cfg.numQueries with hk | hk
  · have : q = q' := by
      funext i
      exact absurd i.isLt (by omega)
    rw [this]
    exact le_mul_of_one_le_left measureReal_nonneg h1
  have hΔ : 0 ≤ sensitivity cfg := le_trans (abs_nonneg _) (hqq ⟨0, hk⟩)
  refine le_trans (rows_le hc.le ht hqs hΔ hqq S) ?_
  exact mul_le_mul_of_nonneg_right (Real.exp_le_exp.2 (hb ht hqs hc)) measureReal_nonneg

/-! ### Sensitivities -/

lemma clip_mem {x lo hi : ℝ} (h : lo ≤ hi) : lo ≤ clip x lo hi ∧ clip x lo hi ≤ hi :=
  ⟨le_min (le_max_right _ _) h, min_le_right _ _⟩

lemma clip_diff {x y lo hi : ℝ} (h : lo ≤ hi) : |clip x lo hi - clip y lo hi| ≤ hi - lo := by
  obtain ⟨a, b⟩ := clip_mem (x := x) h
  obtain ⟨c, d⟩ := clip_mem (x := y) h
  exact abs_le.2 ⟨by linarith, by linarith⟩

lemma sum_close {cfg : SvtConfig} (hty : cfg.queryType = .sum) {data data' : List ℝ}
    (h : |(data.map fun x => clip x cfg.minValue cfg.maxValue).sum - (data'.map fun x => clip x cfg.minValue cfg.maxValue).sum| ≤ sensitivity cfg) :
    svtClose cfg data data' := by
  refine ⟨fun _ => (data.map fun x => clip x cfg.minValue cfg.maxValue).sum, fun _ => (data'.map fun x => clip x cfg.minValue cfg.maxValue).sum, ?_, ?_, fun _ => h⟩
  · unfold queryValues; rw [hty]; rfl
  · unfold queryValues; rw [hty]; rfl

lemma reveal_ok {cfg : SvtConfig} (hty : cfg.queryType = .revealRecords) {data : List ℝ} (hl : 2 ≤ data.length) :
    ∃ x y, queryValues cfg data = .ok fun i => clip (if i.val < cfg.numQueries - 1 then x else y) cfg.minValue cfg.maxValue := by
  have hl' : 2 ≤ data.reverse.length := by rw [List.length_reverse]; exact hl
  unfold queryValues
  rw [hty]
  simp only []
  unfold revealQuery
  rcases hd : data.reverse with _ | ⟨x, _ | ⟨y, r⟩⟩
  · rw [hd] at hl'; simp at hl'
  · rw [hd] at hl'; simp at hl'
  · refine ⟨x, y, ?_⟩
    simp only []
    congr 1
    funext i
    by_cases hi : i.val < cfg.numQueries - 1
    · rw [if_pos hi, if_pos hi]
    · rw [if_neg hi, if_neg hi]

/-! ### Positive probability -/

lemma laplace_pos {A : Set ℝ} (hA : (volume : Measure ℝ) A ≠ 0) : laplace 0 1 A ≠ 0 := by
  unfold laplace
  rw [Ne, withDensity_apply_eq_zero (by fun_prop)]
  intro h
  refine hA (measure_mono_null ?_ h)
  intro x hx
  refine ⟨?_, hx⟩
  simp only [ne_eq, Set.mem_ofPred_eq, ENNReal.ofReal_eq_zero, not_le]
  positivity

open Classical in
/-- The number of answers above the threshold that are given before an index. -/
lemma countBelow_answered {k : ℕ} {c : ℤ} (p : Fin k → Prop) (i : ℕ) (hi : i ≤ k) :
    (countBelow (fun j => (countBelow p j.val : ℤ) < c ∧ p j) i : ℤ) = min (countBelow p i : ℤ) (max c 0) := by
  induction i with
  | zero => rw [cnt_zero, cnt_zero]; simp
  | succ i ih =>
    have hlt : i < k := by omega
    have e1 := cnt_succ p ⟨i, hlt⟩
    have e2 := cnt_succ (fun j : Fin k => (countBelow p j.val : ℤ) < c ∧ p j) ⟨i, hlt⟩
    have := ih (by omega)
    simp only [] at e1 e2
    rw [e2, e1]
    push_cast
    rw [this]
    by_cases hp : p ⟨i, hlt⟩
    · by_cases hc : (countBelow p i : ℤ) < c
      · rw [if_pos ⟨hc, hp⟩, if_pos hp]; omega
      · rw [if_neg (fun h => hc h.1), if_pos hp]; omega
    · rw [if_neg (fun h => hp h.2), if_neg hp]; omega

end Verif.Svt
