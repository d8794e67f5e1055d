import Verif.Model.Testers
import Verif.Spec.Testers
import Verif.Spec.Privacy
import Verif.Proofs.Testers

/-!
# The hockey-stick tester
-/

namespace Verif.Testers.HockeyStickTester

open MeasureTheory Real

/-! ### Splitting an array of independent samples -/

section Split

variable {S : Type} [MeasurableSpace S]

theorem preserving_split (P : Measure S) [IsProbabilityMeasure P] (a b : ℕ) :
    MeasurePreserving (fun x : Fin (a + b) → S => ((fun i => x (Fin.castAdd b i)), fun j => x (Fin.natAdd a j)))
      (Measure.pi fun _ => P) ((Measure.pi fun _ => P).prod (Measure.pi fun _ => P)) := by
  have h1 := (measurePreserving_piCongrLeft (fun _ : Fin (a + b) => P) (finSumFinEquiv (m := a) (n := b))).symm
  have h2 := measurePreserving_sumPiEquivProdPi (ι := Fin a) (ι' := Fin b) (X := fun _ => S) (fun _ => P)
  exact h2.comp h1

theorem preserving_middle {A B C D : Type*} [MeasurableSpace A] [MeasurableSpace B] [MeasurableSpace C] [MeasurableSpace D]
    (μ : Measure A) (ν : Measure B) (ρ : Measure C) (τ : Measure D) [IsProbabilityMeasure μ] [IsProbabilityMeasure ν]
    [IsProbabilityMeasure ρ] [IsProbabilityMeasure τ] :
    MeasurePreserving (fun z : (A × B) × (C × D) => ((z.1.1, z.2.1), (z.1.2, z.2.2)))
      ((μ.prod ν).prod (ρ.prod τ)) ((μ.prod ρ).prod (ν.prod τ)) := by
  have h1 := measurePreserving_prodAssoc μ ν (ρ.prod τ)
  have h2 := (MeasurePreserving.id μ).prod (measurePreserving_prodAssoc ν ρ τ).symm
  have h3 := (MeasurePreserving.id μ).prod ((Measure.measurePreserving_swap (μ := ν) (ν := ρ)).prod (MeasurePreserving.id τ))
  have h4 := (MeasurePreserving.id μ).prod (measurePreserving_prodAssoc ρ ν τ)
  have h5 := (measurePreserving_prodAssoc μ ρ (ν.prod τ)).symm
  exact h5.comp (h4.comp (h3.comp (h2.comp h1)))

theorem real_prod_le {X Y : Type*} [MeasurableSpace X] [MeasurableSpace Y] {μ : Measure X} {ν : Measure Y} [IsProbabilityMeasure μ]
    [IsProbabilityMeasure ν] {E : Set (X × Y)} (hE : MeasurableSet E) {r : ℝ} (hr : 0 ≤ r) (h : ∀ x, ν.real {y | (x, y) ∈ E} ≤ r) :
    (μ.prod ν).real E ≤ r := by
  rw [Measure.real, Measure.prod_apply hE]
  refine ENNReal.toReal_le_of_le_ofReal hr ?_
  calc ∫⁻ x, ν (Prod.mk x ⁻¹' E) ∂μ ≤ ∫⁻ _, ENNReal.ofReal r ∂μ := lintegral_mono fun x => by
        rw [← ENNReal.ofReal_toReal (measure_ne_top ν (Prod.mk x ⁻¹' E))]
        exact ENNReal.ofReal_le_ofReal (h x)
    _ = ENNReal.ofReal r := by simp

end Split

/-! ### The accuracy on test samples -/

section Accuracy

variable {S : Type}

/-- The correct answers among the first `m` samples with label 0, divided by `N`. -/
noncomputable def right0 (h : S → Bool) (m : ℕ) {N : ℕ} (x : Fin N → S) : ℝ :=
  ∑ j : Fin N, if (j : ℕ) < m then (if h (x j) = false then 1 / (N : ℝ) else 0) else 0

/-- The correct answers among all but the first `m` samples with label 1, divided by `N`. -/
noncomputable def right1 (h : S → Bool) (m : ℕ) {N : ℕ} (y : Fin N → S) : ℝ :=
  ∑ j : Fin N, if (j : ℕ) < m then 0 else (if h (y j) = true then 1 / (N : ℝ) else 0)

theorem countP_take (p : S → Bool) (m : ℕ) {N : ℕ} (x : Fin N → S) :
    (((List.ofFn x).take m).countP p : ℝ) = ∑ j : Fin N, if (j : ℕ) < m then (if p (x j) then 1 else 0) else 0 := by
  induction N generalizing m with
  | zero => simp
  | succ N ih =>
    rw [List.ofFn_succ, Fin.sum_univ_succ]
    cases m with
    | zero => simp
    | succ m =>
      rw [List.take_succ_cons, List.countP_cons]
      push_cast
      rw [ih, add_comm]
      congr 1
      simp

theorem countP_drop (p : S → Bool) (m : ℕ) {N : ℕ} (x : Fin N → S) :
    (((List.ofFn x).drop m).countP p : ℝ) = ∑ j : Fin N, if (j : ℕ) < m then 0 else (if p (x j) then 1 else 0) := by
  induction N generalizing m with
  | zero => simp
  | succ N ih =>
    rw [List.ofFn_succ, Fin.sum_univ_succ]
    cases m with
    | zero =>
      rw [List.drop_zero, List.countP_cons]
      push_cast
      have := ih 0 fun i => x i.succ
      rw [List.drop_zero] at this
      rw [this, add_comm]
      congr 1
    | succ m =>
      rw [List.drop_succ_cons, ih]
      simp

theorem inputs_length (t : HockeyStickTester S) {N : ℕ} (x y : List S) (hx : x.length = N) (hy : y.length = N) :
    (t.inputs x y).length = N := by
  have hc : t.cutoff * N ≤ N := by
    have : t.cutoff ≤ 1 := by
      unfold cutoff
      rw [div_le_one (by positivity)]
      linarith [exp_pos t.epsilon]
    exact mul_le_of_le_one_left (Nat.cast_nonneg N) this
  have hm : ⌊t.cutoff * N⌋₊ ≤ N := Nat.floor_le_of_le hc
  unfold inputs
  rw [List.length_append, List.length_map, List.length_map, List.length_take, List.length_drop, hx, hy]
  omega

theorem accuracy_eq (t : HockeyStickTester S) (h : S → Bool) {N : ℕ} (x y : Fin N → S) :
    accuracy h (t.inputs (List.ofFn x) (List.ofFn y)) = right0 h ⌊t.cutoff * N⌋₊ x + right1 h ⌊t.cutoff * N⌋₊ y := by
  classical
  unfold accuracy
  rw [inputs_length t (N := N) _ _ (by simp) (by simp)]
  unfold inputs
  simp only [List.length_ofFn]
  rw [List.countP_append, List.countP_map, List.countP_map]
  push_cast
  rw [add_div]
  congr 1
  · have := countP_take (fun s => decide (h s = false)) ⌊t.cutoff * N⌋₊ x
    rw [right0]
    have e : ((fun e : S × Bool => decide (h e.1 = e.2)) ∘ fun s => (s, false)) = fun s => decide (h s = false) := rfl
    rw [e, this, Finset.sum_div]
    refine Finset.sum_congr rfl fun j _ => ?_
    split_ifs <;> simp_all
  · have := countP_drop (fun s => decide (h s = true)) ⌊t.cutoff * N⌋₊ y
    rw [right1]
    have e : ((fun e : S × Bool => decide (h e.1 = e.2)) ∘ fun s => (s, true)) = fun s => decide (h s = true) := rfl
    rw [e, this, Finset.sum_div]
    refine Finset.sum_congr rfl fun j _ => ?_
    split_ifs <;> simp_all

variable [MeasurableSpace S]

theorem measurable_ite_bool {X : Type*} [MeasurableSpace X] {g : X → Bool} (hg : Measurable g) (v : Bool) (c : ℝ) :
    Measurable fun x => if g x = v then c else 0 :=
  Measurable.ite (hg (MeasurableSet.singleton v)) measurable_const measurable_const

theorem sum_ite_lt (N m : ℕ) (hm : m ≤ N) (a b : ℝ) : (∑ j : Fin N, if (j : ℕ) < m then a else b) = m * a + (N - m) * b := by
  rw [Fin.sum_univ_eq_sum_range (fun j => if j < m then a else b) N, ← Finset.sum_range_add_sum_Ico _ hm,
    Finset.sum_congr rfl fun j hj => if_pos (Finset.mem_range.1 hj),
    Finset.sum_congr (s₁ := Finset.Ico m N) rfl fun j hj => if_neg (not_lt.2 (Finset.mem_Ico.1 hj).1)]
  simp [Nat.cast_sub hm]

/-- Sums of one bounded function per sample, over some of the samples. -/
theorem subG_coord (P : Measure S) [IsProbabilityMeasure P] {N : ℕ} {g : S → ℝ} (hg : Measurable g) {c : ℝ} (hg0 : ∀ s, 0 ≤ g s)
    (hg1 : ∀ s, g s ≤ c) (w : Fin N → Prop) [DecidablePred w] :
    SubG (Measure.pi fun _ : Fin N => P) (fun x => ∑ j, if w j then g (x j) else 0) (∑ j, if w j then c ^ 2 / 4 else 0) ∧
    ∫ x, (∑ j, if w j then g (x j) else 0) ∂(Measure.pi fun _ : Fin N => P) = ∑ j, if w j then ∫ s, g s ∂P else 0 := by
  have hc : ∀ s, |g s| ≤ c := fun s => by rw [abs_of_nonneg (hg0 s)]; exact hg1 s
  have hmj : ∀ j : Fin N, Measurable fun x : Fin N → S => if w j then g (x j) else 0 := by
    intro j
    by_cases h : w j
    · simp only [if_pos h]; exact hg.comp (measurable_pi_apply j)
    · simp only [if_neg h]; exact measurable_const
  have hbj : ∀ (j : Fin N) (x : Fin N → S), |if w j then g (x j) else 0| ≤ |c| := by
    intro j x
    split
    · exact (hc _).trans (le_abs_self _)
    · simp
  constructor
  · have := SubG.pi_of P N (fun j => if w j then c else 0) (fun x => ∑ j, if w j then g (x j) else 0)
      (Finset.measurable_fun_sum _ fun j _ => hmj j)
      ⟨∑ _ : Fin N, |c|, fun x => (Finset.abs_sum_le_sum_abs _ _).trans (Finset.sum_le_sum fun j _ => hbj j x)⟩ ?_
    · have e : ∀ j, (if w j then c else 0) ^ 2 / 4 = if w j then c ^ 2 / 4 else 0 := by
        intro j; split <;> simp
      simp_rw [e] at this
      exact this
    · intro x i a
      rw [← Finset.sum_sub_distrib, Finset.sum_eq_single i]
      · rw [Function.update_self]
        split
        · linarith [hg0 (x i), hg1 a]
        · simp
      · intro j _ hj
        rw [Function.update_of_ne hj]
        simp
      · simp
  · rw [integral_finsetSum _ fun j _ => integrable_bdd (hmj j) (hbj j)]
    refine Finset.sum_congr rfl fun j _ => ?_
    split
    · exact integral_comp_eval (μ := fun _ : Fin N => P) (i := j) hg.aestronglyMeasurable
    · simp

theorem integral_ite_bool (P : Measure S) [IsProbabilityMeasure P] {h : S → Bool} (hh : Measurable h) (v : Bool) (c : ℝ) :
    ∫ s, (if h s = v then c else 0) ∂P = P.real {s | h s = v} * c := by
  have hA : MeasurableSet {s | h s = v} := hh (MeasurableSet.singleton v)
  have e : (fun s => if h s = v then c else 0) = {s | h s = v}.indicator fun _ => c := by
    funext s
    rw [Set.indicator_apply]
    rfl
  rw [e, integral_indicator hA]
  simp

/-- For a fixed classifier, the accuracy on `N` test samples of each kind exceeds its mean by the confidence bound with probability at
most the failure probability. -/
theorem accuracy_tail (P Q : Measure S) [IsProbabilityMeasure P] [IsProbabilityMeasure Q] {h : S → Bool} (hh : Measurable h) {m N : ℕ}
    (hN : 0 < N) (hm : m ≤ N) {s : ℝ} (hs : 0 ≤ s) :
    ((Measure.pi fun _ : Fin N => P).prod (Measure.pi fun _ : Fin N => Q)).real
      {z | m / N * P.real {s | h s = false} + (1 - m / N) * Q.real {s | h s = true} + s ≤ right0 h m z.1 + right1 h m z.2} ≤
      exp (-(2 * N * s ^ 2)) := by
  have hN' : (0 : ℝ) < N := by exact_mod_cast hN
  have hm' : (m : ℝ) ≤ N := by exact_mod_cast hm
  have g0 : ∀ v s, (0 : ℝ) ≤ if h s = v then 1 / (N : ℝ) else 0 := fun v s => by split <;> positivity
  have g1 : ∀ v s, (if h s = v then 1 / (N : ℝ) else 0) ≤ 1 / N := fun v s => by
    split
    · exact le_rfl
    · positivity
  obtain ⟨s1, i1⟩ := subG_coord P (N := N) (measurable_ite_bool hh false (1 / (N : ℝ))) (g0 false) (g1 false) fun j => (j : ℕ) < m
  obtain ⟨s2, i2⟩ := subG_coord Q (N := N) (measurable_ite_bool hh true (1 / (N : ℝ))) (g0 true) (g1 true) fun j => ¬ (j : ℕ) < m
  have e2 : (fun y : Fin N → S => ∑ j : Fin N, if ¬ (j : ℕ) < m then (if h (y j) = true then 1 / (N : ℝ) else 0) else 0) = right1 h m := by
    funext y
    refine Finset.sum_congr rfl fun j _ => ?_
    rw [ite_not]
  rw [e2] at s2
  have e2' : ∀ c : ℝ, (∑ j : Fin N, if ¬ (j : ℕ) < m then c else 0) = (N - m) * c := by
    intro c
    simp_rw [ite_not]
    rw [sum_ite_lt N m hm]
    ring
  have e1' : ∀ c : ℝ, (∑ j : Fin N, if (j : ℕ) < m then c else 0) = m * c := by
    intro c
    rw [sum_ite_lt N m hm]
    ring
  rw [e1'] at s1 i1
  rw [e2'] at s2 i2
  rw [integral_ite_bool P hh] at i1
  rw [integral_ite_bool Q hh] at i2
  have s3 : SubG _ (fun z : (Fin N → S) × (Fin N → S) => right0 h m z.1 + right1 h m z.2) _ := s1.add s2
  have i3 := integral_add_prod s1 s2
  have ev : (m : ℝ) * ((1 / N) ^ 2 / 4) + (N - m) * ((1 / N) ^ 2 / 4) = 1 / (4 * N) := by field_simp; ring
  rw [ev] at s3
  have tail := s3.tail (by positivity) hs
  have e : -s ^ 2 / (2 * (1 / (4 * (N : ℝ)))) = -(2 * N * s ^ 2) := by field_simp; ring
  rw [e] at tail
  refine le_trans (le_of_eq ?_) tail
  congr 1
  ext z
  have i3' : ∫ z : (Fin N → S) × (Fin N → S), (right0 h m z.1 + right1 h m z.2) ∂((Measure.pi fun _ => P).prod (Measure.pi fun _ => Q)) =
      m / N * P.real {s | h s = false} + (1 - m / N) * Q.real {s | h s = true} := by
    have i2' : ∫ y : Fin N → S, right1 h m y ∂(Measure.pi fun _ => Q) = (N - m) * (Q.real {s | h s = true} * (1 / N)) := by
      rw [← i2]
      exact integral_congr_ae (Filter.Eventually.of_forall fun y => (congrFun e2 y).symm)
    refine i3.trans ?_
    rw [i1, i2']
    field_simp
  simp only [Set.mem_ofPred_eq, i3']

end Accuracy

/-! ### Soundness -/

section Sound

variable {S : Type} [MeasurableSpace S]

/-- The trained classifier depends measurably on the training samples and its argument. -/
def MeasurableTraining (t : HockeyStickTester S) : Prop :=
  ∀ a b : ℕ, Measurable fun z : ((Fin a → S) × (Fin b → S)) × S => t.train (List.ofFn z.1.1) (List.ofFn z.1.2) z.2

/-- The population value of the accuracy of any classifier. -/
theorem mean_le {P Q : Measure S} [IsProbabilityMeasure P] [IsProbabilityMeasure Q] {eps delta : ℝ} (hi : Spec.Indist P Q eps delta)
    {h : S → Bool} (hh : Measurable h) {r : ℝ} (hr : r ≤ 1 / (exp eps + 1)) :
    (r * P.real {s | h s = false} + (1 - r) * Q.real {s | h s = true}) * (1 + exp eps) - exp eps ≤
      delta + (1 + exp eps) * (1 / (exp eps + 1) - r) := by
  have hA : MeasurableSet {s | h s = false} := hh (MeasurableSet.singleton false)
  have hc : Q.real {s | h s = true} = 1 - Q.real {s | h s = false} := by
    have e : {s | h s = true} = {s | h s = false}ᶜ := by
      ext s
      simp
    rw [e, probReal_compl_eq_one_sub hA]
  have h1 := hi _ hA
  have hp := measureReal_nonneg (μ := P) (s := {s | h s = false})
  have hq := measureReal_nonneg (μ := Q) (s := {s | h s = false})
  have hu := exp_pos eps
  rw [hc]
  set p := P.real {s | h s = false}
  set q := Q.real {s | h s = false}
  set u := exp eps
  have hcut : (1 + u) * (1 / (u + 1)) = 1 := by field_simp; ring
  set c := 1 / (u + 1)
  have hle : 0 ≤ (1 + u) * (c - r) := mul_nonneg (by linarith) (by linarith)
  have key : (r * p + (1 - r) * (1 - q)) * (1 + u) - u = (p - u * q) * ((1 + u) * c) + (1 + u) * (c - r) * (1 - p - q) + (1 - u * q - q) * (1 - (1 + u) * c) := by
    ring
  rw [key, hcut]
  nlinarith

theorem measurable_right0 {X : Type*} [MeasurableSpace X] {g : X → S → Bool} (hg : Measurable fun z : X × S => g z.1 z.2) (m N : ℕ) :
    Measurable fun z : X × (Fin N → S) => right0 (g z.1) m z.2 := by
  unfold right0
  refine Finset.measurable_fun_sum _ fun j _ => ?_
  by_cases h : (j : ℕ) < m
  · simp only [if_pos h]
    exact measurable_ite_bool (hg.comp (measurable_fst.prodMk ((measurable_pi_apply j).comp measurable_snd))) false _
  · simp only [if_neg h]; exact measurable_const

theorem measurable_right1 {X : Type*} [MeasurableSpace X] {g : X → S → Bool} (hg : Measurable fun z : X × S => g z.1 z.2) (m N : ℕ) :
    Measurable fun z : X × (Fin N → S) => right1 (g z.1) m z.2 := by
  unfold right1
  refine Finset.measurable_fun_sum _ fun j _ => ?_
  by_cases h : (j : ℕ) < m
  · simp only [if_pos h]; exact measurable_const
  · simp only [if_neg h]
    exact measurable_ite_bool (hg.comp (measurable_fst.prodMk ((measurable_pi_apply j).comp measurable_snd))) true _

theorem sound (t : HockeyStickTester S) (ht : t.MeasurableTraining) {P Q : Measure S} [IsProbabilityMeasure P] [IsProbabilityMeasure Q]
    {delta : ℝ} (hi : Spec.Indist P Q t.epsilon delta) (n : ℕ) {fp : ℝ} (hf0 : 0 < fp) (hf1 : fp ≤ 1) :
    (Spec.independentSamples P Q n n).real
      {z | ∃ b, t.estimateLowerBound (List.ofFn z.1) (List.ofFn z.2) fp = .ok b ∧
        delta + (1 + exp t.epsilon) * (t.cutoff - ⌊t.cutoff * (n - n / 2 : ℕ)⌋₊ / (n - n / 2 : ℕ)) ≤ b} ≤ fp := by
  obtain ⟨a, N, hn, ha, hNdef⟩ : ∃ a N, n = a + N ∧ n / 2 = a ∧ n - n / 2 = N := ⟨n / 2, n - n / 2, by omega, rfl, rfl⟩
  rw [hNdef]
  subst hn
  by_cases hN : N = 0
  · -- no samples at all
    have ha0 : a = 0 := by omega
    subst hN ha0
    have : {z : (Fin 0 → S) × (Fin 0 → S) | ∃ b, t.estimateLowerBound (List.ofFn z.1) (List.ofFn z.2) fp = .ok b ∧
        delta + (1 + exp t.epsilon) * (t.cutoff - ⌊t.cutoff * (0 : ℕ)⌋₊ / (0 : ℕ)) ≤ b} = ∅ := by
      rw [Set.eq_empty_iff_forall_notMem]
      rintro ⟨x, y⟩ ⟨b, hb, -⟩
      simp [estimateLowerBound, split, divergenceOnSamples, inputs] at hb
    exact (le_of_eq (by rw [this, measureReal_empty])).trans hf0.le
  have hN0 : 0 < N := Nat.pos_of_ne_zero hN
  have hN' : (0 : ℝ) < N := by exact_mod_cast hN0
  set c := t.cutoff with hc
  set m := ⌊c * N⌋₊ with hm
  have hu := exp_pos t.epsilon
  have hc0 : 0 ≤ c := by rw [hc]; unfold cutoff; positivity
  have hc1 : c ≤ 1 := by
    rw [hc]; unfold cutoff
    rw [div_le_one (by positivity)]
    linarith
  have hmN : m ≤ N := Nat.floor_le_of_le (mul_le_of_le_one_left hN'.le hc1)
  have hmc : (m : ℝ) / N ≤ c := by
    rw [div_le_iff₀ hN']
    exact Nat.floor_le (by positivity)
  set s := √(log (1 / (1 - (1 - fp))) / 2 / N) with hs
  have hs0 : 0 ≤ s := Real.sqrt_nonneg _
  have hs2 : exp (-(2 * N * s ^ 2)) = fp := by
    have e : 1 - (1 - fp) = fp := by ring
    have hlog : 0 ≤ log (1 / fp) := log_nonneg (by rw [le_div_iff₀ hf0]; linarith)
    rw [hs, e, Real.sq_sqrt (by positivity)]
    have : 2 * (N : ℝ) * (log (1 / fp) / 2 / N) = log (1 / fp) := by field_simp
    rw [this, exp_neg, exp_log (by positivity), one_div, inv_inv]
  set thr := delta + (1 + exp t.epsilon) * (c - m / N) with hthr
  -- the event, in terms of the split samples
  let g : (Fin a → S) × (Fin a → S) → S → Bool := fun w => t.train (List.ofFn w.1) (List.ofFn w.2)
  have hg : Measurable fun z : ((Fin a → S) × (Fin a → S)) × S => g z.1 z.2 := ht a a
  let F : Set (((Fin a → S) × (Fin a → S)) × ((Fin N → S) × (Fin N → S))) :=
    {z | thr ≤ (right0 (g z.1) m z.2.1 + right1 (g z.1) m z.2.2 - s) * (1 + exp t.epsilon) - exp t.epsilon}
  have hF : MeasurableSet F := by
    refine measurableSet_le measurable_const ?_
    have m0 : Measurable fun z : ((Fin a → S) × (Fin a → S)) × ((Fin N → S) × (Fin N → S)) => right0 (g z.1) m z.2.1 :=
      (measurable_right0 hg m N).comp (measurable_fst.prodMk (measurable_fst.comp measurable_snd))
    have m1 : Measurable fun z : ((Fin a → S) × (Fin a → S)) × ((Fin N → S) × (Fin N → S)) => right1 (g z.1) m z.2.2 :=
      (measurable_right1 hg m N).comp (measurable_fst.prodMk (measurable_snd.comp measurable_snd))
    exact (((m0.add m1).sub_const s).mul_const _).sub_const _
  have hpres := (preserving_middle (Measure.pi fun _ : Fin a => P) (Measure.pi fun _ : Fin N => P) (Measure.pi fun _ : Fin a => Q)
    (Measure.pi fun _ : Fin N => Q)).comp ((preserving_split P a N).prod (preserving_split Q a N))
  have hsub : {z : (Fin (a + N) → S) × (Fin (a + N) → S) | ∃ b, t.estimateLowerBound (List.ofFn z.1) (List.ofFn z.2) fp = .ok b ∧ thr ≤ b} ⊆
      (fun z : (Fin (a + N) → S) × (Fin (a + N) → S) =>
        (((fun i => z.1 (Fin.castAdd N i)), fun i => z.2 (Fin.castAdd N i)), ((fun j => z.1 (Fin.natAdd a j)), fun j => z.2 (Fin.natAdd a j)))) ⁻¹' F := by
    rintro ⟨x, y⟩ ⟨b, hb, hle⟩
    have hsplit : ∀ w : Fin (a + N) → S, Testers.split (List.ofFn w) = .error .valueError ∨ Testers.split (List.ofFn w) =
        .ok (List.ofFn fun i => w (Fin.castAdd N i), List.ofFn fun j => w (Fin.natAdd a j)) := by
      intro w
      unfold Testers.split
      rw [List.length_ofFn]
      by_cases h1 : a + N = 1
      · left; simp [h1]
      · right
        rw [if_neg h1, ha]
        have e : List.ofFn w = (List.ofFn fun i => w (Fin.castAdd N i)) ++ List.ofFn fun j => w (Fin.natAdd a j) := List.ofFn_add
        rw [e, List.take_left' (by simp), List.drop_left' (by simp)]
    unfold estimateLowerBound at hb
    rcases hsplit x with h1 | h1
    · rw [h1] at hb; cases hb
    rcases hsplit y with h2 | h2
    · rw [h1, h2] at hb; cases hb
    rw [h1, h2] at hb
    simp only at hb
    unfold divergenceOnSamples at hb
    dsimp only at hb
    rw [inputs_length t (N := N) _ _ (by simp) (by simp), if_neg hN, if_neg hf0.ne', accuracy_eq] at hb
    have hb := Except.ok.inj hb
    simp only [List.length_ofFn, min_self] at hb
    show thr ≤ _
    rw [hs]
    rw [← hb] at hle
    unfold confidenceBound at hle
    rw [one_mul] at hle
    exact hle
  unfold Spec.independentSamples
  refine (measureReal_mono hsub).trans ?_
  have hmp := hpres.measureReal_preimage hF.nullMeasurableSet
  refine (le_of_eq hmp).trans (real_prod_le hF hf0.le fun w => ?_)
  have hgw : Measurable (g w) := hg.comp (measurable_const.prodMk measurable_id)
  refine le_trans (measureReal_mono fun z hz => ?_) ((accuracy_tail P Q hgw hN0 hmN hs0).trans hs2.le)
  have hz' : thr ≤ (right0 (g w) m z.1 + right1 (g w) m z.2 - s) * (1 + exp t.epsilon) - exp t.epsilon := hz
  have hmean := mean_le hi hgw (r := m / N) hmc
  have hmean' : _ ≤ thr := hmean
  simp only [Set.mem_ofPred_eq]
  have : 0 < 1 + exp t.epsilon := by linarith
  by_contra hcon
  rw [not_le] at hcon
  have := mul_lt_mul_of_pos_right hcon this
  nlinarith

end Sound

end Verif.Testers.HockeyStickTester
