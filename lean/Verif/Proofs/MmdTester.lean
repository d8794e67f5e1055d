import Verif.Proofs.MmdMean
import Verif.Proofs.Bernstein
import Verif.Model.MmdTester
import Verif.Spec.Testers

/-!
# The MMD tester
-/

namespace Verif.Testers.MmdTester

open MeasureTheory Real Spec

/-! ### Independent groups of samples -/

section Reindex

variable {S : Type*} [MeasurableSpace S]

theorem preserving_reindex {ι κ : Type*} [Fintype ι] [Fintype κ] (P : Measure S) [IsProbabilityMeasure P] (e : ι → κ)
    (he : Function.Injective e) :
    MeasurePreserving (fun (x : κ → S) i => x (e i)) (Measure.pi fun _ => P) (Measure.pi fun _ => P) := by
  classical
  have hm : Measurable fun (x : κ → S) i => x (e i) := by fun_prop
  refine ⟨hm, (Measure.pi_eq fun s hs => ?_).symm⟩
  rw [Measure.map_apply hm (MeasurableSet.univ_pi hs)]
  let t : κ → Set S := fun j => if h : ∃ i, e i = j then s h.choose else Set.univ
  have ht : ∀ i, t (e i) = s i := fun i => by
    have h : ∃ i', e i' = e i := ⟨i, rfl⟩
    simp only [t]
    rw [dif_pos h]
    congr 1
    exact he h.choose_spec
  have hpre : (fun (x : κ → S) i => x (e i)) ⁻¹' Set.univ.pi s = Set.univ.pi t := by
    ext x
    simp only [Set.mem_preimage, Set.mem_pi, Set.mem_univ, true_imp_iff]
    constructor
    · intro hx j
      by_cases h : ∃ i, e i = j
      · obtain ⟨i, rfl⟩ := h
        rw [ht]
        exact hx i
      · simp only [t]
        rw [dif_neg h]
        trivial
    · intro hx i
      rw [← ht]
      exact hx _
  rw [hpre, Measure.pi_pi]
  refine (Fintype.prod_of_injective e he (fun i => P (s i)) (fun j => P (t j)) (fun j hj => ?_) fun i => by rw [ht]).symm
  have : ¬∃ i, e i = j := hj
  simp only [t]
  rw [dif_neg this]
  exact measure_univ

theorem preserving_pairs {n N : ℕ} (P : Measure S) [IsProbabilityMeasure P] (a b : Fin n → Fin N) (ha : Function.Injective a)
    (hb : Function.Injective b) (hab : ∀ i j, a i ≠ b j) :
    MeasurePreserving (fun (x : Fin N → S) i => (x (a i), x (b i))) (Measure.pi fun _ => P) (Measure.pi fun _ : Fin n => P.prod P) := by
  have h1 := preserving_reindex P (Sum.elim a b) (ha.sumElim hb hab)
  have h2 := measurePreserving_sumPiEquivProdPi (ι := Fin n) (ι' := Fin n) (X := fun _ => S) (fun _ => P)
  have h3 := (measurePreserving_arrowProdEquivProdArrow S S (Fin n) (fun _ => P) (fun _ => P)).symm
  exact h3.comp (h2.comp h1)

theorem preserving_quads {n N M : ℕ} (P Q : Measure S) [IsProbabilityMeasure P] [IsProbabilityMeasure Q] (a b : Fin n → Fin N)
    (ha : Function.Injective a) (hb : Function.Injective b) (hab : ∀ i j, a i ≠ b j) (c d : Fin n → Fin M) (hc : Function.Injective c)
    (hd : Function.Injective d) (hcd : ∀ i j, c i ≠ d j) :
    MeasurePreserving (fun (z : (Fin N → S) × (Fin M → S)) i => ((z.1 (a i), z.1 (b i)), (z.2 (c i), z.2 (d i))))
      (independentSamples P Q N M) (Measure.pi fun _ : Fin n => (P.prod P).prod (Q.prod Q)) := by
  have h1 := (preserving_pairs P a b ha hb hab).prod (preserving_pairs Q c d hc hd hcd)
  have h3 := (measurePreserving_arrowProdEquivProdArrow (S × S) (S × S) (Fin n) (fun _ => P.prod P) (fun _ => Q.prod Q)).symm
  exact h3.comp h1

end Reindex

/-! ### The values of the pairwise kernel function -/

section Values

variable {S : Type} (t : MmdTester S)

/-- The pairwise kernel function on quadruples. -/
def quad (q : (S × S) × (S × S)) : ℝ := t.pairwise q.1.1 q.1.2 q.2.1 q.2.2

theorem split_ofFn {N : ℕ} (x : Fin N → S) : Testers.split (List.ofFn x) =
    if N = 1 then .error .valueError else .ok ((List.ofFn x).take (N / 2), (List.ofFn x).drop (N / 2)) := by
  unfold Testers.split
  rw [List.length_ofFn]

/-- The quadruple with index `i`. -/
def group {N M : ℕ} (z : (Fin N → S) × (Fin M → S)) (i : Fin (min (N / 2) (M / 2))) : (S × S) × (S × S) :=
  ((z.1 ⟨i, by omega⟩, z.1 ⟨N / 2 + i, by omega⟩), (z.2 ⟨i, by omega⟩, z.2 ⟨M / 2 + i, by omega⟩))

theorem estimate_eq {N M : ℕ} (hN : N ≠ 1) (hM : M ≠ 1) (z : (Fin N → S) × (Fin M → S)) (fp : ℝ) :
    t.estimateLowerBound (List.ofFn z.1) (List.ofFn z.2) fp =
      t.fromValues (List.ofFn fun i => t.quad (group z i)) (min (N / 2) (M / 2)) fp := by
  unfold estimateLowerBound
  rw [split_ofFn, split_ofFn, if_neg hN, if_neg hM]
  simp only []
  congr 1
  · refine List.ext_getElem ?_ fun i h1 h2 => ?_
    · simp only [List.length_map, List.length_zip, List.length_take, List.length_drop, List.length_ofFn]
      omega
    · simp [quad, group]
  · simp only [List.length_take, List.length_drop, List.length_ofFn]
    omega

theorem estimate_one {N M : ℕ} (h : N = 1 ∨ M = 1) (z : (Fin N → S) × (Fin M → S)) (fp : ℝ) :
    t.estimateLowerBound (List.ofFn z.1) (List.ofFn z.2) fp = .error .valueError := by
  unfold estimateLowerBound
  rw [split_ofFn, split_ofFn]
  by_cases hN : N = 1
  · rw [if_pos hN]
  · rw [if_neg hN, if_pos (h.resolve_left hN)]

/-- The first error tolerance. -/
noncomputable def tol0 (n : ℕ) (fp : ℝ) : ℝ := √(8 * log (1 / fp) / n)

/-- The second error tolerance. -/
noncomputable def tol1 {n : ℕ} (v : Fin n → ℝ) (fp : ℝ) : ℝ :=
  √(2 * Bernstein.sampleVariance v * log (2 / fp) / n) + 28 * log (2 / fp) / (3 * ((n : ℝ) - 1))

theorem fromValues_eq {n : ℕ} (hn : n ≠ 0) {fp : ℝ} (hfp : fp ≠ 0) (v : Fin n → ℝ) : t.fromValues (List.ofFn v) n fp =
    .ok (max (t.boundOf ((∑ i, v i) / n) (tol0 n fp))
      (if n = 1 then t.boundOfInf else t.boundOf ((∑ i, v i) / n) (tol1 v fp))) := by
  unfold fromValues
  simp only [if_neg hn, if_neg hfp, List.map_ofFn, List.sum_ofFn]
  rfl

variable {t}

theorem lt_of_boundOf {m tol delta : ℝ} (he : 0 < t.epsilon) (hd : 0 ≤ delta) (h : delta < t.boundOf m tol) :
    mmdBound t.epsilon delta < m - tol := by
  have hu : 1 < exp t.epsilon := Real.one_lt_exp_iff.2 he
  have hv : exp (-t.epsilon) < 1 := Real.exp_lt_one_iff.2 (by linarith)
  have hv0 := exp_pos (-t.epsilon)
  unfold boundOf at h
  unfold mmdBound
  set A := exp t.epsilon - exp (-t.epsilon) with hA
  set B := 1 + exp (-t.epsilon) with hB
  set C := exp t.epsilon - 1 with hC
  have hA0 : 0 < A := by linarith
  have hB0 : 0 < B := by linarith
  rw [lt_div_iff₀ hB0] at h
  have h1 : delta * B + A < √(max 0 (A ^ 2 + B * (m - tol - C ^ 2))) := by linarith
  have h2 := (Real.lt_sqrt (by positivity)).1 h1
  rcases lt_max_iff.1 h2 with h3 | h3
  · nlinarith [sq_nonneg (delta * B + A)]
  · have h4 : B * (C ^ 2 + 2 * A * delta + B * delta ^ 2) < B * (m - tol) := by nlinarith
    exact lt_of_mul_lt_mul_left h4 hB0.le

theorem boundOfInf_nonpos (he : 0 < t.epsilon) : t.boundOfInf ≤ 0 := by
  have hu : 1 < exp t.epsilon := Real.one_lt_exp_iff.2 he
  have hv : exp (-t.epsilon) < 1 := Real.exp_lt_one_iff.2 (by linarith)
  have hv0 := exp_pos (-t.epsilon)
  unfold boundOfInf
  rw [Real.sqrt_zero]
  exact div_nonpos_of_nonpos_of_nonneg (by linarith) (by linarith)

/-- The first bound inverts the polynomial. -/
theorem le_of_boundOf (he : 0 < t.epsilon) {m tol b : ℝ} (h : t.boundOf m tol ≤ b) : m - tol ≤ mmdBound t.epsilon b := by
  have hu : 1 < exp t.epsilon := Real.one_lt_exp_iff.2 he
  have hv : exp (-t.epsilon) < 1 := Real.exp_lt_one_iff.2 (by linarith)
  have hv0 := exp_pos (-t.epsilon)
  unfold boundOf at h
  unfold mmdBound
  set A := exp t.epsilon - exp (-t.epsilon) with hA
  set B := 1 + exp (-t.epsilon) with hB
  set C := exp t.epsilon - 1 with hC
  have hB0 : 0 < B := by linarith
  rw [div_le_iff₀ hB0] at h
  have h1 : √(max 0 (A ^ 2 + B * (m - tol - C ^ 2))) ≤ b * B + A := by linarith
  have h2 := (Real.sqrt_le_iff.1 h1).2
  have h3 := (le_max_right _ _).trans h2
  have h4 : B * (m - tol) ≤ B * (C ^ 2 + 2 * A * b + B * b ^ 2) := by nlinarith
  exact le_of_mul_le_mul_left h4 hB0

end Values

/-! ### Concentration -/

section Concentration

variable {S : Type} [MeasurableSpace S] {t : MmdTester S}

/-- What the theorems need of the kernel. -/
structure GoodKernel (k : S → S → ℝ) : Prop where
  measurable : Measurable fun p : S × S => k p.1 p.2
  nonneg : ∀ x y, 0 ≤ k x y
  le_one : ∀ x y, k x y ≤ 1
  symm : ∀ x y, k x y = k y x

theorem quad_measurable (hk : GoodKernel t.kernel) : Measurable t.quad := by
  unfold quad pairwise
  have h1 : Measurable fun q : (S × S) × (S × S) => t.kernel q.1.1 q.1.2 := hk.measurable.comp measurable_fst
  have h2 : Measurable fun q : (S × S) × (S × S) => t.kernel q.1.1 q.2.1 :=
    hk.measurable.comp ((measurable_fst.comp measurable_fst).prodMk (measurable_fst.comp measurable_snd))
  have h3 : Measurable fun q : (S × S) × (S × S) => t.kernel q.2.1 q.2.2 := hk.measurable.comp measurable_snd
  exact (h1.sub (h2.const_mul 2)).add h3

theorem quad_bounds (hk : GoodKernel t.kernel) (q : (S × S) × (S × S)) : -2 ≤ t.quad q ∧ t.quad q ≤ 2 := by
  unfold quad pairwise
  constructor <;> linarith [hk.nonneg q.1.1 q.1.2, hk.nonneg q.1.1 q.2.1, hk.nonneg q.2.1 q.2.2, hk.le_one q.1.1 q.1.2,
    hk.le_one q.1.1 q.2.1, hk.le_one q.2.1 q.2.2]

theorem integral_quad (hk : GoodKernel t.kernel) (P Q : Measure S) [IsProbabilityMeasure P] [IsProbabilityMeasure Q] :
    ∫ q, t.quad q ∂((P.prod P).prod (Q.prod Q)) = mmdSq t.kernel P Q := by
  have kb : ∀ x y, |t.kernel x y| ≤ 1 := fun x y => abs_le.2 ⟨by linarith [hk.nonneg x y], hk.le_one x y⟩
  have h1 : Measurable fun q : (S × S) × (S × S) => t.kernel q.1.1 q.1.2 := hk.measurable.comp measurable_fst
  have h2 : Measurable fun q : (S × S) × (S × S) => t.kernel q.1.1 q.2.1 :=
    hk.measurable.comp ((measurable_fst.comp measurable_fst).prodMk (measurable_fst.comp measurable_snd))
  have h3 : Measurable fun q : (S × S) × (S × S) => t.kernel q.2.1 q.2.2 := hk.measurable.comp measurable_snd
  have i1 := integrable_bdd (μ := (P.prod P).prod (Q.prod Q)) h1 fun q => kb _ _
  have i2 := integrable_bdd (μ := (P.prod P).prod (Q.prod Q)) h2 fun q => kb _ _
  have i3 := integrable_bdd (μ := (P.prod P).prod (Q.prod Q)) h3 fun q => kb _ _
  have hint : ∀ R R' : Measure S, IsProbabilityMeasure R → IsProbabilityMeasure R' →
      ∫ p : S × S, t.kernel p.1 p.2 ∂(R.prod R') = ∫ x, ∫ y, t.kernel x y ∂R' ∂R := fun R R' _ _ =>
    integral_prod _ (integrable_bdd hk.measurable fun p => kb p.1 p.2)
  have e1 : ∫ q : (S × S) × (S × S), t.kernel q.1.1 q.1.2 ∂((P.prod P).prod (Q.prod Q)) = ∫ x, ∫ x', t.kernel x x' ∂P ∂P := by
    rw [← hint P P inferInstance inferInstance, integral_fun_fst (f := fun p : S × S => t.kernel p.1 p.2)]
    simp
  have e3 : ∫ q : (S × S) × (S × S), t.kernel q.2.1 q.2.2 ∂((P.prod P).prod (Q.prod Q)) = ∫ x, ∫ x', t.kernel x x' ∂Q ∂Q := by
    rw [← hint Q Q inferInstance inferInstance, integral_fun_snd (f := fun p : S × S => t.kernel p.1 p.2)]
    simp
  have e2 : ∫ q : (S × S) × (S × S), t.kernel q.1.1 q.2.1 ∂((P.prod P).prod (Q.prod Q)) = ∫ x, ∫ y, t.kernel x y ∂Q ∂P := by
    have hp : MeasurePreserving (fun q : (S × S) × (S × S) => (q.1.1, q.2.1)) ((P.prod P).prod (Q.prod Q)) (P.prod Q) :=
      (measurePreserving_fst (μ := P) (ν := P)).prod (measurePreserving_fst (μ := Q) (ν := Q))
    rw [← hint P Q inferInstance inferInstance, ← hp.map_eq, integral_map hp.measurable.aemeasurable]
    exact hk.measurable.aestronglyMeasurable
  unfold quad pairwise mmdSq
  have a1 : ∫ q : (S × S) × (S × S), (t.kernel q.1.1 q.1.2 - 2 * t.kernel q.1.1 q.2.1 + t.kernel q.2.1 q.2.2) ∂((P.prod P).prod (Q.prod Q)) =
      ∫ q : (S × S) × (S × S), (t.kernel q.1.1 q.1.2 - 2 * t.kernel q.1.1 q.2.1) ∂((P.prod P).prod (Q.prod Q)) +
        ∫ q : (S × S) × (S × S), t.kernel q.2.1 q.2.2 ∂((P.prod P).prod (Q.prod Q)) := integral_add (i1.sub (i2.const_mul 2)) i3
  rw [a1, integral_sub i1 (i2.const_mul 2), integral_const_mul, e1, e2, e3]

theorem mean_subG {T : Type*} [MeasurableSpace T] (μ : Measure T) [IsProbabilityMeasure μ] {f : T → ℝ} (hf : Measurable f)
    (hb : ∀ x, -2 ≤ f x ∧ f x ≤ 2) {n : ℕ} (hn : n ≠ 0) :
    SubG (Measure.pi fun _ : Fin n => μ) (fun z => (∑ i, f (z i)) / n) (4 / n) ∧
      ∫ z, (∑ i, f (z i)) / n ∂(Measure.pi fun _ : Fin n => μ) = ∫ x, f x ∂μ := by
  have hn0 : (0 : ℝ) < n := by exact_mod_cast Nat.pos_of_ne_zero hn
  have hab : ∀ x, |f x| ≤ 2 := fun x => abs_le.2 (hb x)
  constructor
  · have hB : ∀ z : Fin n → T, |(∑ i, f (z i)) / n| ≤ 2 := fun z => by
      rw [abs_div, abs_of_pos hn0, div_le_iff₀ hn0]
      calc |∑ i, f (z i)| ≤ ∑ i, |f (z i)| := Finset.abs_sum_le_sum_abs _ _
        _ ≤ ∑ _i : Fin n, (2 : ℝ) := Finset.sum_le_sum fun i _ => hab _
        _ = 2 * n := by simp [mul_comm]
    have := SubG.pi μ (c := 4 / n) n (fun z => (∑ i, f (z i)) / n) (by fun_prop) ⟨2, hB⟩ fun x i a => by
      rw [← sub_div, ← Finset.sum_sub_distrib, Finset.sum_eq_single i]
      · rw [Function.update_self]
        exact div_le_div_of_nonneg_right (by linarith [(hb a).2, (hb (x i)).1]) hn0.le
      · intro j _ hj
        rw [Function.update_of_ne hj, sub_self]
      · intro h
        exact absurd (Finset.mem_univ i) h
    have e : (n : ℝ) * ((4 / n) ^ 2 / 4) = 4 / n := by
      field_simp
    rwa [e] at this
  · rw [integral_div, integral_finsetSum]
    · have : ∀ i : Fin n, ∫ z : Fin n → T, f (z i) ∂(Measure.pi fun _ : Fin n => μ) = ∫ x, f x ∂μ := fun i => by
        have hp := measurePreserving_eval (fun _ : Fin n => μ) i
        conv_rhs => rw [← hp.map_eq]
        rw [integral_map hp.measurable.aemeasurable hf.aestronglyMeasurable]
      simp_rw [this]
      simp only [Finset.sum_const, Finset.card_univ, Fintype.card_fin, nsmul_eq_mul]
      field_simp
    · intro i _
      exact integrable_bdd (hf.comp (measurable_pi_apply i)) fun z => hab _

/-- The first tolerance: `fp` is the probability in Hoeffding's inequality. -/
theorem tol0_exp {n : ℕ} (hn : n ≠ 0) {fp : ℝ} (hf0 : 0 < fp) (hf1 : fp ≤ 1) : exp (-tol0 n fp ^ 2 / (2 * (4 / n))) = fp := by
  have hn0 : (0 : ℝ) < n := by exact_mod_cast Nat.pos_of_ne_zero hn
  have hlog : 0 ≤ log (1 / fp) := log_nonneg (by rw [le_div_iff₀ hf0]; linarith)
  unfold tol0
  rw [Real.sq_sqrt (by positivity), show -(8 * log (1 / fp) / n) / (2 * (4 / n)) = -log (1 / fp) by field_simp; ring, exp_neg,
    exp_log (by positivity), one_div, inv_inv]

theorem group_preserving {N M : ℕ} (P Q : Measure S) [IsProbabilityMeasure P] [IsProbabilityMeasure Q] :
    MeasurePreserving (fun z : (Fin N → S) × (Fin M → S) => group z) (independentSamples P Q N M)
      (Measure.pi fun _ => (P.prod P).prod (Q.prod Q)) := by
  refine preserving_quads P Q _ _ ?_ ?_ ?_ _ _ ?_ ?_ ?_
  · intro i j h
    simp only [Fin.mk.injEq] at h
    exact Fin.ext h
  · intro i j h
    simp only [Fin.mk.injEq] at h
    exact Fin.ext (by omega)
  · intro i j h
    simp only [Fin.mk.injEq] at h
    omega
  · intro i j h
    simp only [Fin.mk.injEq] at h
    exact Fin.ext h
  · intro i j h
    simp only [Fin.mk.injEq] at h
    exact Fin.ext (by omega)
  · intro i j h
    simp only [Fin.mk.injEq] at h
    omega

/-- The events in which one of the tolerances is exceeded. -/
def fails0 (t : MmdTester S) (m fp : ℝ) (n : ℕ) : Set (Fin n → (S × S) × (S × S)) := {q | m + tol0 n fp ≤ (∑ i, t.quad (q i)) / n}

def fails1 (t : MmdTester S) (m fp : ℝ) (n : ℕ) : Set (Fin n → (S × S) × (S × S)) :=
  {q | 2 ≤ n ∧ tol1 (fun i => t.quad (q i)) fp ≤ (∑ i, t.quad (q i)) / n - m}

theorem measurableSet_fails0 (hk : GoodKernel t.kernel) (m fp : ℝ) (n : ℕ) : MeasurableSet (fails0 t m fp n) := by
  have := quad_measurable hk
  exact measurableSet_le measurable_const (by fun_prop)

theorem measurableSet_fails1 (hk : GoodKernel t.kernel) (m fp : ℝ) (n : ℕ) : MeasurableSet (fails1 t m fp n) := by
  have := quad_measurable hk
  have h1 : Measurable fun q : Fin n → (S × S) × (S × S) => tol1 (fun i => t.quad (q i)) fp := by
    unfold tol1 Bernstein.sampleVariance
    fun_prop
  have h2 : Measurable fun q : Fin n → (S × S) × (S × S) => (∑ i, t.quad (q i)) / n - m := by fun_prop
  exact MeasurableSet.inter (MeasurableSet.const _) (measurableSet_le h1 h2)

theorem fails0_le (hk : GoodKernel t.kernel) (P Q : Measure S) [IsProbabilityMeasure P] [IsProbabilityMeasure Q] {n : ℕ} (hn : n ≠ 0)
    {fp : ℝ} (hf0 : 0 < fp) (hf1 : fp ≤ 1) :
    (Measure.pi fun _ : Fin n => (P.prod P).prod (Q.prod Q)).real (fails0 t (mmdSq t.kernel P Q) fp n) ≤ fp := by
  obtain ⟨h1, h2⟩ := mean_subG ((P.prod P).prod (Q.prod Q)) (quad_measurable hk) (quad_bounds hk) hn
  have h3 := h1.tail (by positivity) (t := tol0 n fp) (Real.sqrt_nonneg _)
  rw [h2, integral_quad hk, tol0_exp hn hf0 hf1] at h3
  exact h3

theorem fails1_le (hk : GoodKernel t.kernel) (P Q : Measure S) [IsProbabilityMeasure P] [IsProbabilityMeasure Q] (n : ℕ)
    {fp : ℝ} (hf0 : 0 < fp) (hf1 : fp ≤ 1) :
    (Measure.pi fun _ : Fin n => (P.prod P).prod (Q.prod Q)).real (fails1 t (mmdSq t.kernel P Q) fp n) ≤
      2 * (fp / 2) ^ (3 * n / (3 * n + 7 * log (2 / fp)) : ℝ) := by
  by_cases hn : 2 ≤ n
  · have hL : 0 < log (2 / fp) := log_pos (by rw [lt_div_iff₀ hf0]; linarith)
    have hm := integral_quad hk P Q
    have hq := quad_bounds hk
    have hmb : -2 ≤ mmdSq t.kernel P Q ∧ mmdSq t.kernel P Q ≤ 2 := by
      rw [← hm]
      exact abs_le.1 (abs_integral_le fun q => abs_le.2 (hq q))
    have := Bernstein.empirical ((P.prod P).prod (Q.prod Q)) (quad_measurable hk) hm (R := 4) (fun q => abs_le.2
      ⟨by linarith [(hq q).1], by linarith [(hq q).2]⟩) (by norm_num) hn hL
    have e : exp (-(3 * n / (3 * n + 7 * log (2 / fp)) * log (2 / fp))) = (fp / 2) ^ (3 * n / (3 * n + 7 * log (2 / fp)) : ℝ) := by
      rw [rpow_def_of_pos (by positivity), show fp / 2 = (2 / fp)⁻¹ by rw [inv_div], log_inv]
      congr 1
      ring
    rw [e] at this
    refine (measureReal_mono fun q hq => ?_).trans this
    have := hq.2
    unfold tol1 at this
    simp only [Set.mem_ofPred_eq]
    rw [show (7 : ℝ) * 4 * log (2 / fp) = 28 * log (2 / fp) by ring]
    exact this
  · have : fails1 t (mmdSq t.kernel P Q) fp n = ∅ := by
      rw [Set.eq_empty_iff_forall_notMem]
      exact fun q hq => hn hq.1
    rw [this, measureReal_empty]
    positivity

/-- If the returned bound is above `delta`, one of the tolerances is exceeded. -/
theorem fails_of_returned {P Q : Measure S} [IsProbabilityMeasure P] [IsProbabilityMeasure Q] (hk : GoodKernel t.kernel)
    (he : 0 < t.epsilon) {delta : ℝ} (hd : 0 ≤ delta) (h : Indist P Q t.epsilon delta) (h' : Indist Q P t.epsilon delta) {N M : ℕ}
    (z : (Fin N → S) × (Fin M → S)) {fp b : ℝ} (hf0 : 0 < fp)
    (hb : t.estimateLowerBound (List.ofFn z.1) (List.ofFn z.2) fp = .ok b) (hlt : delta < b) :
    min (N / 2) (M / 2) ≠ 0 ∧ (group z ∈ fails0 t (mmdSq t.kernel P Q) fp _ ∨ group z ∈ fails1 t (mmdSq t.kernel P Q) fp _) := by
  have hm : mmdSq t.kernel P Q ≤ mmdBound t.epsilon delta :=
    (Mmd.mmdSq_le he hd h h' hk.measurable hk.nonneg hk.le_one hk.symm).trans (Mmd.tau_le he hd)
  by_cases h1 : N = 1 ∨ M = 1
  · rw [estimate_one t h1] at hb
    cases hb
  rw [not_or] at h1
  rw [estimate_eq t h1.1 h1.2] at hb
  have hn : min (N / 2) (M / 2) ≠ 0 := by
    intro hn
    unfold fromValues at hb
    simp only [if_pos hn] at hb
    cases hb
  refine ⟨hn, ?_⟩
  rw [fromValues_eq t hn hf0.ne'] at hb
  have hb := Except.ok.inj hb
  rw [← hb] at hlt
  rcases lt_max_iff.1 hlt with h2 | h2
  · left
    have := lt_of_boundOf he hd h2
    show mmdSq t.kernel P Q + tol0 _ fp ≤ _
    linarith
  · right
    by_cases hone : min (N / 2) (M / 2) = 1
    · rw [if_pos hone] at h2
      linarith [boundOfInf_nonpos he]
    · rw [if_neg hone] at h2
      have := lt_of_boundOf he hd h2
      refine ⟨by omega, ?_⟩
      linarith

theorem sound {P Q : Measure S} [IsProbabilityMeasure P] [IsProbabilityMeasure Q] (hk : GoodKernel t.kernel) (he : 0 < t.epsilon)
    {delta : ℝ} (hd : 0 ≤ delta) (h : Indist P Q t.epsilon delta) (h' : Indist Q P t.epsilon delta) (N M : ℕ) {fp : ℝ} (hf0 : 0 < fp)
    (hf1 : fp ≤ 1) :
    (independentSamples P Q N M).real {z | ∃ b, t.estimateLowerBound (List.ofFn z.1) (List.ofFn z.2) fp = .ok b ∧ delta < b} ≤
      fp + 2 * (fp / 2) ^ (3 * (min (N / 2) (M / 2) : ℕ) / (3 * (min (N / 2) (M / 2) : ℕ) + 7 * log (2 / fp)) : ℝ) := by
  have : IsProbabilityMeasure (independentSamples P Q N M) := by unfold independentSamples; infer_instance
  by_cases hn : min (N / 2) (M / 2) = 0
  · have : {z : (Fin N → S) × (Fin M → S) | ∃ b, t.estimateLowerBound (List.ofFn z.1) (List.ofFn z.2) fp = .ok b ∧ delta < b} = ∅ := by
      rw [Set.eq_empty_iff_forall_notMem]
      rintro z ⟨b, hb, hlt⟩
      exact (fails_of_returned hk he hd h h' z hf0 hb hlt).1 hn
    rw [this, measureReal_empty]
    positivity
  have hp := group_preserving (N := N) (M := M) P Q
  have m0 := measurableSet_fails0 hk (mmdSq t.kernel P Q) fp (min (N / 2) (M / 2))
  have m1 := measurableSet_fails1 hk (mmdSq t.kernel P Q) fp (min (N / 2) (M / 2))
  have e := hp.measureReal_preimage (m0.union m1).nullMeasurableSet
  refine (measureReal_mono (s₂ := group ⁻¹' (fails0 t (mmdSq t.kernel P Q) fp (min (N / 2) (M / 2)) ∪
    fails1 t (mmdSq t.kernel P Q) fp (min (N / 2) (M / 2)))) ?_).trans ((le_of_eq e).trans ((measureReal_union_le _ _).trans
      (add_le_add (fails0_le hk P Q hn hf0 hf1) (fails1_le hk P Q _ hf0 hf1))))
  rintro z ⟨b, hb, hlt⟩
  exact (fails_of_returned hk he hd h h' z hf0 hb hlt).2

/-- For few samples the second tolerance is not smaller than the first one. -/
theorem tol0_le_tol1 {n : ℕ} (hn : 2 ≤ n) {fp : ℝ} (hf0 : 0 < fp) (hf1 : fp ≤ 1) (hsmall : (n : ℝ) ≤ 1 + 10 * log (2 / fp)) (v : Fin n → ℝ) :
    tol0 n fp ≤ tol1 v fp := by
  have hn2 : (2 : ℝ) ≤ n := by exact_mod_cast hn
  have hlog : 0 ≤ log (1 / fp) := log_nonneg (by rw [le_div_iff₀ hf0]; linarith)
  have hle : log (1 / fp) ≤ log (2 / fp) := log_le_log (by positivity) (div_le_div_of_nonneg_right (by norm_num) hf0.le)
  unfold tol1 tol0
  refine le_trans ?_ (le_add_of_nonneg_left (Real.sqrt_nonneg _))
  set L := log (1 / fp) with hL
  set K := log (2 / fp) with hK
  have hK0 : 0 < K := by linarith
  rw [Real.sqrt_le_iff]
  refine ⟨div_nonneg (by linarith) (by linarith), ?_⟩
  rw [div_pow, div_le_div_iff₀ (by linarith) (by nlinarith)]
  have h1 : L * ((n : ℝ) - 1) ≤ K * (10 * K) := mul_le_mul hle (by linarith) (by linarith) hK0.le
  have h2 : L * ((n : ℝ) - 1) * (n - 1) ≤ K * (10 * K) * (n - 1) := mul_le_mul_of_nonneg_right h1 (by linarith)
  have h3 : 0 ≤ K * K * n := by positivity
  have h4 : 0 ≤ K * K := by positivity
  nlinarith

theorem sound_small {P Q : Measure S} [IsProbabilityMeasure P] [IsProbabilityMeasure Q] (hk : GoodKernel t.kernel) (he : 0 < t.epsilon)
    {delta : ℝ} (hd : 0 ≤ delta) (h : Indist P Q t.epsilon delta) (h' : Indist Q P t.epsilon delta) (N M : ℕ) {fp : ℝ} (hf0 : 0 < fp)
    (hf1 : fp ≤ 1) (hsmall : ((min (N / 2) (M / 2) : ℕ) : ℝ) ≤ 1 + 10 * log (2 / fp)) :
    (independentSamples P Q N M).real {z | ∃ b, t.estimateLowerBound (List.ofFn z.1) (List.ofFn z.2) fp = .ok b ∧ delta < b} ≤ fp := by
  have : IsProbabilityMeasure (independentSamples P Q N M) := by unfold independentSamples; infer_instance
  by_cases hn : min (N / 2) (M / 2) = 0
  · have : {z : (Fin N → S) × (Fin M → S) | ∃ b, t.estimateLowerBound (List.ofFn z.1) (List.ofFn z.2) fp = .ok b ∧ delta < b} = ∅ := by
      rw [Set.eq_empty_iff_forall_notMem]
      rintro z ⟨b, hb, hlt⟩
      exact (fails_of_returned hk he hd h h' z hf0 hb hlt).1 hn
    rw [this, measureReal_empty]
    exact hf0.le
  have hp := group_preserving (N := N) (M := M) P Q
  have m0 := measurableSet_fails0 hk (mmdSq t.kernel P Q) fp (min (N / 2) (M / 2))
  have e := hp.measureReal_preimage m0.nullMeasurableSet
  refine (measureReal_mono (s₂ := group ⁻¹' (fails0 t (mmdSq t.kernel P Q) fp (min (N / 2) (M / 2)))) ?_).trans ((le_of_eq e).trans
    (fails0_le hk P Q hn hf0 hf1))
  rintro z ⟨b, hb, hlt⟩
  rcases (fails_of_returned hk he hd h h' z hf0 hb hlt).2 with h0 | h0
  · exact h0
  · have h1 := h0.2
    have h2 := tol0_le_tol1 h0.1 hf0 hf1 hsmall fun i => t.quad (group z i)
    show mmdSq t.kernel P Q + tol0 _ fp ≤ _
    linarith

theorem power (P Q : Measure S) [IsProbabilityMeasure P] [IsProbabilityMeasure Q] (hk : GoodKernel t.kernel) (he : 0 < t.epsilon)
    {N M : ℕ} (hN : 2 ≤ N) (hM : 2 ≤ M) {fp : ℝ} (hf0 : 0 < fp) (hf1 : fp ≤ 1) :
    (independentSamples P Q N M).real {z | ¬∃ b, t.estimateLowerBound (List.ofFn z.1) (List.ofFn z.2) fp = .ok b ∧
      mmdSq t.kernel P Q - 2 * √(8 * log (1 / fp) / (min (N / 2) (M / 2) : ℕ)) ≤ mmdBound t.epsilon b} ≤ fp := by
  have : IsProbabilityMeasure (independentSamples P Q N M) := by unfold independentSamples; infer_instance
  have hn : min (N / 2) (M / 2) ≠ 0 := by omega
  have hp := group_preserving (N := N) (M := M) P Q
  have hq := quad_measurable hk
  have m0 : MeasurableSet {q : Fin (min (N / 2) (M / 2)) → (S × S) × (S × S) | (∑ i, t.quad (q i)) / (min (N / 2) (M / 2) : ℕ) ≤
      mmdSq t.kernel P Q - tol0 (min (N / 2) (M / 2)) fp} := measurableSet_le (by fun_prop) measurable_const
  have e := hp.measureReal_preimage m0.nullMeasurableSet
  obtain ⟨h1, h2⟩ := mean_subG ((P.prod P).prod (Q.prod Q)) (quad_measurable hk) (quad_bounds hk) hn
  have h3 := h1.tail_neg (by positivity) (t := tol0 (min (N / 2) (M / 2)) fp) (Real.sqrt_nonneg _)
  rw [h2, integral_quad hk, tol0_exp hn hf0 hf1] at h3
  refine (measureReal_mono (fun z hz => ?_)).trans ((le_of_eq e).trans h3)
  simp only [Set.mem_ofPred_eq, Set.mem_preimage] at hz ⊢
  by_contra hcon
  rw [not_le] at hcon
  refine hz ⟨_, by rw [estimate_eq t (by omega) (by omega), fromValues_eq t hn hf0.ne'], ?_⟩
  have := le_of_boundOf he (le_max_left (t.boundOf ((∑ i, t.quad (group z i)) / (min (N / 2) (M / 2) : ℕ)) (tol0 (min (N / 2) (M / 2)) fp))
    (if min (N / 2) (M / 2) = 1 then t.boundOfInf else
      t.boundOf ((∑ i, t.quad (group z i)) / (min (N / 2) (M / 2) : ℕ)) (tol1 (fun i => t.quad (group z i)) fp)))
  refine le_trans ?_ this
  unfold tol0 at hcon ⊢
  linarith

end Concentration

/-! ### The two kernels -/

theorem rbf_good {d : ℕ} {bandwidth : ℝ} (hb : 0 ≤ bandwidth) : GoodKernel (rbfKernel (d := d) bandwidth) where
  measurable := by unfold rbfKernel; fun_prop
  nonneg x y := (exp_pos _).le
  le_one x y := exp_le_one_iff.2 (by
    rw [neg_mul, neg_nonpos]
    positivity)
  symm x y := by
    unfold rbfKernel
    simp_rw [sub_sq_comm]

theorem laplacian_good {d : ℕ} {bandwidth : ℝ} (hb : 0 ≤ bandwidth) : GoodKernel (laplacianKernel (d := d) bandwidth) where
  measurable := by unfold laplacianKernel; fun_prop
  nonneg x y := (exp_pos _).le
  le_one x y := exp_le_one_iff.2 (by
    rw [neg_mul, neg_nonpos]
    exact mul_nonneg hb (Finset.sum_nonneg fun i _ => abs_nonneg _))
  symm x y := by
    unfold laplacianKernel
    simp_rw [abs_sub_comm]

end Verif.Testers.MmdTester
