import Verif.Model.PldAdvanced
import Verif.Proofs.PldHistory
import Verif.Proofs.LossOf
import Mathlib.Data.Nat.Choose.Sum

/-! # Proofs: advanced composition -/

namespace Verif.Advanced
open MeasureTheory ProbabilityTheory Verif.Pld Verif.Spec

/-- the two finite losses of an `(eps, delta)`-DP mechanism in the worst case, in units of `eps` -/
noncomputable def ddpPts (eps delta : ℝ) : List (ℤ × ℝ) :=
  [(1, (1 - delta) * (Real.exp eps / (1 + Real.exp eps))), (-1, (1 - delta) / (1 + Real.exp eps))]

lemma ddp_nonneg {eps delta : ℝ} (h1 : delta ≤ 1) : ∀ x ∈ ddpPts eps delta, 0 ≤ x.2 := by
  have : 0 ≤ 1 - delta := by linarith
  intro x hx
  simp only [ddpPts, List.mem_cons, List.not_mem_nil, or_false] at hx
  rcases hx with rfl | rfl <;> simp only <;> positivity

lemma ddp_mass (eps delta : ℝ) : delta + expect (ddpPts eps delta) (fun _ => 1) = 1 := by
  have := Real.exp_pos eps
  simp only [ddpPts, expect, List.map_cons, List.map_nil, List.sum_cons, List.sum_nil]
  field_simp; ring

/-- The law. -/
noncomputable def ddpLaw (eps delta : ℝ) (h0 : 0 ≤ delta) (h1 : delta ≤ 1) : LossLaw where
  inf := delta
  μ := ptsMeasure eps (ddpPts eps delta)
  fin := (ptsMeasure_spec eps _ (ddp_nonneg h1)).1
  inf_nonneg := h0
  mass := by
    have := ((ptsMeasure_spec eps _ (ddp_nonneg (eps := eps) h1)).2 (fun _ => 1) measurable_const).2
    simp only [integral_const, smul_eq_mul, mul_one] at this
    rw [this]; exact ddp_mass eps delta

lemma ddp_atLeast (eps delta : ℝ) (h0 : 0 ≤ delta) (h1 : delta ≤ 1) (φ : ℝ → ℝ) (hm : Measurable φ) :
    (ddpLaw eps delta h0 h1).inf + ∫ x, φ x ∂(ddpLaw eps delta h0 h1).μ = delta + expect (ddpPts eps delta) fun k => φ (k * eps) := by
  show delta + ∫ x, φ x ∂(ptsMeasure eps (ddpPts eps delta)) = _
  rw [((ptsMeasure_spec eps _ (ddp_nonneg (eps := eps) h1)).2 φ hm).2]

lemma ddp_dominates (eps delta : ℝ) (he : 0 ≤ eps) (h0 : 0 ≤ delta) (h1 : delta ≤ 1) {Ω : Type*} [MeasurableSpace Ω]
    (P Q : Measure Ω) [IsProbabilityMeasure P] [IsProbabilityMeasure Q] (hPQ : Indist P Q eps delta) (hQP : Indist Q P eps delta) :
    (ddpLaw eps delta h0 h1).Dominates P Q := by
  intro e S hS
  have hA := hPQ S hS
  have hB := hQP Sᶜ hS.compl
  rw [probReal_compl_eq_one_sub hS, probReal_compl_eq_one_sub hS] at hB
  have core := dp_core (p := P.real S) (q := Q.real S) (δ := delta) (E := Real.exp eps) (x := Real.exp e)
    (Real.one_le_exp he) (Real.exp_pos _) measureReal_le_one measureReal_nonneg hA hB h1
  refine core.trans (le_of_eq ?_)
  have : (ddpLaw eps delta h0 h1).hs e = delta + expect (ddpPts eps delta) fun k => hinge (e : EReal) (k * eps) :=
    ddp_atLeast eps delta h0 h1 _ (measurable_hinge _)
  rw [this]
  simp only [ddpPts, expect, List.map_cons, List.map_nil, List.sum_cons, List.sum_nil, hinge_coe]
  push_cast
  rw [one_mul, neg_one_mul, sub_neg_eq_add, Real.exp_sub, Real.exp_add]
  ring

/-- exact integrals of the `n`-fold law -/
lemma pow_test {A : LossLaw} {i disc : ℝ} {pts : List (ℤ × ℝ)} (hi : A.inf = i)
    (h : ∀ φ : ℝ → ℝ, Monotone φ → (∀ x, 0 ≤ φ x) → (∀ x, φ x ≤ 1) → A.inf + ∫ x, φ x ∂A.μ = i + expect pts fun k => φ (k * disc))
    (hp : ∀ x ∈ pts, 0 ≤ x.2) (hmass : i + expect pts (fun _ => 1) = 1) (n : ℕ) (φ : ℝ → ℝ) (hm : Monotone φ) (h0 : ∀ x, 0 ≤ φ x)
    (h1 : ∀ x, φ x ≤ 1) :
    (A.pow n).inf + ∫ x, φ x ∂(A.pow n).μ = 1 - (1 - i) ^ n + nfold pts n fun k => φ (k * disc) := by
  induction n generalizing φ with
  | zero => simp [LossLaw.pow, LossLaw.zero, nfold]
  | succ n ih =>
    rw [LossLaw.pow, conv_test A (A.pow n) hm h0 h1]
    have e1 : ∀ x : ℝ, (A.pow n).inf + ∫ y, φ (x + y) ∂(A.pow n).μ = 1 - (1 - i) ^ n + nfold pts n fun k => φ (x + k * disc) := by
      intro x
      exact ih (fun y => φ (x + y)) (fun a b hab => hm (by linarith)) (fun _ => h0 _) (fun _ => h1 _)
    have hle : ∀ x : ℝ, 0 ≤ (A.pow n).inf + ∫ y, φ (x + y) ∂(A.pow n).μ ∧ (A.pow n).inf + ∫ y, φ (x + y) ∂(A.pow n).μ ≤ 1 := by
      intro x
      refine ⟨add_nonneg (LossLaw.inf_nonneg _) (integral_nonneg fun _ => h0 _), ?_⟩
      have : ∫ y, φ (x + y) ∂(A.pow n).μ ≤ ∫ _, (1 : ℝ) ∂(A.pow n).μ :=
        integral_mono (integrable_mono _ (fun a b hab => hm (by linarith)) (fun y => h0 _) (fun y => h1 _))
          (integrable_const _) fun y => h1 _
      have h3 : ∫ _, (1 : ℝ) ∂(A.pow n).μ = (A.pow n).μ.real Set.univ := by simp
      linarith [(A.pow n).mass]
    have hmono : Monotone fun x : ℝ => (A.pow n).inf + ∫ y, φ (x + y) ∂(A.pow n).μ := by
      intro a b hab
      refine add_le_add le_rfl (integral_mono (integrable_mono _ ?_ (fun y => h0 _) (fun y => h1 _))
        (integrable_mono _ ?_ (fun y => h0 _) (fun y => h1 _)) fun y => hm (by linarith))
      · exact fun _ _ h => hm (by linarith)
      · exact fun _ _ h => hm (by linarith)
    rw [h _ hmono (fun x => (hle x).1) (fun x => (hle x).2)]
    simp only [e1]
    have e2 : (expect pts fun k => 1 - (1 - i) ^ n + nfold pts n fun j => φ (k * disc + j * disc)) =
        (1 - (1 - i) ^ n) * expect pts (fun _ => 1) + nfold pts (n + 1) fun k => φ (k * disc) := by
      have : nfold pts (n + 1) (fun k => φ (k * disc)) = expect pts fun k => nfold pts n fun j => φ (k * disc + j * disc) := by
        rw [nfold]
        refine expect_congr fun x _ => ?_
        congr 1; ext j; push_cast; congr 1; ring
      rw [this]
      unfold expect
      rw [← List.sum_map_mul_left, ← List.sum_map_add]
      congr 1
      apply List.map_congr_left
      intro x _; ring
    rw [e2]
    have e3 : expect pts (fun _ => 1) = 1 - i := by linarith
    rw [e3, pow_succ]; ring

/-- The `k`-fold sum of a two-point loss. -/
lemma nfold_two (a b : ℝ) (k : ℕ) (φ : ℤ → ℝ) :
    nfold [(1, a), (-1, b)] k φ = ∑ ij ∈ Finset.antidiagonal k, (k.choose ij.1 : ℝ) * (a ^ ij.2 * b ^ ij.1 * φ (ij.2 - ij.1)) := by
  induction k generalizing φ with
  | zero => simp [nfold]
  | succ k ih =>
    rw [Finset.sum_antidiagonal_choose_succ_mul (fun i j => a ^ j * b ^ i * φ (j - i)), nfold]
    simp only [expect, List.map_cons, List.map_nil, List.sum_cons, List.sum_nil, add_zero]
    rw [ih, ih, Finset.mul_sum, Finset.mul_sum]
    congr 1
    · refine Finset.sum_congr rfl fun x _ => ?_
      have : (1 : ℤ) + ((x.2 : ℤ) - x.1) = ((x.2 + 1 : ℕ) : ℤ) - x.1 := by push_cast; ring
      rw [this, pow_succ]; ring
    · refine Finset.sum_congr rfl fun x hx => ?_
      have : (-1 : ℤ) + ((x.2 : ℤ) - x.1) = (x.2 : ℤ) - ((x.1 + 1 : ℕ) : ℤ) := by push_cast; ring
      have hc : k.choose x.1 = k.choose x.2 := by
        have := Finset.mem_antidiagonal.1 hx
        rw [← this, Nat.choose_symm_add]
      rw [this, pow_succ, hc]; ring

lemma foldl_sum (f : ℕ → ℝ) (i : ℕ) (acc : ℝ) : (List.range i).foldl (fun (acc : ℝ) (l : ℕ) => acc + f l) acc = acc + ∑ l ∈ Finset.range i, f l := by
  induction i with
  | zero => simp
  | succ i ih => rw [List.range_succ, List.foldl_append, ih, Finset.sum_range_succ]; simp; ring

/-- The formula of the code is the delta of the `k`-fold worst case. -/
lemma delta_formula (eps delta : ℝ) (he : 0 ≤ eps) (k i : ℕ) (hi : 2 * i ≤ k) :
    1 - (1 - delta) ^ k + nfold (ddpPts eps delta) k (fun j => hinge ((eps * ((k : ℝ) - 2 * i) : ℝ) : EReal) (j * eps)) =
      1 - (1 - delta) ^ k * (1 - deltaI eps k i) := by
  have hE := Real.exp_pos eps
  have key : nfold (ddpPts eps delta) k (fun j => hinge ((eps * ((k : ℝ) - 2 * i) : ℝ) : EReal) (j * eps)) =
      (1 - delta) ^ k * deltaI eps k i := by
    unfold ddpPts
    rw [nfold_two, Finset.Nat.sum_antidiagonal_eq_sum_range_succ_mk]
    unfold deltaI
    rw [foldl_sum, zero_add, Finset.sum_div, Finset.mul_sum]
    symm
    refine Finset.sum_subset_zero_on_sdiff (fun l hl => ?_) (fun l hl => ?_) (fun l hl => ?_)
    · simp only [Finset.mem_range] at hl ⊢; omega
    · simp only [Finset.mem_sdiff, Finset.mem_range, not_lt] at hl
      have hlk : l ≤ k := by omega
      have : hinge ((eps * ((k : ℝ) - 2 * i) : ℝ) : EReal) ((((k - l : ℕ) : ℤ) - (l : ℤ) : ℤ) * eps) = 0 := by
        rw [hinge_coe]
        apply max_eq_left
        rw [sub_nonpos]
        apply Real.one_le_exp
        push_cast [hlk]
        have : (i : ℝ) ≤ l := by exact_mod_cast hl.2
        nlinarith
      simp only [this]; ring
    · simp only [Finset.mem_range] at hl
      have hlk : l ≤ k := by omega
      have hli : (l : ℝ) ≤ i := by exact_mod_cast hl.le
      have h1 : hinge ((eps * ((k : ℝ) - 2 * i) : ℝ) : EReal) ((((k - l : ℕ) : ℤ) - (l : ℤ) : ℤ) * eps) =
          1 - Real.exp (eps * (2 * l - 2 * i)) := by
        rw [hinge_coe]
        push_cast [hlk]
        have e : eps * ((k : ℝ) - 2 * i) - ((k : ℝ) - l - l) * eps = eps * (2 * l - 2 * i) := by ring
        rw [e]
        apply max_eq_right
        rw [sub_nonneg]
        apply Real.exp_le_one_iff.2
        nlinarith
      simp only [h1]
      have h2 : Real.exp (eps * ((k : ℝ) - l)) = Real.exp eps ^ (k - l) := by
        rw [← Real.exp_nat_mul]; push_cast [hlk]; ring_nf
      have h3 : Real.exp (eps * ((k : ℝ) - 2 * i + l)) = Real.exp eps ^ (k - l) * Real.exp (eps * (2 * l - 2 * i)) := by
        rw [← h2, ← Real.exp_add]; congr 1; ring
      rw [h2, h3, mul_pow, div_pow, div_pow]
      have h4 : (1 - delta) ^ k = (1 - delta) ^ (k - l) * (1 - delta) ^ l := by rw [← pow_add]; congr 1; omega
      have h5 : (1 + Real.exp eps) ^ k = (1 + Real.exp eps) ^ (k - l) * (1 + Real.exp eps) ^ l := by
        rw [← pow_add]; congr 1; omega
      rw [h4, h5]
      field_simp
  rw [key]; ring

lemma deltaI_nonneg (eps : ℝ) (he : 0 ≤ eps) (k i : ℕ) (hi : 2 * i ≤ k) : 0 ≤ deltaI eps k i := by
  have h := delta_formula eps 0 he k i hi
  have h2 : 0 ≤ nfold (ddpPts eps 0) k (fun j => hinge ((eps * ((k : ℝ) - 2 * i) : ℝ) : EReal) (j * eps)) := by
    rw [← expect_nfoldPts]
    exact expect_nonneg (nfoldPts_nonneg (ddp_nonneg zero_le_one) k) fun _ _ => hinge_nonneg _ _
  simp only [sub_zero, one_pow] at h
  linarith

lemma deltaI_zero (eps : ℝ) (k : ℕ) : deltaI eps k 0 = 0 := by simp [deltaI]

/-- Delta of the `k`-fold law at the candidates. -/
lemma pow_hs (eps delta : ℝ) (he : 0 ≤ eps) (h0 : 0 ≤ delta) (h1 : delta ≤ 1) (k i : ℕ) (hi : 2 * i ≤ k) :
    ((ddpLaw eps delta h0 h1).pow k).hs (eps * ((k : ℝ) - 2 * i)) = 1 - (1 - delta) ^ k * (1 - deltaI eps k i) := by
  rw [← delta_formula eps delta he k i hi]
  exact pow_test rfl (fun φ hm _ _ => ddp_atLeast eps delta h0 h1 φ hm.measurable) (ddp_nonneg h1) (ddp_mass eps delta) k _
    (fun _ _ h => hinge_mono _ h) (fun _ => hinge_nonneg _ _) (fun _ => hinge_le_one _ _)

/-- What the loop returns. -/
lemma loop_spec (eps delta total : ℝ) (k m : ℕ) :
    (loop eps delta total k m = none ∧ ∀ i ≤ m, total < 1 - (1 - delta) ^ k * (1 - deltaI eps k i)) ∨
    ∃ i ≤ m, loop eps delta total k m = some (eps * ((k : ℝ) - 2 * i)) ∧ 1 - (1 - delta) ^ k * (1 - deltaI eps k i) ≤ total ∧
      ∀ j ≤ m, i < j → total < 1 - (1 - delta) ^ k * (1 - deltaI eps k j) := by
  induction m with
  | zero =>
    unfold loop
    split_ifs with h
    · exact Or.inr ⟨0, le_rfl, by simp, h, fun j hj h => by omega⟩
    · refine Or.inl ⟨rfl, fun i hi => ?_⟩
      have : i = 0 := by omega
      subst this; exact not_le.1 h
  | succ m ih =>
    unfold loop
    split_ifs with h
    · exact Or.inr ⟨m + 1, le_rfl, rfl, h, fun j hj h => by omega⟩
    · rcases ih with ⟨h1, h2⟩ | ⟨i, hi, h1, h2, h3⟩
      · refine Or.inl ⟨h1, fun i hi => ?_⟩
        rcases Nat.lt_or_ge m i with hlt | hge
        · have : i = m + 1 := by omega
          subst this; exact not_le.1 h
        · exact h2 i hge
      · refine Or.inr ⟨i, by omega, h1, h2, fun j hj hij => ?_⟩
        rcases Nat.lt_or_ge m j with hlt | hge
        · have : j = m + 1 := by omega
          subst this; exact not_le.1 h
        · exact h3 j hge hij

/-! ### Tightness: randomised response with a leak -/

/-- Worst-case outputs: 0 reveals the first input, 3 the second, 1 and 2 are randomised response. -/
noncomputable def leak (eps delta : ℝ) : Fin 4 → ℝ :=
  ![delta, (1 - delta) * (Real.exp eps / (1 + Real.exp eps)), (1 - delta) / (1 + Real.exp eps), 0]
noncomputable def leak' (eps delta : ℝ) : Fin 4 → ℝ :=
  ![0, (1 - delta) / (1 + Real.exp eps), (1 - delta) * (Real.exp eps / (1 + Real.exp eps)), delta]

lemma leak_nonneg {eps delta : ℝ} (h0 : 0 ≤ delta) (h1 : delta ≤ 1) (o : Fin 4) : 0 ≤ leak eps delta o ∧ 0 ≤ leak' eps delta o := by
  have : 0 ≤ 1 - delta := by linarith
  fin_cases o <;> simp [leak, leak'] <;> first | positivity | (constructor <;> positivity)

noncomputable def leakP (eps delta : ℝ) : Measure (Fin 4) := finMeasure Finset.univ (leak eps delta)
noncomputable def leakQ (eps delta : ℝ) : Measure (Fin 4) := finMeasure Finset.univ (leak' eps delta)

lemma finMeasure_singleton {n : ℕ} (p : Fin n → ℝ) (o : Fin n) : finMeasure Finset.univ p {o} = ENNReal.ofReal (p o) := by
  unfold finMeasure
  rw [Measure.finsetSum_apply]
  rw [Finset.sum_eq_single o]
  · simp
  · intro b _ hb
    rw [Measure.smul_apply, Measure.dirac_apply' _ (measurableSet_singleton o)]
    simp [hb]
  · simp

lemma sum_one (eps delta : ℝ) : delta + (1 - delta) * (Real.exp eps / (1 + Real.exp eps)) + (1 - delta) / (1 + Real.exp eps) = 1 := by
  have := Real.exp_pos eps
  field_simp; ring

lemma leakP_prob {eps delta : ℝ} (h0 : 0 ≤ delta) (h1 : delta ≤ 1) : IsProbabilityMeasure (leakP eps delta) := by
  refine ⟨?_⟩
  have := finMeasure_real Finset.univ (leak eps delta) (fun o _ => (leak_nonneg h0 h1 o).1) MeasurableSet.univ
  simp only [Set.mem_univ, if_true] at this
  rw [measureReal_def] at this
  rw [← ENNReal.toReal_eq_one_iff]
  unfold leakP
  rw [this, Fin.sum_univ_four]
  have := sum_one eps delta
  simp only [leak, Matrix.cons_val_zero, Matrix.cons_val_one, Matrix.cons_val]
  linarith

lemma leakQ_prob {eps delta : ℝ} (h0 : 0 ≤ delta) (h1 : delta ≤ 1) : IsProbabilityMeasure (leakQ eps delta) := by
  refine ⟨?_⟩
  have := finMeasure_real Finset.univ (leak' eps delta) (fun o _ => (leak_nonneg h0 h1 o).2) MeasurableSet.univ
  simp only [Set.mem_univ, if_true] at this
  rw [measureReal_def] at this
  rw [← ENNReal.toReal_eq_one_iff]
  unfold leakQ
  rw [this, Fin.sum_univ_four]
  have := sum_one eps delta
  simp only [leak', Matrix.cons_val_zero, Matrix.cons_val_one, Matrix.cons_val]
  linarith

lemma leak_indist {eps delta : ℝ} (he : 0 ≤ eps) (h0 : 0 ≤ delta) (h1 : delta ≤ 1) :
    Indist (leakP eps delta) (leakQ eps delta) eps delta ∧ Indist (leakQ eps delta) (leakP eps delta) eps delta := by
  have hE : 1 ≤ Real.exp eps := Real.one_le_exp he
  have hE0 := Real.exp_pos eps
  have k : 0 ≤ (1 - delta) / (1 + Real.exp eps) := div_nonneg (by linarith) (by linarith)
  have e1 : (1 - delta) * (Real.exp eps / (1 + Real.exp eps)) = Real.exp eps * ((1 - delta) / (1 + Real.exp eps)) := by ring
  constructor
  · refine (indist_finMeasure Finset.univ _ _ (fun o _ => (leak_nonneg h0 h1 o).1) (fun o _ => (leak_nonneg h0 h1 o).2) eps).mono ?_
    rw [hsFinite, Fin.sum_univ_four]
    simp only [leak, leak', Matrix.cons_val_zero, Matrix.cons_val_one, Matrix.cons_val]
    rw [e1, mul_zero, sub_zero, sub_self, max_self, max_eq_right h0, max_eq_left (a := (0 : ℝ)), max_eq_left (a := (0 : ℝ))]
    · linarith
    · nlinarith [mul_nonneg k (by nlinarith : (0 : ℝ) ≤ Real.exp eps * Real.exp eps - 1)]
    · nlinarith [mul_nonneg k (by nlinarith : (0 : ℝ) ≤ Real.exp eps * Real.exp eps - 1)]
  · refine (indist_finMeasure Finset.univ _ _ (fun o _ => (leak_nonneg h0 h1 o).2) (fun o _ => (leak_nonneg h0 h1 o).1) eps).mono ?_
    rw [hsFinite, Fin.sum_univ_four]
    simp only [leak, leak', Matrix.cons_val_zero, Matrix.cons_val_one, Matrix.cons_val]
    rw [e1, mul_zero, sub_zero, sub_self, max_self, max_eq_right h0, max_eq_left (a := (0 : ℝ)), max_eq_left (a := (0 : ℝ))]
    · linarith
    · nlinarith [mul_nonneg k (by nlinarith : (0 : ℝ) ≤ Real.exp eps * Real.exp eps - 1)]
    · nlinarith [mul_nonneg k (by nlinarith : (0 : ℝ) ≤ Real.exp eps * Real.exp eps - 1)]

lemma leak_of {eps delta : ℝ} (h0 : 0 ≤ delta) (h1 : delta ≤ 1) : (ddpLaw eps delta h0 h1).Of (leakP eps delta) (leakQ eps delta) := by
  have hE0 := Real.exp_pos eps
  have hd : 0 ≤ 1 - delta := by linarith
  have hP : (leakP eps delta).restrict {0}ᶜ =
      ENNReal.ofReal ((1 - delta) * (Real.exp eps / (1 + Real.exp eps))) • Measure.dirac (1 : Fin 4) +
      ENNReal.ofReal ((1 - delta) / (1 + Real.exp eps)) • Measure.dirac (2 : Fin 4) := by
    refine Measure.ext_of_singleton fun o => ?_
    rw [Measure.restrict_apply (measurableSet_singleton o)]
    fin_cases o
    · simp
    · have : ({1} : Set (Fin 4)) ∩ {0}ᶜ = {1} := by ext x; simp
      simp only [Fin.mk_one]
      rw [this, leakP, finMeasure_singleton]
      simp [leak]
    · have : ({2} : Set (Fin 4)) ∩ {0}ᶜ = {2} := by ext x; simp
      simp only [Fin.reduceFinMk]
      rw [this, leakP, finMeasure_singleton]
      simp [leak]
    · have : ({3} : Set (Fin 4)) ∩ {0}ᶜ = {3} := by ext x; simp
      simp only [Fin.reduceFinMk]
      rw [this, leakP, finMeasure_singleton]
      simp [leak]
  refine ⟨{0}, ![0, Real.exp eps, Real.exp (-eps), 0], measurableSet_singleton _, measurable_of_countable _, ?_, ?_, ?_, ?_, ?_⟩
  · intro x; fin_cases x <;> simp [Real.exp_nonneg]
  · rw [leakQ, finMeasure_singleton]; simp [leak']
  · rw [measureReal_def, leakP, finMeasure_singleton]
    simp [leak, ddpLaw, h0]
  · rw [hP]
    refine Measure.ext_of_singleton fun o => ?_
    rw [withDensity_apply _ (measurableSet_singleton o), lintegral_singleton, leakQ, finMeasure_singleton]
    fin_cases o
    · simp [leak']
    · simp [leak', ← ENNReal.ofReal_mul (Real.exp_nonneg _)]
      congr 1; ring
    · simp [leak', ← ENNReal.ofReal_mul (Real.exp_nonneg _)]
      congr 1; rw [Real.exp_neg]; field_simp
    · simp [leak']
  · rw [hP, Measure.map_add _ _ (measurable_of_countable _), Measure.map_smul, Measure.map_smul,
      Measure.map_dirac' (measurable_of_countable _), Measure.map_dirac' (measurable_of_countable _)]
    simp [ddpLaw, ptsMeasure, ddpPts]

lemma zero_of : LossLaw.zero.Of (Measure.dirac ()) (Measure.dirac ()) := by
  refine ⟨∅, fun _ => 1, MeasurableSet.empty, measurable_const, fun _ => zero_le_one, by simp, by simp [LossLaw.zero], by simp, ?_⟩
  simp [LossLaw.zero]

/-- The requirement "is `(eps, delta)`-DP". -/
def dpProp (eps delta : ℝ) : PairProp := fun Ω [MeasurableSpace Ω] P Q => Indist P Q eps delta ∧ Indist Q P eps delta

/-- `k` independent runs of the worst case. -/
lemma exists_worst {eps delta : ℝ} (he : 0 ≤ eps) (h0 : 0 ≤ delta) (h1 : delta ≤ 1) (k : ℕ) :
    ∃ (Ω : Type) (_ : MeasurableSpace Ω) (P Q : Measure Ω), IsProbabilityMeasure P ∧ IsProbabilityMeasure Q ∧
      Adaptive (List.replicate k (dpProp eps delta)) Ω P Q ∧ ((ddpLaw eps delta h0 h1).pow k).Of P Q := by
  induction k with
  | zero => exact ⟨Unit, inferInstance, Measure.dirac (), Measure.dirac (), inferInstance, inferInstance, .nil _, zero_of⟩
  | succ k ih =>
    obtain ⟨Ω, mΩ, P, Q, hP, hQ, ha, hof⟩ := ih
    have i1 := leakP_prob (eps := eps) h0 h1
    have i2 := leakQ_prob (eps := eps) h0 h1
    refine ⟨Fin 4 × Ω, inferInstance, (leakP eps delta).prod P, (leakQ eps delta).prod Q, inferInstance, inferInstance, ?_, ?_⟩
    · have := Adaptive.cons (C := dpProp eps delta) (leakP eps delta) (leakQ eps delta) (Kernel.const _ P) (Kernel.const _ Q)
        (leak_indist he h0 h1) (fun x => by simpa using ha)
      rwa [Measure.compProd_const, Measure.compProd_const] at this
    · exact (leak_of h0 h1).prod hof

lemma forall₂_replicate {α β : Type*} {R : α → β → Prop} {a : α} {b : β} (h : R a b) (n : ℕ) :
    List.Forall₂ R (List.replicate n a) (List.replicate n b) := by
  induction n with
  | zero => exact .nil
  | succ n ih => exact .cons h ih

end Verif.Advanced
