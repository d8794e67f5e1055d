import Verif.Proofs.Shifted
import Verif.Proofs.RdpGaussian
import Verif.Proofs.PldCtor
import Verif.Spec.SampledNoise

/-!
# From the scalar noise pair to the sampled mechanisms
-/

namespace Verif.Mech
open Verif.Spec MeasureTheory ProbabilityTheory

section poisson
variable {R Ω : Type} [DecidableEq R] [MeasurableSpace Ω] {q : ℝ}

/-- The weight of a sample. -/
noncomputable def pw (q : ℝ) (D S : Finset R) : ℝ := q ^ S.card * (1 - q) ^ (D.card - S.card)

omit [DecidableEq R] in
lemma pw_nonneg (q0 : 0 ≤ q) (q1 : q ≤ 1) (D S : Finset R) : 0 ≤ pw q D S :=
  mul_nonneg (pow_nonneg q0 _) (pow_nonneg (by linarith) _)

omit [DecidableEq R] in
lemma pw_sum (D : Finset R) : ∑ S ∈ D.powerset, pw q D S = 1 := by
  have := Finset.sum_pow_mul_eq_add_pow q (1 - q) D
  unfold pw
  rw [this]; simp

omit [DecidableEq R] in
lemma poissonMech_real (q0 : 0 ≤ q) (q1 : q ≤ 1) (K : Finset R → Measure Ω) [∀ S, IsProbabilityMeasure (K S)] (D : Finset R) (A : Set Ω) :
    (poissonMech q K D).real A = ∑ S ∈ D.powerset, pw q D S * (K S).real A := by
  unfold poissonMech
  rw [measureReal_def, Measure.finsetSum_apply, ENNReal.toReal_sum]
  · refine Finset.sum_congr rfl fun S _ => ?_
    rw [Measure.smul_apply, smul_eq_mul, ENNReal.toReal_mul, ← pw, ENNReal.toReal_ofReal (pw_nonneg q0 q1 D S), ← measureReal_def]
  · intro S _
    rw [Measure.smul_apply, smul_eq_mul]
    exact ENNReal.mul_ne_top ENNReal.ofReal_ne_top (measure_ne_top _ _)

lemma poissonMech_insert_real (q0 : 0 ≤ q) (q1 : q ≤ 1) (K : Finset R → Measure Ω) [∀ S, IsProbabilityMeasure (K S)] (D : Finset R)
    {r : R} (hr : r ∉ D) (A : Set Ω) : (poissonMech q K (insert r D)).real A =
      ∑ S ∈ D.powerset, pw q D S * ((1 - q) * (K S).real A + q * (K (insert r S)).real A) := by
  rw [poissonMech_real q0 q1, Finset.sum_powerset_insert hr, ← Finset.sum_add_distrib]
  refine Finset.sum_congr rfl fun S hS => ?_
  have hsD := Finset.mem_powerset.1 hS
  have hc := Finset.card_le_card hsD
  have hrs : r ∉ S := fun h => hr (hsD h)
  unfold pw
  rw [Finset.card_insert_of_notMem hr, Finset.card_insert_of_notMem hrs,
    show D.card + 1 - (S.card + 1) = D.card - S.card by omega, show D.card + 1 - S.card = D.card - S.card + 1 by omega]
  ring

omit [DecidableEq R] in
lemma poissonMech_prob (q0 : 0 ≤ q) (q1 : q ≤ 1) (K : Finset R → Measure Ω) [∀ S, IsProbabilityMeasure (K S)] (D : Finset R) :
    IsProbabilityMeasure (poissonMech q K D) := by
  constructor
  unfold poissonMech
  rw [Measure.finsetSum_apply]
  simp only [Measure.smul_apply, measure_univ, smul_eq_mul, mul_one]
  show ∑ S ∈ D.powerset, ENNReal.ofReal (pw q D S) = 1
  rw [← ENNReal.ofReal_sum_of_nonneg fun S _ => pw_nonneg q0 q1 D S, pw_sum]; simp

lemma poisson_remove (q0 : 0 ≤ q) (q1 : q ≤ 1) (K : Finset R → Measure Ω) [∀ S, IsProbabilityMeasure (K S)] (D : Finset R)
    {r : R} (hr : r ∉ D) {ε δ : ℝ}
    (h : ∀ S, ∀ A, MeasurableSet A → (1 - q) * (K S).real A + q * (K (insert r S)).real A ≤ Real.exp ε * (K S).real A + δ) :
    Indist (poissonMech q K (insert r D)) (poissonMech q K D) ε δ := by
  intro A hA
  rw [poissonMech_insert_real q0 q1 K D hr, poissonMech_real q0 q1]
  have : δ = ∑ S ∈ D.powerset, pw q D S * δ := by rw [← Finset.sum_mul, pw_sum, one_mul]
  rw [this, Finset.mul_sum, ← Finset.sum_add_distrib]
  refine Finset.sum_le_sum fun S _ => ?_
  have := mul_le_mul_of_nonneg_left (h S A hA) (pw_nonneg q0 q1 D S)
  linarith

lemma poisson_add (q0 : 0 ≤ q) (q1 : q ≤ 1) (K : Finset R → Measure Ω) [∀ S, IsProbabilityMeasure (K S)] (D : Finset R)
    {r : R} (hr : r ∉ D) {ε δ : ℝ}
    (h : ∀ S, ∀ A, MeasurableSet A → (K S).real A ≤ Real.exp ε * ((1 - q) * (K S).real A + q * (K (insert r S)).real A) + δ) :
    Indist (poissonMech q K D) (poissonMech q K (insert r D)) ε δ := by
  intro A hA
  rw [poissonMech_insert_real q0 q1 K D hr, poissonMech_real q0 q1]
  have : δ = ∑ S ∈ D.powerset, pw q D S * δ := by rw [← Finset.sum_mul, pw_sum, one_mul]
  rw [this, Finset.mul_sum, ← Finset.sum_add_distrib]
  refine Finset.sum_le_sum fun S _ => ?_
  have := mul_le_mul_of_nonneg_left (h S A hA) (pw_nonneg q0 q1 D S)
  linarith

omit [DecidableEq R] in
/-- Without sampling the mechanism runs on the whole data set. -/
lemma poissonMech_one (K : Finset R → Measure Ω) (D : Finset R) : poissonMech 1 K D = K D := by
  unfold poissonMech
  rw [Finset.sum_eq_single D]
  · simp
  · intro S hS hne
    have hlt : S.card < D.card := Finset.card_lt_card ((Finset.mem_powerset.1 hS).ssubset_of_ne hne)
    have : (1 - 1 : ℝ) ^ (D.card - S.card) = 0 := by rw [sub_self]; exact zero_pow (by omega)
    rw [this]; simp
  · intro h; exact absurd (Finset.mem_powerset_self D) h

end poisson

/-! ### Laplace -/

lemma laplaceVec_prob' {d : ℕ} (a : Fin d → ℝ) {b : ℝ} (hb : 0 < b) : IsProbabilityMeasure (laplaceVec a b) := by
  have := fun c => laplace_prob c hb
  unfold laplaceVec; infer_instance

/-- Any delta valid for the scalar Laplace pair is valid for the sampled vector mechanism. -/
lemma sampledLaplace_indist {b s q : ℝ} (hb : 0 < b) (q0 : 0 ≤ q) (q1 : q ≤ 1) {Ω : Type} [MeasurableSpace Ω] {P Q : Measure Ω}
    (h : SampledLaplace b s q Ω P Q) (ε δ : ℝ) :
    (Indist (upper (laplace 0 b) s q .remove) (lower (laplace 0 b) s q .remove) ε δ → Indist P Q ε δ) ∧
      (Indist (upper (laplace 0 b) s q .add) (lower (laplace 0 b) s q .add) ε δ → Indist Q P ε δ) := by
  cases h with
  | mk f hf D r hr =>
    have hp := fun S => laplaceVec_prob' (f S) hb
    refine ⟨fun hi => poisson_remove q0 q1 _ D hr fun S A hA => ?_, fun hi => poisson_add q0 q1 _ D hr fun S A hA => ?_⟩
    · exact (laplace_noiseCdf hb).remove_bound q0 q1 hi
        ((shifted_laplaceVec (f (insert r S)) (f S) hb).mono (lapCdf_mono hb) (hf S r)) A hA
    · refine (laplace_noiseCdf hb).add_bound q0 q1 hi
        ((shifted_laplaceVec (f S) (f (insert r S)) hb).mono (lapCdf_mono hb) ?_) A hA
      refine le_trans (le_of_eq (Finset.sum_congr rfl fun i _ => ?_)) (hf S r)
      rw [abs_sub_comm]

/-! ### Gaussian -/

lemma gauss_noiseCdf {σ : ℝ} (hσ : 0 < σ) :
    NoiseCdf (gaussianReal 0 (Real.toNNReal (σ ^ 2))) (fun x => (gaussianReal 0 (Real.toNNReal (σ ^ 2))).real (Set.Iic x)) where
  prob := inferInstance
  noAtoms x := by
    have hv : Real.toNNReal (σ ^ 2) ≠ 0 := by rw [Ne, Real.toNNReal_eq_zero, not_le]; positivity
    exact gaussianReal_absolutelyContinuous 0 hv (measure_singleton x)
  cdf _ := rfl

lemma shifted_gaussian_base {Ω : Type} [MeasurableSpace Ω] {t σ : ℝ} (ht : 0 ≤ t) (hσ : 0 < σ) (R : Measure Ω) [IsProbabilityMeasure R] :
    Shifted (fun x => (gaussianReal 0 (Real.toNNReal (σ ^ 2))).real (Set.Iic x)) t
      ((gaussianReal (-t) (Real.toNNReal (σ ^ 2))).prod R) ((gaussianReal 0 (Real.toNNReal (σ ^ 2))).prod R) := by
  have hv : Real.toNNReal (σ ^ 2) ≠ 0 := by rw [Ne, Real.toNNReal_eq_zero, not_le]; positivity
  set v := Real.toNNReal (σ ^ 2)
  intro S hS x hx
  set ν := (gaussianReal 0 v).prod R with hν
  have hm := measurable_gaussLR (-t) v
  have hmeas : Measurable fun z : ℝ × Ω => gaussLR (-t) v z.1 := hm.comp measurable_fst
  have anti : Antitone (gaussLR (-t) v) := by
    intro x y hxy
    unfold gaussLR
    refine Real.exp_le_exp.2 (div_le_div_of_nonneg_right ?_ v.2)
    nlinarith
  have e1 : (gaussianReal (-t) v).prod R = ν.withDensity fun z => ENNReal.ofReal (gaussLR (-t) v z.1) := by
    rw [gaussian_withDensity (-t) hv, prod_withDensity_left hm.ennreal_ofReal]
  have e2 : ν = ν.withDensity fun _ => ENNReal.ofReal 1 := by simp
  have f1 : IsFiniteMeasure (ν.withDensity fun z => ENNReal.ofReal (gaussLR (-t) v z.1)) := by
    rw [← e1]; infer_instance
  have f2 : IsFiniteMeasure (ν.withDensity fun _ => ENNReal.ofReal 1) := by
    rw [← e2]; infer_instance
  have hpos := gaussLR_pos (-t) v x
  have key := isHs_of_density ν hmeas (measurable_const (a := (1 : ℝ))) (fun _ => zero_le_one) (Real.log (gaussLR (-t) v x))
    (S := Prod.fst ⁻¹' Set.Iic x) (measurable_fst measurableSet_Iic)
    (fun z hz => by rw [mul_one, Real.exp_log hpos]; exact anti hz)
    (fun z hz => by rw [mul_one, Real.exp_log hpos]; exact anti (le_of_lt (not_le.1 hz)))
  rw [← e1, ← e2] at key
  have k := key.1 S hS
  have c1 : ((gaussianReal (-t) v).prod R).real (Prod.fst ⁻¹' Set.Iic x) = (gaussianReal 0 v).real (Set.Iic (x + t)) := by
    rw [← Set.prod_univ, measureReal_prod_prod]
    have : gaussianReal (-t) v = (gaussianReal 0 v).map fun y => y + -t := by rw [gaussianReal_map_add_const]; simp
    rw [this, measureReal_def, Measure.map_apply (by fun_prop) measurableSet_Iic, ← measureReal_def]
    simp only [probReal_univ, mul_one]
    congr 1
    ext y
    simp only [Set.mem_preimage, Set.mem_Iic]
    constructor <;> intro h <;> linarith
  have c0 : ν.real (Prod.fst ⁻¹' Set.Iic x) = (gaussianReal 0 v).real (Set.Iic x) := by
    rw [hν, ← Set.prod_univ, measureReal_prod_prod]; simp
  rw [c1, c0, Real.exp_log hpos] at k
  simp only [] at hx ⊢
  nlinarith

lemma shifted_gaussianVec {d : ℕ} (a c : Vec d) {σ s : ℝ} (hσ : 0 < σ) (hs : 0 < s) (h : ‖a - c‖ ≤ s) :
    Shifted (fun x => (gaussianReal 0 (Real.toNNReal (σ ^ 2))).real (Set.Iic x)) s (gaussianVec a σ) (gaussianVec c σ) := by
  have e1 := gaussianVec_reduce c (a - c) (σ / s) s hs h 1
  have e0 := gaussianVec_reduce c (a - c) (σ / s) s hs h 0
  rw [div_mul_cancel₀ _ hs.ne'] at e1 e0
  rw [one_smul, add_sub_cancel] at e1
  rw [zero_smul, add_zero] at e0
  have key : ∀ t : ℝ, gaussianReal t (Real.toNNReal ((σ / s) ^ 2)) =
      (gaussianReal (-(t * s)) (Real.toNNReal (σ ^ 2))).map fun y => (-s⁻¹) * y := by
    intro t
    rw [gaussianReal_map_const_mul]
    congr 1
    · field_simp
    · ext
      rw [NNReal.coe_mul, Real.coe_toNNReal _ (sq_nonneg _), Real.coe_toNNReal _ (sq_nonneg _)]
      simp only [NNReal.coe_mk]
      field_simp
  have hb := (shifted_gaussian_base hs.le hσ (stdGaussian (Vec d))).map (f := Prod.map (fun y => (-s⁻¹) * y) id)
    ((by fun_prop : Measurable fun y : ℝ => (-s⁻¹) * y).prodMap measurable_id)
  rw [← Measure.map_prod_map _ _ (by fun_prop) measurable_id, ← Measure.map_prod_map _ _ (by fun_prop) measurable_id, Measure.map_id] at hb
  have k1 := key 1
  have k0 := key 0
  rw [one_mul] at k1
  rw [zero_mul, neg_zero] at k0
  rw [← k1, ← k0] at hb
  have := hb.map (measurable_spread c (a - c) (σ / s) s)
  rwa [← e1, ← e0] at this

instance gaussianVec_prob' {d : ℕ} (a : Vec d) (σ : ℝ) : IsProbabilityMeasure (gaussianVec a σ) := by
  unfold gaussianVec
  exact Measure.isProbabilityMeasure_map (by fun_prop)

lemma sampledGaussian_indist {σ s q : ℝ} (hσ : 0 < σ) (hs : 0 < s) (q0 : 0 ≤ q) (q1 : q ≤ 1) {Ω : Type} [MeasurableSpace Ω]
    {P Q : Measure Ω} (h : SampledGaussian σ s q Ω P Q) (ε δ : ℝ) :
    (Indist (upper (gaussianReal 0 (Real.toNNReal (σ ^ 2))) s q .remove) (lower (gaussianReal 0 (Real.toNNReal (σ ^ 2))) s q .remove) ε δ →
      Indist P Q ε δ) ∧
    (Indist (upper (gaussianReal 0 (Real.toNNReal (σ ^ 2))) s q .add) (lower (gaussianReal 0 (Real.toNNReal (σ ^ 2))) s q .add) ε δ →
      Indist Q P ε δ) := by
  cases h with
  | mk f hf D r hr =>
    refine ⟨fun hi => poisson_remove q0 q1 _ D hr fun S A hA => ?_, fun hi => poisson_add q0 q1 _ D hr fun S A hA => ?_⟩
    · exact (gauss_noiseCdf hσ).remove_bound q0 q1 hi (shifted_gaussianVec _ _ hσ hs (hf S r)) A hA
    · exact (gauss_noiseCdf hσ).add_bound q0 q1 hi (shifted_gaussianVec _ _ hσ hs (by rw [norm_sub_rev]; exact hf S r)) A hA

/-! ### Integer noise -/

section integer
variable {f : ℤ → ℝ}

/-- An even, log-concave probability mass function on the integers. -/
structure LogConcave (f : ℤ → ℝ) : Prop where
  nonneg : ∀ x, 0 ≤ f x
  even : ∀ x, f (-x) = f x
  cross : ∀ x y t : ℤ, x ≤ y → 0 ≤ t → f x * f (y + t) ≤ f (x + t) * f y
  prob : IsProbabilityMeasure (Measure.count.withDensity fun k => ENNReal.ofReal (f k))

namespace LogConcave
variable (h : LogConcave f)
include h

omit h in
lemma map_real (μ : Measure ℤ) (c : ℤ) (A : Set ℤ) : (μ.map fun x => x + c).real A = μ.real {x | x + c ∈ A} := by
  rw [measureReal_def, Measure.map_apply (measurable_add_const c) (MeasurableSet.of_discrete)]; rfl

lemma neg_real (A : Set ℤ) : (Measure.count.withDensity fun k => ENNReal.ofReal (f k)).real {x | -x ∈ A} =
    (Measure.count.withDensity fun k => ENNReal.ofReal (f k)).real A := by
  have : (Measure.count.withDensity fun k => ENNReal.ofReal (f k)).map (fun x : ℤ => -x) =
      Measure.count.withDensity fun k => ENNReal.ofReal (f k) := by
    refine Measure.ext_of_singleton fun x => ?_
    rw [Measure.map_apply measurable_neg (measurableSet_singleton x)]
    have : (fun x : ℤ => -x) ⁻¹' {x} = {-x} := by
      ext y; simp only [Set.mem_preimage, Set.mem_singleton_iff]; omega
    rw [this, withDensity_apply _ (measurableSet_singleton _), withDensity_apply _ (measurableSet_singleton _), lintegral_singleton,
      lintegral_singleton, h.even]
    simp
  conv_rhs => rw [← this]
  rw [measureReal_def, measureReal_def, Measure.map_apply measurable_neg (MeasurableSet.of_discrete)]; rfl

/-- REMOVE, query lowered by `u ≤ s`. -/
lemma remove_core {s u : ℤ} (hu0 : 0 ≤ u) (hus : u ≤ s) {q : ℝ} (q0 : 0 ≤ q) (q1 : q ≤ 1) {ε δ : ℝ}
    (hi : Indist (mixShift (Measure.count.withDensity fun k => ENNReal.ofReal (f k)) q (-s))
      (Measure.count.withDensity fun k => ENNReal.ofReal (f k)) ε δ) :
    Indist (mixShift (Measure.count.withDensity fun k => ENNReal.ofReal (f k)) q (-u))
      (Measure.count.withDensity fun k => ENNReal.ofReal (f k)) ε δ := by
  have hp := h.prob
  have hm : Measurable f := measurable_of_countable _
  have p1 := mixShift_prob (Measure.count.withDensity fun k => ENNReal.ofReal (f k)) q q0 q1 (-u)
  have p2 := mixShift_prob (Measure.count.withDensity fun k => ENNReal.ofReal (f k)) q q0 q1 (-s)
  have e1 := mixShift_density Measure.count f hm h.nonneg q q0 q1 (-u)
  let B : Set ℤ := {x | ∃ y, x ≤ y ∧ Real.exp ε * f y < (1 - q) * f y + q * f (y - -u)}
  have hB : ∀ x ∈ B, Real.exp ε * f x ≤ (1 - q) * f x + q * f (x - -u) := by
    rintro x ⟨y, hxy, hy⟩
    have c := h.cross x y u hxy hu0
    rw [sub_neg_eq_add] at hy ⊢
    have n1 := h.nonneg x
    have n2 := h.nonneg (x + u)
    rcases (h.nonneg y).eq_or_lt with h0 | h0
    · rw [← h0] at hy c
      have h3 : 0 < f (y + u) := by
        by_contra hc
        have := h.nonneg (y + u)
        have e : f (y + u) = 0 := le_antisymm (not_lt.1 hc) this
        rw [e] at hy; simp at hy
      have : f x = 0 := by
        rw [mul_zero] at c
        have := mul_nonneg n1 h3.le
        rcases mul_eq_zero.1 (le_antisymm c this) with k | k
        · exact k
        · exact absurd k h3.ne'
      rw [this]; simp only [mul_zero, zero_add]; positivity
    · have a1 : f x * (Real.exp ε * f y) ≤ f x * ((1 - q) * f y + q * f (y + u)) := mul_le_mul_of_nonneg_left hy.le n1
      have a2 : q * (f x * f (y + u)) ≤ q * (f (x + u) * f y) := mul_le_mul_of_nonneg_left c q0
      have : (Real.exp ε * f x) * f y ≤ ((1 - q) * f x + q * f (x + u)) * f y := by linarith
      exact le_of_mul_le_mul_right this h0
  have f1 : IsFiniteMeasure (Measure.count.withDensity fun x => ENNReal.ofReal ((1 - q) * f x + q * f (x - -u))) := by
    rw [← e1]; infer_instance
  have key := isHs_of_density Measure.count (p := fun x => (1 - q) * f x + q * f (x - -u)) (r := f)
    (measurable_of_countable _) hm h.nonneg ε (S := B) MeasurableSet.of_discrete hB (fun x hx => by
      by_contra hc
      exact hx ⟨x, le_rfl, not_le.1 hc⟩)
  rw [← e1] at key
  refine Indist.mono key.1 ?_
  have hs := hi B MeasurableSet.of_discrete
  have mono : (mixShift (Measure.count.withDensity fun k => ENNReal.ofReal (f k)) q (-u)).real B ≤
      (mixShift (Measure.count.withDensity fun k => ENNReal.ofReal (f k)) q (-s)).real B := by
    rw [mixShift, mixShift, measureReal_def, measureReal_def]
    refine ENNReal.toReal_mono (by
      have := measure_ne_top (mixShift (Measure.count.withDensity fun k => ENNReal.ofReal (f k)) q (-s)) B
      exact this) ?_
    rw [Measure.add_apply, Measure.add_apply, Measure.smul_apply, Measure.smul_apply, Measure.smul_apply,
      Measure.map_apply (measurable_add_const _) MeasurableSet.of_discrete,
      Measure.map_apply (measurable_add_const _) MeasurableSet.of_discrete]
    refine add_le_add le_rfl (mul_le_mul_right (measure_mono ?_) _)
    rintro x ⟨y, hxy, hy⟩
    exact ⟨y, by linarith, hy⟩
  linarith

/-- ADD, query raised by `u ≤ s`. -/
lemma add_core {s u : ℤ} (hu0 : 0 ≤ u) (hus : u ≤ s) {q : ℝ} (q0 : 0 ≤ q) (q1 : q ≤ 1) {ε δ : ℝ}
    (hi : Indist (Measure.count.withDensity fun k => ENNReal.ofReal (f k))
      (mixShift (Measure.count.withDensity fun k => ENNReal.ofReal (f k)) q s) ε δ) :
    Indist (Measure.count.withDensity fun k => ENNReal.ofReal (f k))
      (mixShift (Measure.count.withDensity fun k => ENNReal.ofReal (f k)) q u) ε δ := by
  have hp := h.prob
  have hm : Measurable f := measurable_of_countable _
  have p1 := mixShift_prob (Measure.count.withDensity fun k => ENNReal.ofReal (f k)) q q0 q1 u
  have p2 := mixShift_prob (Measure.count.withDensity fun k => ENNReal.ofReal (f k)) q q0 q1 s
  have e1 := mixShift_density Measure.count f hm h.nonneg q q0 q1 u
  have he := Real.exp_pos ε
  let B : Set ℤ := {x | ∃ y, x ≤ y ∧ Real.exp ε * ((1 - q) * f y + q * f (y - u)) < f y}
  have hB : ∀ x ∈ B, Real.exp ε * ((1 - q) * f x + q * f (x - u)) ≤ f x := by
    rintro x ⟨y, hxy, hy⟩
    have c := h.cross (x - u) (y - u) u (by linarith) hu0
    rw [sub_add_cancel, sub_add_cancel] at c
    have n1 := h.nonneg x
    have n3 := h.nonneg (y - u)
    have hy0 : 0 < f y := by
      refine lt_of_le_of_lt ?_ hy
      exact mul_nonneg he.le (add_nonneg (mul_nonneg (by linarith) (h.nonneg y)) (mul_nonneg q0 n3))
    have a1 := mul_le_mul_of_nonneg_left hy.le n1
    have a2 : Real.exp ε * q * (f (x - u) * f y) ≤ Real.exp ε * q * (f x * f (y - u)) :=
      mul_le_mul_of_nonneg_left c (by positivity)
    have : (Real.exp ε * ((1 - q) * f x + q * f (x - u))) * f y ≤ f x * f y := by linarith
    exact le_of_mul_le_mul_right this hy0
  have f1 : IsFiniteMeasure (Measure.count.withDensity fun x => ENNReal.ofReal ((1 - q) * f x + q * f (x - u))) := by
    rw [← e1]; infer_instance
  have key := isHs_of_density Measure.count (p := f) (r := fun x => (1 - q) * f x + q * f (x - u)) hm
    (measurable_of_countable _) (fun x => add_nonneg (mul_nonneg (by linarith) (h.nonneg x)) (mul_nonneg q0 (h.nonneg _)))
    ε (S := B) MeasurableSet.of_discrete hB (fun x hx => by
      by_contra hc
      exact hx ⟨x, le_rfl, not_le.1 hc⟩)
  rw [← e1] at key
  refine Indist.mono key.1 ?_
  have hs := hi B MeasurableSet.of_discrete
  have mono : (mixShift (Measure.count.withDensity fun k => ENNReal.ofReal (f k)) q s).real B ≤
      (mixShift (Measure.count.withDensity fun k => ENNReal.ofReal (f k)) q u).real B := by
    rw [mixShift, mixShift, measureReal_def, measureReal_def]
    refine ENNReal.toReal_mono (by
      have := measure_ne_top (mixShift (Measure.count.withDensity fun k => ENNReal.ofReal (f k)) q u) B
      exact this) ?_
    rw [Measure.add_apply, Measure.add_apply, Measure.smul_apply, Measure.smul_apply, Measure.smul_apply,
      Measure.map_apply (measurable_add_const _) MeasurableSet.of_discrete,
      Measure.map_apply (measurable_add_const _) MeasurableSet.of_discrete]
    refine add_le_add le_rfl (mul_le_mul_right (measure_mono ?_) _)
    rintro x ⟨y, hxy, hy⟩
    exact ⟨y, by linarith, hy⟩
  nlinarith

lemma mix_real (q : ℝ) (q0 : 0 ≤ q) (q1 : q ≤ 1) (d : ℤ) (A : Set ℤ) :
    (mixShift (Measure.count.withDensity fun k => ENNReal.ofReal (f k)) q d).real A =
      (1 - q) * (Measure.count.withDensity fun k => ENNReal.ofReal (f k)).real A +
        q * (Measure.count.withDensity fun k => ENNReal.ofReal (f k)).real {x | x + d ∈ A} := by
  have hp := h.prob
  rw [mixShift, measureReal_def, Measure.add_apply, Measure.smul_apply, Measure.smul_apply, smul_eq_mul, smul_eq_mul,
    Measure.map_apply (measurable_add_const _) MeasurableSet.of_discrete, ENNReal.toReal_add
      (ENNReal.mul_ne_top ENNReal.ofReal_ne_top (measure_ne_top _ _)) (ENNReal.mul_ne_top ENNReal.ofReal_ne_top (measure_ne_top _ _)),
    ENNReal.toReal_mul, ENNReal.toReal_mul, ENNReal.toReal_ofReal (by linarith), ENNReal.toReal_ofReal q0, ← measureReal_def,
    ← measureReal_def]
  rfl

/-- Any delta valid for the scalar pair at sensitivity `s` is valid for the sampled mechanism. -/
lemma sampled_indist {s : ℤ} {q : ℝ} (q0 : 0 ≤ q) (q1 : q ≤ 1) {Ω : Type} [MeasurableSpace Ω] {P Q : Measure Ω}
    (hpair : SampledInteger (Measure.count.withDensity fun k => ENNReal.ofReal (f k)) s q Ω P Q) (ε δ : ℝ) :
    (Indist (upper (Measure.count.withDensity fun k => ENNReal.ofReal (f k)) s q .remove)
        (lower (Measure.count.withDensity fun k => ENNReal.ofReal (f k)) s q .remove) ε δ → Indist P Q ε δ) ∧
    (Indist (upper (Measure.count.withDensity fun k => ENNReal.ofReal (f k)) s q .add)
        (lower (Measure.count.withDensity fun k => ENNReal.ofReal (f k)) s q .add) ε δ → Indist Q P ε δ) := by
  have hp := h.prob
  cases hpair with
  | mk g hg D r hr =>
    have hK : ∀ S, IsProbabilityMeasure ((Measure.count.withDensity fun k => ENNReal.ofReal (f k)).map fun x => x + g S) := fun S =>
      Measure.isProbabilityMeasure_map (measurable_add_const _).aemeasurable
    refine ⟨fun hi => poisson_remove q0 q1 _ D hr fun S A hA => ?_, fun hi => poisson_add q0 q1 _ D hr fun S A hA => ?_⟩
    · rw [map_real, map_real]
      have hb := abs_le.1 (hg S r)
      rcases le_total (g (insert r S)) (g S) with hle | hle
      · have k := h.remove_core (s := s) (u := g S - g (insert r S)) (by linarith) (by linarith) q0 q1 hi {x | x + g S ∈ A} MeasurableSet.of_discrete
        rw [h.mix_real q q0 q1] at k
        have e : {x : ℤ | x + -(g S - g (insert r S)) ∈ {x | x + g S ∈ A}} = {x | x + g (insert r S) ∈ A} := by
          ext x; simp only [Set.mem_ofPred_eq]; rw [show x + -(g S - g (insert r S)) + g S = x + g (insert r S) by ring]
        rwa [e] at k
      · have k := h.remove_core (s := s) (u := g (insert r S) - g S) (by linarith) (by linarith) q0 q1 hi {x | -x + g S ∈ A} MeasurableSet.of_discrete
        rw [h.mix_real q q0 q1] at k
        rw [← h.neg_real {x | x + g S ∈ A}, ← h.neg_real {x | x + g (insert r S) ∈ A}]
        have e : {x : ℤ | x + -(g (insert r S) - g S) ∈ {x | -x + g S ∈ A}} = {x | -x ∈ {x | x + g (insert r S) ∈ A}} := by
          ext x; simp only [Set.mem_ofPred_eq]; rw [show -(x + -(g (insert r S) - g S)) + g S = -x + g (insert r S) by ring]
        rwa [e] at k
    · rw [map_real, map_real]
      have hb := abs_le.1 (hg S r)
      rcases le_total (g S) (g (insert r S)) with hle | hle
      · have k := h.add_core (s := s) (u := g (insert r S) - g S) (by linarith) (by linarith) q0 q1 hi {x | x + g S ∈ A} MeasurableSet.of_discrete
        rw [h.mix_real q q0 q1] at k
        have e : {x : ℤ | x + (g (insert r S) - g S) ∈ {x | x + g S ∈ A}} = {x | x + g (insert r S) ∈ A} := by
          ext x; simp only [Set.mem_ofPred_eq]; rw [show x + (g (insert r S) - g S) + g S = x + g (insert r S) by ring]
        rwa [e] at k
      · have k := h.add_core (s := s) (u := g S - g (insert r S)) (by linarith) (by linarith) q0 q1 hi {x | -x + g S ∈ A} MeasurableSet.of_discrete
        rw [h.mix_real q q0 q1] at k
        rw [← h.neg_real {x | x + g S ∈ A}, ← h.neg_real {x | x + g (insert r S) ∈ A}]
        have e : {x : ℤ | x + (g S - g (insert r S)) ∈ {x | -x + g S ∈ A}} = {x | -x ∈ {x | x + g (insert r S) ∈ A}} := by
          ext x; simp only [Set.mem_ofPred_eq]; rw [show -(x + (g S - g (insert r S))) + g S = -x + g (insert r S) by ring]
        rwa [e] at k

end LogConcave
end integer

end Verif.Mech
