import Verif.Proofs.WorAbstract
import Verif.Proofs.RdpGaussian
import Mathlib.Analysis.Calculus.Deriv.MeanValue
import Mathlib.MeasureTheory.Integral.MeanInequalities

/-! # Densities of Gaussian vectors and the moments of their differences -/

namespace Verif.Wor
open MeasureTheory ProbabilityTheory Verif.Spec
open scoped ENNReal NNReal RealInnerProductSpace

/-- `∑ C(n,k) (-1)^(n-k) exp(s k(k-1)/2)`: the moment of order `n` of `L - 1`, for `L` the likelihood ratio. -/
noncomputable def diffMoment (n : ℕ) (s : ℝ) : ℝ :=
  ∑ k ∈ Finset.range (n + 1), (-1) ^ (n - k) * (n.choose k : ℝ) * Real.exp (s * ((k : ℝ) * (k - 1) / 2))

lemma sub_one_pow (x : ℝ) (n : ℕ) : (x - 1) ^ n = ∑ k ∈ Finset.range (n + 1), (-1) ^ (n - k) * (n.choose k : ℝ) * x ^ k := by
  rw [sub_eq_add_neg, add_pow]
  exact Finset.sum_congr rfl fun k _ => by ring

section
variable {Ω : Type*} [MeasurableSpace Ω]

/-- A variable with the moments of a likelihood ratio of Gaussians. -/
structure LRMoments (μ : Measure Ω) (L : Ω → ℝ) (s : ℝ) : Prop where
  meas : Measurable L
  int : ∀ k : ℕ, Integrable (fun x => L x ^ k) μ
  val : ∀ k : ℕ, ∫ x, L x ^ k ∂μ = Real.exp (s * ((k : ℝ) * (k - 1) / 2))

variable {μ : Measure Ω} {L : Ω → ℝ} {s : ℝ}

lemma LRMoments.sub_int (h : LRMoments μ L s) (n : ℕ) : Integrable (fun x => (L x - 1) ^ n) μ := by
  simp only [sub_one_pow]
  exact integrable_finsetSum _ fun k _ => (h.int k).const_mul _

lemma LRMoments.sub_val (h : LRMoments μ L s) (n : ℕ) : ∫ x, (L x - 1) ^ n ∂μ = diffMoment n s := by
  simp only [sub_one_pow]
  rw [integral_finsetSum _ fun k _ => (h.int k).const_mul _]
  refine Finset.sum_congr rfl fun k _ => ?_
  rw [integral_const_mul, h.val]

/-- Cauchy-Schwarz. -/
lemma LRMoments.abs_le (h : LRMoments μ L s) (j : ℕ) : Integrable (fun x => |L x - 1| ^ j) μ ∧
    ∫ x, |L x - 1| ^ j ∂μ ≤ Real.sqrt (diffMoment (2 * (j / 2)) s * diffMoment (2 * ((j + 1) / 2)) s) := by
  have hm := h.meas
  have e2 : ∀ (i : ℕ) (x : Ω), (|L x - 1| ^ i) ^ (2 : ℕ) = (L x - 1) ^ (2 * i) := fun i x => by
    rw [← pow_mul, mul_comm i 2, pow_mul, sq_abs, ← pow_mul]
  have hI : ∀ i : ℕ, MemLp (fun x => |L x - 1| ^ i) (ENNReal.ofReal 2) μ := by
    intro i
    rw [ENNReal.ofReal_ofNat, memLp_two_iff_integrable_sq (by fun_prop)]
    simp only [e2]
    exact h.sub_int _
  have ej : ∀ x, |L x - 1| ^ j = |L x - 1| ^ (j / 2) * |L x - 1| ^ ((j + 1) / 2) := fun x => by
    rw [← pow_add]; congr 1; omega
  have hpq : Real.HolderConjugate 2 2 := Real.HolderConjugate.two_two
  have key := integral_mul_le_Lp_mul_Lq_of_nonneg hpq (μ := μ) (f := fun x => |L x - 1| ^ (j / 2)) (g := fun x => |L x - 1| ^ ((j + 1) / 2))
    (Filter.Eventually.of_forall fun x => by positivity) (Filter.Eventually.of_forall fun x => by positivity) (hI _) (hI _)
  simp only [← ej] at key
  refine ⟨?_, key.trans (le_of_eq ?_)⟩
  · simp only [ej]
    have h2 := fun i => by simpa only [ENNReal.ofReal_ofNat] using hI i
    exact (h2 (j / 2)).integrable_mul (h2 ((j + 1) / 2))
  · have e3 : ∀ i : ℕ, ∫ x, (|L x - 1| ^ i) ^ (2 : ℝ) ∂μ = diffMoment (2 * i) s := fun i => by
      rw [← h.sub_val]
      refine integral_congr_ae (Filter.Eventually.of_forall fun x => ?_)
      simp only
      rw [← e2, ← Real.rpow_natCast (|L x - 1| ^ i) 2]
      norm_num
    rw [e3, e3, ← Real.mul_rpow, Real.sqrt_eq_rpow]
    · rw [← h.sub_val]; exact integral_nonneg fun x => by simp only [pow_mul]; positivity
    · rw [← h.sub_val]; exact integral_nonneg fun x => by simp only [pow_mul]; positivity

end

/-- The one-dimensional likelihood ratio. -/
lemma lrMoments_gauss {s : ℝ} (hs : 0 < s) : LRMoments (gaussianReal 0 (Real.toNNReal s⁻¹)) (gaussLR 1 (Real.toNNReal s⁻¹)) s := by
  have hv : Real.toNNReal s⁻¹ ≠ 0 := by simpa using hs
  have hc : ((Real.toNNReal s⁻¹ : ℝ≥0) : ℝ) = s⁻¹ := Real.coe_toNNReal _ (by positivity)
  refine ⟨measurable_gaussLR _ _, fun k => ?_, fun k => ?_⟩
  · have := integrable_gaussLR_rpow 1 (Real.toNNReal s⁻¹) k
    simpa only [Real.rpow_natCast] using this
  · have := integral_gaussLR_rpow 1 hv k
    simp only [Real.rpow_natCast] at this
    rw [this, hc]
    congr 1
    field_simp

lemma deriv_poly (x : ℝ) (n : ℕ) :
    ∑ k ∈ Finset.range (n + 2 + 1), (-1) ^ (n + 2 - k) * ((n + 2).choose k : ℝ) * (x ^ k * ((k : ℝ) * (k - 1) / 2)) =
      ((n : ℝ) + 2) * (n + 1) / 2 * (x ^ 2 * (x - 1) ^ n) := by
  rw [Finset.sum_range_succ', Finset.sum_range_succ', sub_one_pow, Finset.mul_sum, Finset.mul_sum]
  simp only [Nat.cast_zero, Nat.cast_add, Nat.cast_one, zero_add, sub_self, mul_zero, zero_div, zero_mul, add_zero]
  refine Finset.sum_congr rfl fun k hk => ?_
  have h1 := Nat.add_one_mul_choose_eq (n + 1) (k + 1)
  have h2 := Nat.add_one_mul_choose_eq n k
  have h1' : ((n : ℝ) + 2) * ((n + 1).choose (k + 1) : ℝ) = ((n + 2).choose (k + 1 + 1) : ℝ) * (k + 2) := by
    have : ((n + 1 + 1 : ℕ) : ℝ) * ((n + 1).choose (k + 1) : ℝ) = ((n + 1 + 1).choose (k + 1 + 1) : ℝ) * ((k + 1 + 1 : ℕ) : ℝ) := by
      exact_mod_cast h1
    push_cast at this
    have e : (n + 1 + 1).choose (k + 1 + 1) = (n + 2).choose (k + 1 + 1) := rfl
    rw [e] at this
    linarith
  have h2' : ((n : ℝ) + 1) * (n.choose k : ℝ) = ((n + 1).choose (k + 1) : ℝ) * (k + 1) := by exact_mod_cast h2
  have e : n + 2 - (k + 1 + 1) = n - k := by omega
  rw [e]
  have key : ((n + 2).choose (k + 1 + 1) : ℝ) * ((k + 2) * (k + 1)) = (n + 2) * ((n + 1) * n.choose k) := by
    rw [h2', ← mul_assoc, ← mul_assoc, ← h1']
  have : (-1 : ℝ) ^ (n - k) * ((n + 2).choose (k + 1 + 1) : ℝ) * (x ^ (k + 1 + 1) * (((k : ℝ) + 1 + 1) * ((k : ℝ) + 1 + 1 - 1) / 2)) =
      (-1 : ℝ) ^ (n - k) * x ^ (k + 2) / 2 * (((n + 2).choose (k + 1 + 1) : ℝ) * ((k + 2) * (k + 1))) := by ring
  rw [this, key]
  ring

/-- The even moments increase with the distance. -/
lemma diffMoment_mono (n : ℕ) : MonotoneOn (diffMoment (2 * n)) (Set.Ici 0) := by
  rcases n with _ | m
  · intro x _ y _ _; simp [diffMoment]
  set n := 2 * m with hn
  have e : 2 * (m + 1) = n + 2 := by omega
  rw [e]
  have hd : ∀ s, HasDerivAt (diffMoment (n + 2)) (∑ k ∈ Finset.range (n + 2 + 1), (-1) ^ (n + 2 - k) * ((n + 2).choose k : ℝ) *
      (Real.exp (s * ((k : ℝ) * (k - 1) / 2)) * ((k : ℝ) * (k - 1) / 2))) s := by
    intro s
    unfold diffMoment
    refine HasDerivAt.fun_sum fun k _ => ?_
    refine HasDerivAt.const_mul _ ?_
    have h1 : HasDerivAt (fun x : ℝ => x * ((k : ℝ) * (k - 1) / 2)) ((k : ℝ) * (k - 1) / 2) s := hasDerivAt_mul_const _
    exact h1.exp
  refine monotoneOn_of_deriv_nonneg (convex_Ici 0) (fun s _ => (hd s).continuousAt.continuousWithinAt)
    (fun s _ => (hd s).differentiableAt.differentiableWithinAt) fun s hs => ?_
  rw [interior_Ici] at hs
  have hs : 0 < s := hs
  rw [(hd s).deriv]
  have hL := lrMoments_gauss hs
  have e1 : ∑ k ∈ Finset.range (n + 2 + 1), (-1) ^ (n + 2 - k) * ((n + 2).choose k : ℝ) *
      (Real.exp (s * ((k : ℝ) * (k - 1) / 2)) * ((k : ℝ) * (k - 1) / 2)) =
      ∫ x, ((n : ℝ) + 2) * (n + 1) / 2 * (gaussLR 1 (Real.toNNReal s⁻¹) x ^ 2 * (gaussLR 1 (Real.toNNReal s⁻¹) x - 1) ^ n)
        ∂gaussianReal 0 (Real.toNNReal s⁻¹) := by
    simp only [← deriv_poly]
    rw [integral_finsetSum _ fun k _ => ((hL.int k).mul_const _).const_mul _]
    refine Finset.sum_congr rfl fun k _ => ?_
    rw [integral_const_mul, integral_mul_const, hL.val]
  rw [e1]
  refine integral_nonneg fun x => ?_
  simp only [hn, pow_mul]
  positivity

lemma diffMoment_nonneg (n : ℕ) {s : ℝ} (hs : 0 ≤ s) : 0 ≤ diffMoment (2 * n) s := by
  rcases hs.eq_or_lt with rfl | hs
  · have : diffMoment (2 * n) 0 = (1 - 1 : ℝ) ^ (2 * n) := by
      rw [sub_one_pow]; simp [diffMoment]
    rw [this, pow_mul]; positivity
  · rw [← (lrMoments_gauss hs).sub_val]
    exact integral_nonneg fun x => by simp only [pow_mul]; positivity

variable {d : ℕ}

/-- The density of the Gaussian vector with mean `a` with respect to the centred one. -/
noncomputable def vecDens (σ : ℝ) (a x : Vec d) : ℝ := Real.exp ((⟪a, x⟫ - ‖a‖ ^ 2 / 2) / σ ^ 2)

lemma measurable_vecDens (σ : ℝ) (a : Vec d) : Measurable (vecDens σ a) := by
  have : Continuous (vecDens σ a) := by unfold vecDens; fun_prop
  exact this.measurable

lemma vecDens_pos (σ : ℝ) (a x : Vec d) : 0 < vecDens σ a x := Real.exp_pos _

lemma compl_self (w : Vec d) (hw : w ≠ 0) (y : Vec d) : ⟪w, Spec.compl (‖w‖⁻¹ • w) y⟫ = 0 := by
  have hn : ‖w‖ ≠ 0 := norm_ne_zero_iff.2 hw
  have h1 : ‖‖w‖⁻¹ • w‖ = 1 := by rw [norm_smul, norm_inv, norm_norm, inv_mul_cancel₀ hn]
  unfold Spec.compl
  rw [h1]
  simp only [one_pow, sub_self, Real.sqrt_zero, add_zero, div_one, one_mul]
  rw [inner_sub_right, real_inner_smul_right, real_inner_smul_right, real_inner_smul_left, real_inner_self_eq_norm_sq]
  field_simp
  ring

/-- The law of the inner product with the difference of the means. -/
lemma gaussianVec_dir (b w : Vec d) (hw : w ≠ 0) {σ : ℝ} (hσ : 0 < σ) (t : ℝ) :
    gaussianVec (b + t • w) σ = ((gaussianReal t (Real.toNNReal (‖w‖ ^ 2 / σ ^ 2)⁻¹)).prod (stdGaussian (Vec d))).map
      (spread b w (σ / ‖w‖) ‖w‖) ∧ ∀ p : ℝ × Vec d, ⟪w, spread b w (σ / ‖w‖) ‖w‖ p⟫ = ⟪w, b⟫ + p.1 * ‖w‖ ^ 2 := by
  have hn : 0 < ‖w‖ := norm_pos_iff.2 hw
  constructor
  · have := gaussianVec_reduce b w (σ / ‖w‖) ‖w‖ hn le_rfl t
    rw [div_mul_cancel₀ _ hn.ne'] at this
    rw [this]
    congr 4
    rw [div_pow, inv_div]
  · intro p
    unfold spread
    rw [inner_add_right, inner_add_right, real_inner_smul_right, real_inner_smul_right, compl_self w hw, real_inner_self_eq_norm_sq]
    ring

lemma vecDens_div {σ : ℝ} (a b x : Vec d) : vecDens σ a x / vecDens σ b x = Real.exp ((⟪a - b, x⟫ - (‖a‖ ^ 2 - ‖b‖ ^ 2) / 2) / σ ^ 2) := by
  unfold vecDens
  rw [← Real.exp_sub, inner_sub_left]
  congr 1
  ring

lemma ratio_spread {σ : ℝ} (hσ : 0 < σ) (a b : Vec d) (hw : a - b ≠ 0) (p : ℝ × Vec d) :
    vecDens σ a (spread b (a - b) (σ / ‖a - b‖) ‖a - b‖ p) / vecDens σ b (spread b (a - b) (σ / ‖a - b‖) ‖a - b‖ p) =
      gaussLR 1 (Real.toNNReal (‖a - b‖ ^ 2 / σ ^ 2)⁻¹) p.1 := by
  have hn : 0 < ‖a - b‖ := norm_pos_iff.2 hw
  rw [vecDens_div, (gaussianVec_dir b (a - b) hw hσ 0).2 p, gaussLR, Real.coe_toNNReal _ (by positivity)]
  congr 1
  have e : ‖a‖ ^ 2 = ‖a - b‖ ^ 2 + 2 * ⟪a - b, b⟫ + ‖b‖ ^ 2 := by
    rw [← norm_add_sq_real, sub_add_cancel]
  rw [e]
  field_simp
  ring

lemma vecDens_zero (σ : ℝ) (x : Vec d) : vecDens σ 0 x = 1 := by simp [vecDens]

lemma gaussianVec_withDensity {σ : ℝ} (hσ : 0 < σ) (a : Vec d) :
    gaussianVec a σ = (gaussianVec 0 σ).withDensity fun x => ENNReal.ofReal (vecDens σ a x) := by
  by_cases ha : a = 0
  · subst ha
    simp [vecDens_zero]
  have ha' : a - 0 ≠ 0 := by simpa using ha
  have hn : 0 < ‖a‖ := norm_pos_iff.2 ha
  have hv : Real.toNNReal (‖a‖ ^ 2 / σ ^ 2)⁻¹ ≠ 0 := by
    have : 0 < (‖a‖ ^ 2 / σ ^ 2)⁻¹ := by positivity
    exact (Real.toNNReal_pos.2 this).ne'
  have h1 := (gaussianVec_dir (0 : Vec d) (a - 0) ha' hσ 1).1
  have h0 := (gaussianVec_dir (0 : Vec d) (a - 0) ha' hσ 0).1
  have hr := ratio_spread hσ a 0 ha'
  simp only [sub_zero, one_smul, zero_add, zero_smul, vecDens_zero, div_one] at h1 h0 hr
  have hm := measurable_spread (0 : Vec d) a (σ / ‖a‖) ‖a‖
  ext S hS
  rw [withDensity_apply _ hS, ← lintegral_indicator hS, h1, h0,
    lintegral_map ((measurable_vecDens σ a).ennreal_ofReal.indicator hS) hm, Measure.map_apply hm hS]
  rw [gaussian_withDensity 1 hv, prod_withDensity_left (measurable_gaussLR _ _).ennreal_ofReal, withDensity_apply _ (hm hS), ← lintegral_indicator (hm hS)]
  refine lintegral_congr fun p => ?_
  by_cases hp : spread 0 a (σ / ‖a‖) ‖a‖ p ∈ S
  · rw [Set.indicator_of_mem hp, Set.indicator_of_mem (show p ∈ _ ⁻¹' S from hp), hr]
  · rw [Set.indicator_of_notMem hp, Set.indicator_of_notMem (show p ∉ _ ⁻¹' S from hp)]

lemma lrMoments_vec {σ : ℝ} (hσ : 0 < σ) (a b : Vec d) :
    LRMoments (gaussianVec b σ) (fun x => vecDens σ a x / vecDens σ b x) (‖a - b‖ ^ 2 / σ ^ 2) := by
  have hmeas : Measurable fun x => vecDens σ a x / vecDens σ b x := (measurable_vecDens σ a).div (measurable_vecDens σ b)
  by_cases hw : a - b = 0
  · have hab : a = b := sub_eq_zero.1 hw
    subst hab
    have e : ∀ x, vecDens σ a x / vecDens σ a x = 1 := fun x => div_self (vecDens_pos _ _ _).ne'
    refine ⟨hmeas, fun k => by simp [e], fun k => by simp [e]⟩
  have hn : 0 < ‖a - b‖ := norm_pos_iff.2 hw
  have hs : 0 < ‖a - b‖ ^ 2 / σ ^ 2 := by positivity
  have h0 := (gaussianVec_dir b (a - b) hw hσ 0).1
  rw [zero_smul, add_zero] at h0
  have hm := measurable_spread b (a - b) (σ / ‖a - b‖) ‖a - b‖
  have hr := ratio_spread hσ a b hw
  have hL := lrMoments_gauss hs
  refine ⟨hmeas, fun k => ?_, fun k => ?_⟩
  · rw [h0, integrable_map_measure (hmeas.pow_const k).aestronglyMeasurable hm.aemeasurable]
    have : ((fun x => (vecDens σ a x / vecDens σ b x) ^ k) ∘ spread b (a - b) (σ / ‖a - b‖) ‖a - b‖) =
        fun p => gaussLR 1 (Real.toNNReal (‖a - b‖ ^ 2 / σ ^ 2)⁻¹) p.1 ^ k := by
      ext p; simp only [Function.comp_apply, hr]
    rw [this]
    exact (hL.int k).comp_fst _
  · rw [h0, integral_map hm.aemeasurable (hmeas.pow_const k).aestronglyMeasurable]
    simp only [hr]
    rw [integral_fun_fst (μ := gaussianReal 0 (Real.toNNReal (‖a - b‖ ^ 2 / σ ^ 2)⁻¹))
      (f := fun y => gaussLR 1 (Real.toNNReal (‖a - b‖ ^ 2 / σ ^ 2)⁻¹) y ^ k), hL.val]
    simp

end Verif.Wor
