import Verif.Proofs.FracCoef
import Verif.Proofs.RenyiGauss
import Verif.Model.RdpFrac

/-! # The moment of a Poisson-sampled Gaussian query as the two series of `_compute_log_a_frac` -/

namespace Verif.Frac
open MeasureTheory ProbabilityTheory Verif.Spec Finset
open scoped NNReal

/-- The expansions of `(a + b)^α` around `a^α`. -/
lemma rpow_split {a b : ℝ} (ha : 0 < a) (hb : 0 < b) (α : ℝ) : (a + b) ^ α = a ^ α * (1 + b / a) ^ α := by
  rw [← Real.mul_rpow ha.le (by positivity)]
  congr 1; field_simp

lemma rpow_term {a b : ℝ} (ha : 0 < a) (hb : 0 < b) (α t : ℝ) : a ^ (α - t) * b ^ t = a ^ α * (b / a) ^ t := by
  rw [Real.div_rpow hb.le ha.le, Real.rpow_sub ha]
  have := Real.rpow_pos_of_pos ha t
  field_simp

lemma poly_term {a b : ℝ} (ha : 0 < a) (hb : 0 < b) (α : ℝ) (n : ℕ) :
    a ^ α * poly α n (b / a) = ∑ i ∈ range n, coef α i * (a ^ (α - i) * b ^ (i : ℝ)) := by
  rw [poly, mul_sum]
  refine sum_congr rfl fun i _ => ?_
  rw [rpow_term ha hb, Real.rpow_natCast]; ring

lemma rpow_add_le {a b α : ℝ} {m : ℕ} (ha : 0 < a) (hb : 0 < b) (h0 : (m : ℝ) - 1 ≤ α) (h1 : α ≤ m) :
    (a + b) ^ α ≤ ∑ i ∈ range (m + 1), coef α i * (a ^ (α - i) * b ^ (i : ℝ)) := by
  rw [rpow_split ha hb, ← poly_term ha hb]
  exact mul_le_mul_of_nonneg_left (rpow_le_poly m h0 h1 (by positivity)) (Real.rpow_pos_of_pos ha α).le

lemma le_rpow_add {a b α : ℝ} {m : ℕ} (ha : 0 < a) (hb : 0 < b) (h0 : (m : ℝ) - 1 ≤ α) (h1 : α ≤ m) :
    ∑ i ∈ range (m + 2), coef α i * (a ^ (α - i) * b ^ (i : ℝ)) ≤ (a + b) ^ α := by
  rw [rpow_split ha hb, ← poly_term ha hb]
  exact mul_le_mul_of_nonneg_left (poly_le_rpow m h0 h1 (by positivity)) (Real.rpow_pos_of_pos ha α).le

lemma term_anti {a b α s t : ℝ} (ha : 0 < a) (hb : 0 < b) (hab : b ≤ a) (h : s ≤ t) : a ^ (α - t) * b ^ t ≤ a ^ (α - s) * b ^ s := by
  rw [rpow_term ha hb, rpow_term ha hb]
  refine mul_le_mul_of_nonneg_left ?_ (Real.rpow_pos_of_pos ha α).le
  exact Real.rpow_le_rpow_of_exponent_ge (by positivity) (by rw [div_le_one ha]; exact hab) h

variable {q σ α : ℝ}

/-- The summand at exponent `t`. -/
noncomputable def w (q : ℝ) (v : ℝ≥0) (α t x : ℝ) : ℝ := (1 - q) ^ (α - t) * (q * gaussLR 1 v x) ^ t

lemma w_swap (v : ℝ≥0) (α t x : ℝ) : w q v α (α - t) x = (q * gaussLR 1 v x) ^ (α - t) * (1 - q) ^ t := by
  unfold w; rw [sub_sub_cancel, mul_comm]

lemma w_eq (h0 : 0 < q) (v : ℝ≥0) (α t x : ℝ) :
    w q v α t x = ((1 - q) ^ (α - t) * q ^ t * Real.exp ((t ^ 2 - t) / (2 * v))) * gaussLR t v x := by
  unfold w
  rw [Real.mul_rpow h0.le (gaussLR_pos 1 v x).le]
  have : gaussLR 1 v x ^ t = Real.exp ((t ^ 2 - t) / (2 * v)) * gaussLR t v x := by
    rw [gaussLR, gaussLR, ← Real.exp_mul, ← Real.exp_add]
    congr 1
    by_cases hv : (v : ℝ) = 0
    · simp [hv]
    · field_simp; ring
  rw [this]; ring

lemma w_pos (h0 : 0 < q) (h1 : q < 1) (v : ℝ≥0) (α t x : ℝ) : 0 < w q v α t x :=
  mul_pos (Real.rpow_pos_of_pos (by linarith) _) (Real.rpow_pos_of_pos (mul_pos h0 (gaussLR_pos 1 v x)) _)

lemma integrable_w (h0 : 0 < q) (v : ℝ≥0) (α t : ℝ) : Integrable (w q v α t) (gaussianReal 0 v) := by
  have : w q v α t = fun x => ((1 - q) ^ (α - t) * q ^ t * Real.exp ((t ^ 2 - t) / (2 * v))) * gaussLR t v x ^ (1 : ℝ) := by
    ext x; rw [w_eq h0, Real.rpow_one]
  rw [this]
  exact (integrable_gaussLR_rpow t v 1).const_mul _

lemma setIntegral_gaussLR (a : ℝ) {v : ℝ≥0} (hv : v ≠ 0) {s : Set ℝ} (hs : MeasurableSet s) :
    ∫ x in s, gaussLR a v x ∂gaussianReal 0 v = (gaussianReal a v).real s := by
  have hi : Integrable (fun x => gaussLR a v x) (gaussianReal 0 v) := by
    have := integrable_gaussLR_rpow a v 1
    simpa only [Real.rpow_one] using this
  rw [measureReal_def, gaussian_withDensity a hv, withDensity_apply _ hs,
    ← ofReal_integral_eq_lintegral_ofReal hi.integrableOn (Filter.Eventually.of_forall fun x => (gaussLR_pos a v x).le),
    ENNReal.toReal_ofReal (integral_nonneg fun x => (gaussLR_pos a v x).le)]

lemma std_Iic (hσ : 0 < σ) (a x : ℝ) :
    (gaussianReal a (Real.toNNReal (σ ^ 2))).real (Set.Iic x) = (gaussianReal 0 1).real (Set.Iic ((x - a) / σ)) := by
  have h : (gaussianReal 0 1).map (fun y => σ * y + a) = gaussianReal a (Real.toNNReal (σ ^ 2)) := by
    have e : (fun y : ℝ => σ * y + a) = (fun y => y + a) ∘ fun y => σ * y := rfl
    rw [e, ← Measure.map_map (by fun_prop) (by fun_prop), gaussianReal_map_const_mul, gaussianReal_map_add_const]
    simp
    congr 1
    ext
    simp [sq_nonneg]
  rw [← h, map_measureReal_apply (by fun_prop) measurableSet_Iic]
  congr 1
  ext y
  simp only [Set.mem_preimage, Set.mem_Iic]
  rw [le_div_iff₀ hσ]
  constructor <;> intro h <;> linarith

lemma std_Ioi (hσ : 0 < σ) (a x : ℝ) :
    (gaussianReal a (Real.toNNReal (σ ^ 2))).real (Set.Ioi x) = (gaussianReal 0 1).real (Set.Iic ((a - x) / σ)) := by
  have h : (gaussianReal 0 1).map (fun y => -σ * y + a) = gaussianReal a (Real.toNNReal (σ ^ 2)) := by
    have e : (fun y : ℝ => -σ * y + a) = (fun y => y + a) ∘ fun y => -σ * y := rfl
    rw [e, ← Measure.map_map (by fun_prop) (by fun_prop), gaussianReal_map_const_mul, gaussianReal_map_add_const]
    simp
    congr 1
    ext
    simp [sq_nonneg]
  have := noAtoms_gaussianReal (μ := 0) (v := 1) one_ne_zero
  rw [← h, map_measureReal_apply (by fun_prop) measurableSet_Ioi, ← measureReal_congr Iio_ae_eq_Iic]
  congr 1
  ext y
  simp only [Set.mem_preimage, Set.mem_Ioi, Set.mem_Iio]
  rw [lt_div_iff₀ hσ]
  constructor <;> intro h <;> linarith

lemma std_pos (x : ℝ) : 0 < (gaussianReal 0 1).real (Set.Iic x) := by
  rw [measureReal_def, ENNReal.toReal_pos_iff]
  refine ⟨?_, measure_lt_top _ _⟩
  rw [pos_iff_ne_zero]
  intro h
  have hz : volume (Set.Iic x) = 0 := gaussianReal_absolutelyContinuous' 0 one_ne_zero h
  simp at hz

/-- The two series. -/
noncomputable def M0 (q σ α : ℝ) (i : ℕ) : ℝ :=
  ∫ x in Set.Iic (Rdp.fracZ0 q σ), w q (Real.toNNReal (σ ^ 2)) α i x ∂gaussianReal 0 (Real.toNNReal (σ ^ 2))

noncomputable def M1 (q σ α : ℝ) (i : ℕ) : ℝ :=
  ∫ x in (Set.Iic (Rdp.fracZ0 q σ))ᶜ, w q (Real.toNNReal (σ ^ 2)) α (α - i) x ∂gaussianReal 0 (Real.toNNReal (σ ^ 2))

lemma v_ne (hσ : 0 < σ) : Real.toNNReal (σ ^ 2) ≠ 0 := by
  rw [ne_eq, Real.toNNReal_eq_zero, not_le]; positivity

lemma v_coe (σ : ℝ) : ((Real.toNNReal (σ ^ 2) : ℝ≥0) : ℝ) = σ ^ 2 := Real.coe_toNNReal _ (sq_nonneg σ)

lemma M0_eq (h0 : 0 < q) (hσ : 0 < σ) (α : ℝ) (i : ℕ) :
    M0 q σ α i = (1 - q) ^ (α - i) * q ^ (i : ℝ) * Real.exp (((i : ℝ) ^ 2 - i) / (2 * σ ^ 2)) *
      (gaussianReal 0 1).real (Set.Iic ((Rdp.fracZ0 q σ - i) / σ)) := by
  unfold M0
  simp_rw [w_eq h0]
  rw [integral_const_mul, setIntegral_gaussLR _ (v_ne hσ) measurableSet_Iic, std_Iic hσ, v_coe]

lemma M1_eq (h0 : 0 < q) (hσ : 0 < σ) (α : ℝ) (i : ℕ) :
    M1 q σ α i = (1 - q) ^ (i : ℝ) * q ^ (α - i) * Real.exp (((α - i) ^ 2 - (α - i)) / (2 * σ ^ 2)) *
      (gaussianReal 0 1).real (Set.Iic ((α - i - Rdp.fracZ0 q σ) / σ)) := by
  unfold M1
  simp_rw [w_eq h0]
  rw [integral_const_mul, Set.compl_Iic, setIntegral_gaussLR _ (v_ne hσ) measurableSet_Ioi, std_Ioi hσ, v_coe, sub_sub_cancel]

lemma M0_pos (h0 : 0 < q) (h1 : q < 1) (hσ : 0 < σ) (α : ℝ) (i : ℕ) : 0 < M0 q σ α i := by
  rw [M0_eq h0 hσ]
  have := Real.rpow_pos_of_pos (by linarith : 0 < 1 - q) (α - i)
  have := Real.rpow_pos_of_pos h0 i
  have := std_pos ((Rdp.fracZ0 q σ - i) / σ)
  positivity

lemma M1_pos (h0 : 0 < q) (h1 : q < 1) (hσ : 0 < σ) (α : ℝ) (i : ℕ) : 0 < M1 q σ α i := by
  rw [M1_eq h0 hσ]
  have := Real.rpow_pos_of_pos (by linarith : 0 < 1 - q) i
  have := Real.rpow_pos_of_pos h0 (α - i)
  have := std_pos ((α - i - Rdp.fracZ0 q σ) / σ)
  positivity

lemma half_erfc (x : ℝ) : Real.log 0.5 + Rdp.logErfc (x / (Real.sqrt 2 * σ)) = Real.log ((gaussianReal 0 1).real (Set.Iic (-x / σ))) := by
  unfold Rdp.logErfc Rdp.logNdtr
  rw [← add_assoc, ← Real.log_mul (by norm_num) (by norm_num)]
  norm_num
  have : (Real.sqrt 2) ≠ 0 := by positivity
  congr 3
  field_simp

lemma exp_S0 (h0 : 0 < q) (h1 : q < 1) (hσ : 0 < σ) (hα : ¬ ∃ m : ℤ, α = m) (i : ℕ) :
    Real.exp (Rdp.fracS0 q σ α i) = |coef α i| * M0 q σ α i := by
  simp only [Rdp.fracS0]
  rw [half_erfc, Real.exp_add, Real.exp_add, Real.exp_add, Real.exp_add, exp_logComb hα, Real.exp_log (std_pos _), M0_eq h0 hσ,
    mul_comm (i : ℝ) (Real.log q), mul_comm (α - i) (Real.log _), Real.exp_mul, Real.exp_mul, Real.exp_log h0, Real.exp_log (by linarith),
    ← sub_eq_add_neg, neg_sub, sq]
  ring

lemma exp_S1 (h0 : 0 < q) (h1 : q < 1) (hσ : 0 < σ) (hα : ¬ ∃ m : ℤ, α = m) (i : ℕ) :
    Real.exp (Rdp.fracS1 q σ α i) = |coef α i| * M1 q σ α i := by
  simp only [Rdp.fracS1]
  rw [half_erfc, Real.exp_add, Real.exp_add, Real.exp_add, Real.exp_add, exp_logComb hα, Real.exp_log (std_pos _), M1_eq h0 hσ,
    mul_comm (i : ℝ) (Real.log _), mul_comm (α - i) (Real.log _), Real.exp_mul, Real.exp_mul, Real.exp_log h0, Real.exp_log (by linarith),
    ← sub_eq_add_neg, neg_sub, sq (α - i)]
  ring

lemma le_z0 (h0 : 0 < q) (h1 : q < 1) (hσ : 0 < σ) {x : ℝ} :
    x ≤ Rdp.fracZ0 q σ ↔ q * gaussLR 1 (Real.toNNReal (σ ^ 2)) x ≤ 1 - q := by
  rw [mul_comm, ← le_div_iff₀ h0, gaussLR, v_coe, ← Real.le_log_iff_exp_le (div_pos (by linarith) h0), Rdp.fracZ0,
    show 1 / q - 1 = (1 - q) / q by field_simp, div_le_iff₀ (by positivity)]
  constructor <;> intro h <;> norm_num at h ⊢ <;> linarith

lemma M0_anti (h0 : 0 < q) (h1 : q < 1) (hσ : 0 < σ) (α : ℝ) : Antitone (M0 q σ α) := by
  intro i j hij
  refine setIntegral_mono_on (integrable_w h0 _ α j).integrableOn (integrable_w h0 _ α i).integrableOn measurableSet_Iic fun x hx => ?_
  exact term_anti (by linarith) (mul_pos h0 (gaussLR_pos _ _ _)) ((le_z0 h0 h1 hσ).1 hx) (by exact_mod_cast hij)

lemma M1_anti (h0 : 0 < q) (h1 : q < 1) (hσ : 0 < σ) (α : ℝ) : Antitone (M1 q σ α) := by
  intro i j hij
  refine setIntegral_mono_on (integrable_w h0 _ α _).integrableOn (integrable_w h0 _ α _).integrableOn measurableSet_Iic.compl fun x hx => ?_
  rw [w_swap, w_swap]
  have : 1 - q ≤ q * gaussLR 1 (Real.toNNReal (σ ^ 2)) x := by
    rw [Set.mem_compl_iff, Set.mem_Iic, le_z0 h0 h1 hσ, not_le] at hx; exact hx.le
  exact term_anti (mul_pos h0 (gaussLR_pos _ _ _)) (by linarith) this (by exact_mod_cast hij)

/-- The moment. -/
noncomputable def moment (q σ α : ℝ) : ℝ := ∫ x, mixLR q (Real.toNNReal (σ ^ 2)) x ^ α ∂gaussianReal 0 (Real.toNNReal (σ ^ 2))

lemma integrable_mixLR_rpow (h0 : 0 < q) (h1 : q < 1) (v : ℝ≥0) {m : ℕ} (hm0 : (m : ℝ) - 1 ≤ α) (hm1 : α ≤ m) :
    Integrable (fun x => mixLR q v x ^ α) (gaussianReal 0 v) := by
  have hi : Integrable (fun x => ∑ i ∈ range (m + 1), coef α i * w q v α i x) (gaussianReal 0 v) :=
    integrable_finsetSum _ fun i _ => (integrable_w h0 v α i).const_mul _
  refine hi.mono' ((measurable_mixLR q v).pow_const α).aestronglyMeasurable (Filter.Eventually.of_forall fun x => ?_)
  rw [Real.norm_of_nonneg (Real.rpow_nonneg (mixLR_nonneg h0.le h1.le v x) α)]
  exact rpow_add_le (by linarith) (mul_pos h0 (gaussLR_pos _ _ _)) hm0 hm1

lemma moment_le (h0 : 0 < q) (h1 : q < 1) (hσ : 0 < σ) {m : ℕ} (hm0 : (m : ℝ) - 1 ≤ α) (hm1 : α ≤ m) :
    moment q σ α ≤ ∑ i ∈ range (m + 1), coef α i * (M0 q σ α i + M1 q σ α i) := by
  unfold moment
  have hI := integrable_mixLR_rpow h0 h1 (Real.toNNReal (σ ^ 2)) hm0 hm1
  rw [← integral_add_compl (measurableSet_Iic (a := Rdp.fracZ0 q σ)) hI]
  have e : ∑ i ∈ range (m + 1), coef α i * (M0 q σ α i + M1 q σ α i) =
      ∑ i ∈ range (m + 1), coef α i * M0 q σ α i + ∑ i ∈ range (m + 1), coef α i * M1 q σ α i := by
    rw [← sum_add_distrib]; exact sum_congr rfl fun i _ => by ring
  rw [e]
  refine add_le_add ?_ ?_
  · have e2 : ∑ i ∈ range (m + 1), coef α i * M0 q σ α i =
        ∫ x in Set.Iic (Rdp.fracZ0 q σ), ∑ i ∈ range (m + 1), coef α i * w q (Real.toNNReal (σ ^ 2)) α i x ∂gaussianReal 0 (Real.toNNReal (σ ^ 2)) := by
      rw [integral_finsetSum _ fun i _ => ((integrable_w h0 _ α _).const_mul _).integrableOn]
      exact sum_congr rfl fun i _ => (integral_const_mul _ _).symm
    rw [e2]
    refine setIntegral_mono hI.integrableOn (integrable_finsetSum _ fun i _ => ((integrable_w h0 _ α i).const_mul _).integrableOn) fun x => ?_
    exact rpow_add_le (by linarith) (mul_pos h0 (gaussLR_pos _ _ _)) hm0 hm1
  · have e2 : ∑ i ∈ range (m + 1), coef α i * M1 q σ α i =
        ∫ x in (Set.Iic (Rdp.fracZ0 q σ))ᶜ, ∑ i ∈ range (m + 1), coef α i * w q (Real.toNNReal (σ ^ 2)) α (α - i) x ∂gaussianReal 0 (Real.toNNReal (σ ^ 2)) := by
      rw [integral_finsetSum _ fun i _ => ((integrable_w h0 _ α _).const_mul _).integrableOn]
      exact sum_congr rfl fun i _ => (integral_const_mul _ _).symm
    rw [e2]
    refine setIntegral_mono hI.integrableOn (integrable_finsetSum _ fun i _ => ((integrable_w h0 _ α _).const_mul _).integrableOn) fun x => ?_
    have := rpow_add_le (a := q * gaussLR 1 (Real.toNNReal (σ ^ 2)) x) (b := 1 - q) (mul_pos h0 (gaussLR_pos _ _ _)) (by linarith) hm0 hm1
    rw [add_comm] at this
    simp only [w_swap]
    exact this

lemma le_moment (h0 : 0 < q) (h1 : q < 1) (hσ : 0 < σ) {m : ℕ} (hm0 : (m : ℝ) - 1 ≤ α) (hm1 : α ≤ m) :
    ∑ i ∈ range (m + 2), coef α i * (M0 q σ α i + M1 q σ α i) ≤ moment q σ α := by
  unfold moment
  have hI := integrable_mixLR_rpow h0 h1 (Real.toNNReal (σ ^ 2)) hm0 hm1
  rw [← integral_add_compl (measurableSet_Iic (a := Rdp.fracZ0 q σ)) hI]
  have e : ∑ i ∈ range (m + 2), coef α i * (M0 q σ α i + M1 q σ α i) =
      ∑ i ∈ range (m + 2), coef α i * M0 q σ α i + ∑ i ∈ range (m + 2), coef α i * M1 q σ α i := by
    rw [← sum_add_distrib]; exact sum_congr rfl fun i _ => by ring
  rw [e]
  refine add_le_add ?_ ?_
  · have e2 : ∑ i ∈ range (m + 2), coef α i * M0 q σ α i =
        ∫ x in Set.Iic (Rdp.fracZ0 q σ), ∑ i ∈ range (m + 2), coef α i * w q (Real.toNNReal (σ ^ 2)) α i x ∂gaussianReal 0 (Real.toNNReal (σ ^ 2)) := by
      rw [integral_finsetSum _ fun i _ => ((integrable_w h0 _ α _).const_mul _).integrableOn]
      exact sum_congr rfl fun i _ => (integral_const_mul _ _).symm
    rw [e2]
    refine setIntegral_mono (integrable_finsetSum _ fun i _ => ((integrable_w h0 _ α i).const_mul _).integrableOn) hI.integrableOn fun x => ?_
    exact le_rpow_add (by linarith) (mul_pos h0 (gaussLR_pos _ _ _)) hm0 hm1
  · have e2 : ∑ i ∈ range (m + 2), coef α i * M1 q σ α i =
        ∫ x in (Set.Iic (Rdp.fracZ0 q σ))ᶜ, ∑ i ∈ range (m + 2), coef α i * w q (Real.toNNReal (σ ^ 2)) α (α - i) x ∂gaussianReal 0 (Real.toNNReal (σ ^ 2)) := by
      rw [integral_finsetSum _ fun i _ => ((integrable_w h0 _ α _).const_mul _).integrableOn]
      exact sum_congr rfl fun i _ => (integral_const_mul _ _).symm
    rw [e2]
    refine setIntegral_mono (integrable_finsetSum _ fun i _ => ((integrable_w h0 _ α _).const_mul _).integrableOn) hI.integrableOn fun x => ?_
    have := le_rpow_add (a := q * gaussLR 1 (Real.toNNReal (σ ^ 2)) x) (b := 1 - q) (mul_pos h0 (gaussLR_pos _ _ _)) (by linarith) hm0 hm1
    rw [add_comm (q * _)] at this
    simp only [w_swap]
    exact this

end Verif.Frac
