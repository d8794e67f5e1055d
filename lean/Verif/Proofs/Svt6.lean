import Verif.Proofs.Svt3

/-! # The event that shows that the bounds for the variants with binary answers are tight -/

namespace Verif.Svt
open MeasureTheory Verif.Spec

/-- All queries but the last are below the threshold, the last is not. -/
def tightSet {m : ℕ} (t ts qs : ℝ) (q : Fin (m + 1) → ℝ) : Set (ℝ × (Fin (m + 1) → ℝ)) :=
  {d | (∀ i : Fin m, ¬ passes t ts qs q d i.castSucc) ∧ passes t ts qs q d (Fin.last m)}

/-- The answers of these draws. -/
def tightOut (m : ℕ) : Set (Fin (m + 1) → SvtOut) := {r | (∀ i : Fin m, r i.castSucc = .below) ∧ r (Fin.last m) = .above}

lemma measurable_tightSet {m : ℕ} (t ts qs : ℝ) (q : Fin (m + 1) → ℝ) : MeasurableSet (tightSet t ts qs q) := by
  have h1 : ∀ i : Fin (m + 1), MeasurableSet {d : ℝ × (Fin (m + 1) → ℝ) | passes t ts qs q d i} := by
    intro i
    unfold passes
    exact measurableSet_le (by fun_prop) (by fun_prop)
  have e : tightSet t ts qs q = (⋂ i : Fin m, {d | passes t ts qs q d i.castSucc}ᶜ) ∩ {d | passes t ts qs q d (Fin.last m)} := by
    ext d
    simp [tightSet]
  rw [e]
  exact (MeasurableSet.iInter fun i => (h1 _).compl).inter (h1 _)

lemma row_tightOut {m : ℕ} {c : ℤ} (hc : 1 ≤ c) (p : Fin (m + 1) → Prop) :
    binRow c p ∈ tightOut m ↔ (∀ i : Fin m, ¬ p i.castSucc) ∧ p (Fin.last m) := by
  classical
  constructor
  · rintro ⟨h1, h2⟩
    refine ⟨fun i hi => ?_, ?_⟩
    · have := h1 i
      unfold binRow rowSpec at this
      simp only [if_pos hi] at this
      split_ifs at this
    · unfold binRow rowSpec at h2
      by_contra hp
      simp only [if_neg hp] at h2
      split_ifs at h2
  · rintro ⟨h1, h2⟩
    have hz : ∀ i : Fin (m + 1), countBelow p i.val = 0 := by
      intro i
      unfold countBelow
      rw [Finset.card_eq_zero, Finset.filter_eq_empty_iff]
      rintro j - ⟨k1, k2⟩
      have hj : j.val < m := by have := i.isLt; omega
      exact h1 ⟨j.val, hj⟩ k2
    refine ⟨fun i => ?_, ?_⟩
    · unfold binRow rowSpec
      rw [hz, if_pos (by omega)]
      exact if_neg (h1 i)
    · unfold binRow rowSpec
      rw [hz, if_pos (by omega)]
      exact if_pos h2

lemma svtProb_tight {v : SvtVariant} (hv : v ≠ .svt3) {e M m' t : ℝ} {ty : SvtQueryType} {c : ℤ} {m : ℕ} (hc : 1 ≤ c) {data : List ℝ} {n : ℕ}
    {q : Fin (m + 1) → ℝ} (hq : queryValues ⟨e, M, m', ty, m + 1, t, c⟩ data = .ok q)
    (ht : 0 ≤ thresholdScale ⟨e, M, m', ty, m + 1, t, c⟩ v) (hs : 0 ≤ queryScale ⟨e, M, m', ty, m + 1, t, c⟩ v) (s : Fin n) :
    svtProb v ⟨e, M, m', ty, m + 1, t, c⟩ data n s (tightOut m) =
      (svtDraw (m + 1)).real (tightSet t (thresholdScale ⟨e, M, m', ty, m + 1, t, c⟩ v) (queryScale ⟨e, M, m', ty, m + 1, t, c⟩ v) q) := by
  rw [svtProb_eq hv hq ht hs]
  congr 1
  ext d
  exact row_tightOut hc _

/-- The draws of one query. -/
def tightSlice {m : ℕ} (τ qs : ℝ) (q : Fin (m + 1) → ℝ) : Fin (m + 1) → Set ℝ :=
  Fin.lastCases {y | τ ≤ q (Fin.last m) + qs * y} fun i => {y | q i.castSucc + qs * y < τ}

lemma measure_tightSet {m : ℕ} (t ts qs : ℝ) (q : Fin (m + 1) → ℝ) : svtDraw (m + 1) (tightSet t ts qs q) =
    ∫⁻ z, (∏ i : Fin m, laplace 0 1 {y | q i.castSucc + qs * y < t + ts * z}) *
      laplace 0 1 {y | t + ts * z ≤ q (Fin.last m) + qs * y} ∂(laplace 0 1) := by
  unfold svtDraw
  rw [Measure.prod_apply (measurable_tightSet t ts qs q)]
  refine lintegral_congr fun z => ?_
  have e : Prod.mk z ⁻¹' tightSet t ts qs q = Set.pi Set.univ (tightSlice (t + ts * z) qs q) := by
    ext y
    simp only [Set.mem_preimage, Set.mem_pi, Set.mem_univ, true_implies]
    constructor
    · rintro ⟨h1, h2⟩ i
      induction i using Fin.lastCases with
      | last => simp only [tightSlice, Fin.lastCases_last]; exact h2
      | cast i => simp only [tightSlice, Fin.lastCases_castSucc]; exact not_le.1 (h1 i)
    · intro h
      refine ⟨fun i => ?_, ?_⟩
      · have := h i.castSucc
        simp only [tightSlice, Fin.lastCases_castSucc] at this
        exact not_le.2 this
      · have := h (Fin.last m)
        simp only [tightSlice, Fin.lastCases_last] at this
        exact this
  rw [e, Measure.pi_pi, Fin.prod_univ_castSucc]
  simp only [tightSlice, Fin.lastCases_last, Fin.lastCases_castSucc]

/-- Above zero, a shift multiplies integrals against Laplace noise. -/
lemma laplace_lintegral_shift {w u : ℝ} (hw : 0 ≤ w) (hu : 0 ≤ u) {f : ℝ → ENNReal} (hf : Measurable f) :
    ∫⁻ z in Set.Ici (w + u), f (z - u) ∂(laplace 0 1) = ENNReal.ofReal (Real.exp (-u)) * ∫⁻ z in Set.Ici w, f z ∂(laplace 0 1) := by
  unfold laplace
  rw [restrict_withDensity measurableSet_Ici, restrict_withDensity measurableSet_Ici,
    lintegral_withDensity_eq_lintegral_mul _ (by fun_prop) (by fun_prop), lintegral_withDensity_eq_lintegral_mul _ (by fun_prop) hf,
    ← lintegral_const_mul _ (by fun_prop), ← lintegral_indicator measurableSet_Ici, ← lintegral_indicator measurableSet_Ici]
  refine Eq.trans ?_ (lintegral_sub_right_eq_self _ u)
  refine lintegral_congr fun x => ?_
  by_cases hx : w + u ≤ x
  · rw [Set.indicator_of_mem (show x ∈ Set.Ici (w + u) from hx), Set.indicator_of_mem (show x - u ∈ Set.Ici w from (by simp only [Set.mem_Ici]; linarith))]
    simp only [Pi.mul_apply]
    rw [← mul_assoc, ← ENNReal.ofReal_mul (Real.exp_pos _).le]
    congr 2
    have : Real.exp (-|x - 0| / 1) = Real.exp (-u) * Real.exp (-|x - u - 0| / 1) := by
      rw [← Real.exp_add, sub_zero, sub_zero, abs_of_nonneg (by linarith), abs_of_nonneg (by linarith)]
      congr 1
      ring
    rw [this]
    ring
  · rw [Set.indicator_of_notMem (show x ∉ Set.Ici (w + u) from hx),
      Set.indicator_of_notMem (show x - u ∉ Set.Ici w from (by simp only [Set.mem_Ici]; intro h; exact hx (by linarith)))]

/-- The probability of a query with answer 0 to be below a noisy threshold `x`. -/
noncomputable def lowP (b x : ℝ) : ENNReal := laplace 0 1 {y | b * y < x}
/-- The probability of a query with answer 0 to be at least a noisy threshold `x`. -/
noncomputable def highP (b x : ℝ) : ENNReal := laplace 0 1 {y | x ≤ b * y}

lemma lowP_mono (b : ℝ) : Monotone (lowP b) := fun _ _ h => measure_mono fun _ hy => lt_of_lt_of_le hy h
lemma highP_anti (b : ℝ) : Antitone (highP b) := fun _ _ h => measure_mono fun _ hy => h.trans hy

lemma laplace_univ : laplace 0 1 Set.univ = 1 := measure_univ

lemma highP_shift {b x : ℝ} (hb : 0 < b) (hx : 0 ≤ x) {u : ℝ} (hu : 0 ≤ u) :
    highP b (x + u) = ENNReal.ofReal (Real.exp (-(u / b))) * highP b x := by
  have h := laplace_lintegral_shift (w := x / b) (u := u / b) (by positivity) (by positivity) (f := fun _ => 1) measurable_const
  simp only [lintegral_one, Measure.restrict_apply_univ] at h
  have e : ∀ y : ℝ, {z : ℝ | y ≤ b * z} = Set.Ici (y / b) := by
    intro y; ext z
    simp only [Set.mem_ofPred_eq, Set.mem_Ici, div_le_iff₀ hb, mul_comm]
  unfold highP
  rw [e, e, ← h, add_div]

lemma highP_pos {b : ℝ} (hb : 0 < b) (x : ℝ) : highP b x ≠ 0 := by
  have e : {z : ℝ | x ≤ b * z} = Set.Ici (x / b) := by
    ext z
    simp only [Set.mem_ofPred_eq, Set.mem_Ici, div_le_iff₀ hb, mul_comm]
  unfold highP
  rw [e]
  refine laplace_pos ?_
  rw [Real.volume_Ici]
  exact ENNReal.top_ne_zero

lemma lowP_lt {b : ℝ} (hb : 0 < b) {x y : ℝ} (h : x < y) : lowP b x < lowP b y := by
  have e : ∀ x : ℝ, {z : ℝ | b * z < x} = Set.Iio (x / b) := by
    intro x; ext z
    simp only [Set.mem_ofPred_eq, Set.mem_Iio, lt_div_iff₀ hb, mul_comm]
  have hxy : x / b < y / b := by gcongr
  unfold lowP
  rw [e, e, ← Set.Iio_union_Ico_eq_Iio hxy.le, measure_union (by
    rw [Set.disjoint_left]; intro z h1 h2; exact absurd h1 (not_lt.2 h2.1)) measurableSet_Ico]
  refine ENNReal.lt_add_right (measure_ne_top _ _) (laplace_pos ?_)
  rw [Real.volume_Ico, Ne, ENNReal.ofReal_eq_zero, not_le]
  linarith

lemma measurable_integrand (b t a x y : ℝ) (m : ℕ) : Measurable fun z : ℝ => lowP b (t + a * z + x) ^ m * highP b (t + a * z + y) :=
  (((lowP_mono b).measurable.comp (by fun_prop : Measurable fun z : ℝ => t + a * z + x)).pow_const m).mul
    ((highP_anti b).measurable.comp (by fun_prop : Measurable fun z : ℝ => t + a * z + y))

lemma tight_one (m : ℕ) (t a b : ℝ) : svtDraw (m + 1) (tightSet t a b (lastOne m)) =
    ∫⁻ z, lowP b (t + a * z + 0) ^ m * highP b (t + a * z + -1) ∂(laplace 0 1) := by
  rw [measure_tightSet]
  refine lintegral_congr fun z => ?_
  simp only [lastOne, Fin.val_castSucc, Fin.is_lt, if_true, Fin.val_last, lt_irrefl, if_false, zero_add, Finset.prod_const, Finset.card_univ,
    Fintype.card_fin, add_zero]
  unfold lowP highP
  congr 2
  ext y
  simp only [Set.mem_ofPred_eq]
  constructor <;> intro h <;> linarith

lemma tight_zero (m : ℕ) (t a b : ℝ) : svtDraw (m + 1) (tightSet t a b (lastZero m)) =
    ∫⁻ z, lowP b (t + a * z + -1) ^ m * highP b (t + a * z + 0) ∂(laplace 0 1) := by
  rw [measure_tightSet]
  refine lintegral_congr fun z => ?_
  simp only [lastZero, Fin.val_castSucc, Fin.is_lt, if_true, Fin.val_last, lt_irrefl, if_false, zero_add, Finset.prod_const, Finset.card_univ,
    Fintype.card_fin, add_zero]
  unfold lowP highP
  congr 3
  ext y
  simp only [Set.mem_ofPred_eq]
  constructor <;> intro h <;> linarith

/-- The ratio of the probabilities of the event comes arbitrarily close to `exp (1 / a + 2 / b)`. -/
lemma tight_ratio (t : ℝ) {a b η : ℝ} (ha : 0 < a) (hb : 0 < b) (hη : η < 1 / a + 2 / b) : ∃ K, ∀ m, K ≤ m →
    Real.exp η * (svtDraw (m + 1)).real (tightSet t a b (lastZero m)) < (svtDraw (m + 1)).real (tightSet t a b (lastOne m)) := by
  set w : ℝ := max 0 ((1 - t) / a) with hw
  have hw0 : 0 ≤ w := le_max_left _ _
  have hw1 : 1 ≤ t + a * w := by
    have : (1 - t) / a ≤ w := le_max_right _ _
    rw [div_le_iff₀ ha] at this
    linarith
  set D := w + 1 / a with hD
  set far : ℕ → ENNReal := fun m => ∫⁻ z in Set.Ici D, lowP b (t + a * z + -1) ^ m * highP b (t + a * z + 0) ∂(laplace 0 1) with hfar
  set near : ℕ → ENNReal := fun m => ∫⁻ z in (Set.Ici D)ᶜ, lowP b (t + a * z + -1) ^ m * highP b (t + a * z + 0) ∂(laplace 0 1) with hnear
  have split : ∀ m, svtDraw (m + 1) (tightSet t a b (lastZero m)) = far m + near m := by
    intro m
    rw [tight_zero, hfar, hnear, lintegral_add_compl _ measurableSet_Ici]
  -- far away from zero the ratio is as large as possible
  have hfarle : ∀ m, ENNReal.ofReal (Real.exp (1 / a + 2 / b)) * far m ≤ svtDraw (m + 1) (tightSet t a b (lastOne m)) := by
    intro m
    have h1 := laplace_lintegral_shift (w := w) (u := 1 / a) hw0 (by positivity) (measurable_integrand b t a 0 1 m)
    have h2 : far m = ∫⁻ z in Set.Ici (w + 1 / a), lowP b (t + a * (z - 1 / a) + 0) ^ m * highP b (t + a * (z - 1 / a) + 1) ∂(laplace 0 1) := by
      refine lintegral_congr fun z => ?_
      have e : a * (z - 1 / a) = a * z - 1 := by field_simp
      rw [e, show t + (a * z - 1) + 0 = t + a * z + -1 by ring, show t + (a * z - 1) + 1 = t + a * z + 0 by ring]
    have h3 : ∫⁻ z in Set.Ici w, lowP b (t + a * z + 0) ^ m * highP b (t + a * z + 1) ∂(laplace 0 1) =
        ∫⁻ z in Set.Ici w, ENNReal.ofReal (Real.exp (-(2 / b))) * (lowP b (t + a * z + 0) ^ m * highP b (t + a * z + -1)) ∂(laplace 0 1) := by
      refine setLIntegral_congr_fun measurableSet_Ici fun z hz => ?_
      have hz' : 1 ≤ t + a * z := hw1.trans (by have := mul_le_mul_of_nonneg_left (show w ≤ z from hz) ha.le; linarith)
      have := highP_shift hb (x := t + a * z + -1) (by linarith) (u := 2) (by norm_num)
      rw [show t + a * z + -1 + 2 = t + a * z + 1 by ring] at this
      rw [this]
      ring
    rw [h2, h1, h3, lintegral_const_mul _ (measurable_integrand b t a 0 (-1) m), ← mul_assoc, ← mul_assoc, ← ENNReal.ofReal_mul (Real.exp_pos _).le,
      ← ENNReal.ofReal_mul (by positivity), ← Real.exp_add, ← Real.exp_add, show 1 / a + 2 / b + -(1 / a) + -(2 / b) = 0 by ring, Real.exp_zero,
      ENNReal.ofReal_one, one_mul, tight_one]
    exact setLIntegral_le_lintegral _ _
  have hnearle : ∀ m, near m ≤ lowP b (t + a * w) ^ m := by
    intro m
    have h1 : near m ≤ ∫⁻ _ in (Set.Ici D)ᶜ, lowP b (t + a * w) ^ m ∂(laplace 0 1) := by
      refine setLIntegral_mono measurable_const fun z hz => ?_
      have hz : z < w + 1 / a := not_le.1 hz
      have : a * z < a * w + 1 := by
        have := mul_lt_mul_of_pos_left hz ha
        rw [mul_add, mul_one_div_cancel ha.ne'] at this
        exact this
      refine (mul_le_mul' (pow_le_pow_left' (lowP_mono b (show t + a * z + -1 ≤ t + a * w by linarith)) m) prob_le_one).trans_eq (mul_one _)
    refine h1.trans ?_
    rw [setLIntegral_const]
    exact (mul_le_mul' le_rfl prob_le_one).trans_eq (mul_one _)
  obtain ⟨K, hK0, hKtop, hK⟩ : ∃ K : ENNReal, K ≠ 0 ∧ K ≠ ⊤ ∧ ∀ m, lowP b (t + a * w + a) ^ m * K ≤ far m := by
    refine ⟨highP b (t + a * (D + 2)) * laplace 0 1 (Set.Icc (D + 1) (D + 2)), mul_ne_zero (highP_pos hb _) (laplace_pos ?_), ?_, fun m => ?_⟩
    · rw [Real.volume_Icc, Ne, ENNReal.ofReal_eq_zero, not_le]
      linarith
    · exact ENNReal.mul_ne_top (measure_ne_top _ _) (measure_ne_top _ _)
    · rw [← mul_assoc, ← setLIntegral_const]
      refine (setLIntegral_mono (measurable_integrand b t a (-1) 0 m) fun z hz => ?_).trans
        (lintegral_mono_set fun z hz => Set.mem_Ici.2 (by have := hz.1; linarith))
      have h1 := mul_le_mul_of_nonneg_left hz.1 ha.le
      have h2 := mul_le_mul_of_nonneg_left hz.2 ha.le
      rw [hD, mul_add, mul_add, mul_one_div_cancel ha.ne'] at h1
      exact mul_le_mul' (pow_le_pow_left' (lowP_mono b (by linarith)) m) (highP_anti b (by linarith))
  -- to the reals
  set r := (lowP b (t + a * w)).toReal with hr
  set R := (lowP b (t + a * w + a)).toReal with hR
  have hrR : r < R := (ENNReal.toReal_lt_toReal (measure_ne_top _ _) (measure_ne_top _ _)).2 (lowP_lt hb (by linarith))
  have hr0 : 0 ≤ r := ENNReal.toReal_nonneg
  have hR0 : 0 < R := hr0.trans_lt hrR
  have hK1 : 0 < K.toReal := ENNReal.toReal_pos hK0 hKtop
  have hδ : 0 < Real.exp (1 / a + 2 / b) - Real.exp η := sub_pos.2 (Real.exp_lt_exp.2 hη)
  obtain ⟨N, hN⟩ := exists_pow_lt_of_lt_one (show 0 < (Real.exp (1 / a + 2 / b) - Real.exp η) * K.toReal / Real.exp η by positivity)
    ((div_lt_one hR0).2 hrR)
  refine ⟨N, fun m hm => ?_⟩
  have hq : (r / R) ^ m < (Real.exp (1 / a + 2 / b) - Real.exp η) * K.toReal / Real.exp η :=
    (pow_le_pow_of_le_one (by positivity) ((div_lt_one hR0).2 hrR).le hm).trans_lt hN
  have hfin1 : svtDraw (m + 1) (tightSet t a b (lastZero m)) ≠ ⊤ := measure_ne_top _ _
  rw [split] at hfin1
  obtain ⟨f1, f2⟩ := ENNReal.add_ne_top.1 hfin1
  have g1 : R ^ m * K.toReal ≤ (far m).toReal := by
    have := ENNReal.toReal_mono f1 (hK m)
    rwa [ENNReal.toReal_mul, ENNReal.toReal_pow] at this
  have g2 : (near m).toReal ≤ r ^ m := by
    have := ENNReal.toReal_mono (ENNReal.pow_ne_top (measure_ne_top _ _)) (hnearle m)
    rwa [ENNReal.toReal_pow] at this
  have g3 : Real.exp (1 / a + 2 / b) * (far m).toReal ≤ (svtDraw (m + 1)).real (tightSet t a b (lastOne m)) := by
    have := ENNReal.toReal_mono (measure_ne_top _ _) (hfarle m)
    rwa [ENNReal.toReal_mul, ENNReal.toReal_ofReal (Real.exp_pos _).le] at this
  rw [measureReal_def, split, ENNReal.toReal_add f1 f2]
  refine lt_of_lt_of_le ?_ g3
  have g4 : Real.exp η * r ^ m < (Real.exp (1 / a + 2 / b) - Real.exp η) * (R ^ m * K.toReal) := by
    rw [div_pow, div_lt_div_iff₀ (by positivity) (Real.exp_pos _)] at hq
    linarith
  have g5 := mul_le_mul_of_nonneg_left g1 hδ.le
  have g6 := mul_le_mul_of_nonneg_left g2 (Real.exp_pos η).le
  linarith

lemma reveal_one (e t : ℝ) (c : ℤ) (m : ℕ) : queryValues ⟨e, 1, 0, .revealRecords, m + 1, t, c⟩ [0, 1, 0] = .ok (lastOne m) := by
  simp [queryValues, revealQuery, clip]
  rfl

lemma reveal_zero (e t : ℝ) (c : ℤ) (m : ℕ) : queryValues ⟨e, 1, 0, .revealRecords, m + 1, t, c⟩ [0, 1] = .ok (lastZero m) := by
  simp [queryValues, revealQuery, clip]
  rfl

/-- With enough queries the privacy loss of the variants with binary answers comes arbitrarily close to `1 / a + 2 / b`. -/
lemma svt_tight {v : SvtVariant} (hv : v ≠ .svt3) {e t a b η : ℝ} {c : ℤ} (hc : 1 ≤ c)
    (hta : ∀ k, thresholdScale ⟨e, 1, 0, .revealRecords, k, t, c⟩ v = a) (hqb : ∀ k, queryScale ⟨e, 1, 0, .revealRecords, k, t, c⟩ v = b)
    (ha : 0 < a) (hb : 0 < b) (hη : η < 1 / a + 2 / b) : ∃ K, ∀ k, K ≤ k → ∃ S, ∀ (n : ℕ) (s : Fin n),
      Real.exp η * svtProb v ⟨e, 1, 0, .revealRecords, k, t, c⟩ [0, 1] n s S < svtProb v ⟨e, 1, 0, .revealRecords, k, t, c⟩ [0, 1, 0] n s S := by
  obtain ⟨K, hK⟩ := tight_ratio t ha hb hη
  refine ⟨K + 1, fun k hk => ?_⟩
  obtain ⟨m, rfl⟩ : ∃ m, k = m + 1 := ⟨k - 1, by omega⟩
  refine ⟨tightOut m, fun n s => ?_⟩
  have h := hK m (by omega)
  have h1 := svtProb_tight hv hc (reveal_one e t c m) (by rw [hta]; exact ha.le) (by rw [hqb]; exact hb.le) s
  have h2 := svtProb_tight hv hc (reveal_zero e t c m) (by rw [hta]; exact ha.le) (by rw [hqb]; exact hb.le) s
  rw [hta, hqb] at h1 h2
  exact lt_of_le_of_lt (congrArg _ h2).le (h.trans_eq h1.symm)

end Verif.Svt
