import Verif.Proofs.Renyi
import Mathlib.InformationTheory.KullbackLeibler.Basic
import Mathlib.MeasureTheory.Measure.LogLikelihoodRatio

/-! # Kullback-Leibler divergence: dual form and composition -/

namespace Verif.Spec
open MeasureTheory ProbabilityTheory InformationTheory
open scoped ENNReal

variable {Ω : Type*} [MeasurableSpace Ω]

/-- Dual form of a bound on the Kullback-Leibler divergence. -/
def KlBound (r : ℝ) (P Q : Measure Ω) : Prop :=
  ∀ h : Ω → ℝ, Measurable h → (∃ B, ∀ x, |h x| ≤ B) → ∫ x, h x ∂P ≤ r + Real.log (∫ x, Real.exp (h x) ∂Q)

lemma integrable_of_bdd {P : Measure Ω} [IsFiniteMeasure P] {h : Ω → ℝ} (hm : Measurable h) {B : ℝ} (hB : ∀ x, |h x| ≤ B) :
    Integrable h P :=
  Integrable.of_bound hm.aestronglyMeasurable B (Filter.Eventually.of_forall fun x => by simpa using hB x)

lemma integrable_exp_of_bdd {P : Measure Ω} [IsFiniteMeasure P] {h : Ω → ℝ} (hm : Measurable h) {B : ℝ} (hB : ∀ x, |h x| ≤ B) :
    Integrable (fun x => Real.exp (h x)) P :=
  integrable_of_bdd (Real.measurable_exp.comp hm) (B := Real.exp B) fun x => by
    rw [abs_of_pos (Real.exp_pos _)]
    exact Real.exp_le_exp.2 (le_trans (le_abs_self _) (hB x))

lemma kl_dual {P Q : Measure Ω} [IsProbabilityMeasure P] [IsProbabilityMeasure Q] {r : ℝ}
    (hk : (klDiv P Q : EReal) ≤ (r : EReal)) : KlBound r P Q := by
  intro h hm ⟨B, hB⟩
  have hfin : klDiv P Q ≠ ⊤ := by
    intro hc
    rw [hc] at hk
    simp at hk
  obtain ⟨hac, hint⟩ := klDiv_ne_top_iff.1 hfin
  have e1 := toReal_klDiv_of_measure_eq hac (by simp)
  have h1 : ∫ x, llr P Q x ∂P ≤ r := by
    rw [← e1]
    rw [← EReal.coe_le_coe_iff]
    refine le_trans (le_of_eq ?_) hk
    rw [← EReal.coe_ennreal_toReal hfin]
  have hiP := integrable_of_bdd (P := P) hm hB
  have hiQ := integrable_exp_of_bdd (P := Q) hm hB
  have hacT : Q ≪ Q.tilted h := absolutelyContinuous_tilted hiQ
  have : IsProbabilityMeasure (Q.tilted h) := isProbabilityMeasure_tilted hiQ
  have e2 := integral_llr_tilted_right hac hiP hiQ hint
  have e3 := integral_llr_add_sub_measure_univ_nonneg (hac.trans hacT) (integrable_llr_tilted_right hac hiP hint hiQ)
  simp only [measureReal_def, measure_univ, ENNReal.toReal_one] at e3
  linarith

lemma KlBound.ac {P Q : Measure Ω} [IsProbabilityMeasure P] [IsProbabilityMeasure Q] {r : ℝ} (h : KlBound r P Q) : P ≪ Q := by
  refine Measure.AbsolutelyContinuous.mk fun S hS hQ => ?_
  by_contra hP
  have hp : 0 < P.real S := by
    rw [measureReal_def]
    exact ENNReal.toReal_pos hP (measure_ne_top _ _)
  set t := (|r| + 1) / P.real S with ht
  have ht0 : 0 < t := by positivity
  have h1 := h (S.indicator fun _ => t) (measurable_const.indicator hS) ⟨t, fun x => by
    by_cases hx : x ∈ S <;> simp [hx, abs_of_pos, ht0, ht0.le]⟩
  rw [integral_indicator_const _ hS] at h1
  have e : ∫ x, Real.exp (S.indicator (fun _ => t) x) ∂Q = 1 := by
    rw [integral_congr_ae (g := fun _ => (1 : ℝ))]
    · simp
    · have : ∀ᵐ x ∂Q, x ∉ S := by rw [ae_iff]; simpa using hQ
      filter_upwards [this] with x hx
      simp [hx]
  rw [e, Real.log_one, smul_eq_mul, ht, mul_div_cancel₀ _ hp.ne'] at h1
  linarith [le_abs_self r]

lemma log_le_sub_one' {x : ℝ} (hx : 0 < x) : Real.log x ≤ x - 1 := Real.log_le_sub_one_of_pos hx

lemma clampFun_nonneg {g : ℝ} (hg : 0 ≤ g) {N : ℝ} (hN : 1 ≤ N) :
    0 ≤ g * Real.log (max (min g N) N⁻¹) - max (min g N) N⁻¹ + 1 := by
  have hN0 : 0 < N := by linarith
  have hi : N⁻¹ ≤ 1 := inv_le_one_of_one_le₀ hN
  have hlog : 0 ≤ Real.log N := Real.log_nonneg hN
  have key : ∀ y : ℝ, 0 ≤ y → 0 ≤ y * Real.log y - y + 1 := fun y hy => by
    have := klFun_nonneg hy; rw [klFun_apply] at this; linarith
  rcases le_total g N with h1 | h1
  · rw [min_eq_left h1]
    rcases le_total g N⁻¹ with h2 | h2
    · rw [max_eq_right h2]
      have := key N⁻¹ (by positivity)
      rw [Real.log_inv] at this ⊢
      nlinarith
    · rw [max_eq_left h2]
      exact key g hg
  · rw [min_eq_right h1, max_eq_left (hi.trans hN)]
    have := key N hN0.le
    nlinarith

lemma KlBound.klDiv {P Q : Measure Ω} [IsProbabilityMeasure P] [IsProbabilityMeasure Q] {r : ℝ} (h : KlBound r P Q) :
    (klDiv P Q : EReal) ≤ (r : EReal) := by
  have hac := h.ac
  have hr : 0 ≤ r := by
    have := h (fun _ => 0) measurable_const ⟨0, by simp⟩
    simpa using this
  set g : Ω → ℝ := fun x => (P.rnDeriv Q x).toReal with hg
  have hgm : Measurable g := (Measure.measurable_rnDeriv P Q).ennreal_toReal
  have hg0 : ∀ x, 0 ≤ g x := fun x => ENNReal.toReal_nonneg
  let c : ℕ → Ω → ℝ := fun n x => max (min (g x) (n + 1)) ((n + 1 : ℝ)⁻¹)
  let φ : ℕ → Ω → ℝ := fun n x => g x * Real.log (c n x) - c n x + 1
  have hc0 : ∀ n x, 0 < c n x := fun n x => lt_max_of_lt_right (by positivity)
  have hcm : ∀ n, Measurable (c n) := fun n => (hgm.min measurable_const).max measurable_const
  have hcle : ∀ (n : ℕ) x, c n x ≤ n + 1 := fun n x => by
    refine max_le (min_le_right _ _) ?_
    have : (n + 1 : ℝ)⁻¹ ≤ 1 := inv_le_one_of_one_le₀ (by linarith [Nat.cast_nonneg (α := ℝ) n])
    linarith [Nat.cast_nonneg (α := ℝ) n]
  have hcge : ∀ (n : ℕ) x, (n + 1 : ℝ)⁻¹ ≤ c n x := fun n x => le_max_right _ _
  have hlogb : ∀ (n : ℕ) x, |Real.log (c n x)| ≤ Real.log (n + 1) := fun n x => by
    rw [abs_le]
    constructor
    · rw [← Real.log_inv]
      exact Real.log_le_log (by positivity) (hcge n x)
    · exact Real.log_le_log (hc0 n x) (hcle n x)
  have hφ0 : ∀ n x, 0 ≤ φ n x := fun n x => clampFun_nonneg (hg0 x) (by linarith [Nat.cast_nonneg (α := ℝ) n])
  have hφm : ∀ n, Measurable (φ n) := fun n => by
    have := hcm n
    fun_prop
  have hbound : ∀ n, ∫⁻ x, ENNReal.ofReal (φ n x) ∂Q ≤ ENNReal.ofReal r := by
    intro n
    have hgi : Integrable g Q := Measure.integrable_toReal_rnDeriv
    have hlm : Measurable fun x => Real.log (c n x) := (Real.measurable_log.comp (hcm n))
    have hci : Integrable (c n) Q := integrable_of_bdd (hcm n) (B := n + 1) fun x => by
      rw [abs_of_pos (hc0 n x)]; exact hcle n x
    have h1i : Integrable (fun x => g x * Real.log (c n x)) Q :=
      hgi.mul_bdd hlm.aestronglyMeasurable (Filter.Eventually.of_forall fun x => by simpa using hlogb n x)
    have e1 : ∫ x, g x * Real.log (c n x) ∂Q = ∫ x, Real.log (c n x) ∂P := by
      have := integral_rnDeriv_smul (μ := P) (ν := Q) hac (f := fun x => Real.log (c n x))
      simpa [smul_eq_mul] using this
    have h2 := h (fun x => Real.log (c n x)) hlm ⟨_, hlogb n⟩
    have e2 : ∀ x, Real.exp (Real.log (c n x)) = c n x := fun x => Real.exp_log (hc0 n x)
    simp only [e2] at h2
    have hpos : 0 < ∫ x, c n x ∂Q := by
      have : (n + 1 : ℝ)⁻¹ ≤ ∫ x, c n x ∂Q := by
        have := integral_mono (μ := Q) (integrable_const ((n + 1 : ℝ)⁻¹)) hci (hcge n)
        simpa using this
      exact lt_of_lt_of_le (by positivity) this
    have h3 := log_le_sub_one' hpos
    have hφi : Integrable (φ n) Q := (h1i.sub hci).add (integrable_const 1)
    rw [← ofReal_integral_eq_lintegral_ofReal hφi (Filter.Eventually.of_forall (hφ0 n))]
    refine ENNReal.ofReal_le_ofReal ?_
    have : ∫ x, φ n x ∂Q = ∫ x, g x * Real.log (c n x) ∂Q - ∫ x, c n x ∂Q + 1 := by
      have e3 : ∫ x, φ n x ∂Q = ∫ x, (g x * Real.log (c n x) - c n x) ∂Q + ∫ _, (1 : ℝ) ∂Q :=
        integral_add (h1i.sub hci) (integrable_const 1)
      rw [e3, integral_sub h1i hci]
      simp
    change ∫ x, φ n x ∂Q ≤ r
    rw [this, e1]
    linarith
  have hlim : ∀ x, Filter.Tendsto (fun n => φ n x) Filter.atTop (nhds (klFun (g x))) := by
    intro x
    rcases (hg0 x).eq_or_lt with h0 | h0
    · have e : ∀ n, φ n x = 1 - (n + 1 : ℝ)⁻¹ := by
        intro n
        have : c n x = (n + 1 : ℝ)⁻¹ := by
          simp only [c, ← h0]
          rw [min_eq_left (by positivity), max_eq_right (by positivity)]
        simp only [φ, ← h0, this]
        ring
      simp only [e, ← h0, klFun_zero]
      have := (tendsto_const_nhds (x := (1 : ℝ)) (f := Filter.atTop)).sub tendsto_one_div_add_atTop_nhds_zero_nat
      simpa using this
    · obtain ⟨N, hN⟩ := exists_nat_gt (max (g x) (g x)⁻¹)
      refine tendsto_atTop_of_eventually_const (i₀ := N) fun n hn => ?_
      have hn' : (N : ℝ) ≤ n := by exact_mod_cast hn
      have a : g x ≤ n + 1 := by linarith [le_max_left (g x) (g x)⁻¹]
      have b : (n + 1 : ℝ)⁻¹ ≤ g x := by
        rw [inv_le_comm₀ (by positivity) h0]
        linarith [le_max_right (g x) (g x)⁻¹]
      have : c n x = g x := by
        simp only [c]
        rw [min_eq_left a, max_eq_left b]
      simp only [φ, this, klFun_apply]
      ring
  have key : InformationTheory.klDiv P Q ≤ ENNReal.ofReal r := by
    rw [klDiv_eq_lintegral_klFun_of_ac hac]
    have e : ∀ x, ENNReal.ofReal (klFun (g x)) = Filter.liminf (fun n => ENNReal.ofReal (φ n x)) Filter.atTop := fun x =>
      (((ENNReal.continuous_ofReal.tendsto _).comp (hlim x)).liminf_eq).symm
    calc ∫⁻ x, ENNReal.ofReal (klFun (g x)) ∂Q = ∫⁻ x, Filter.liminf (fun n => ENNReal.ofReal (φ n x)) Filter.atTop ∂Q :=
          lintegral_congr e
      _ ≤ Filter.liminf (fun n => ∫⁻ x, ENNReal.ofReal (φ n x) ∂Q) Filter.atTop :=
          lintegral_liminf_le fun n => (hφm n).ennreal_ofReal
      _ ≤ ENNReal.ofReal r := by
          refine Filter.liminf_le_of_frequently_le' (Filter.Eventually.of_forall hbound).frequently
  calc (InformationTheory.klDiv P Q : EReal) ≤ (ENNReal.ofReal r : EReal) := by exact_mod_cast key
    _ = r := by rw [EReal.coe_ennreal_ofReal, max_eq_left hr]

lemma KlBound.adaptive {Ω' : Type*} [MeasurableSpace Ω'] {r s : ℝ} {P Q : Measure Ω} [IsProbabilityMeasure P]
    [IsProbabilityMeasure Q] {κ η : Kernel Ω Ω'} [IsMarkovKernel κ] [IsMarkovKernel η] (h : KlBound r P Q)
    (h' : ∀ x, KlBound s (κ x) (η x)) : KlBound (r + s) (P ⊗ₘ κ) (Q ⊗ₘ η) := by
  intro g hg ⟨B, hB⟩
  have hgx : ∀ x, Measurable fun y => g (x, y) := fun x => hg.comp measurable_prodMk_left
  have hi1 : Integrable g (P ⊗ₘ κ) := integrable_of_bdd hg hB
  have hi2 : Integrable (fun p => Real.exp (g p)) (Q ⊗ₘ η) := integrable_exp_of_bdd hg hB
  rw [Measure.integral_compProd hi1, Measure.integral_compProd hi2]
  have hem : Measurable fun x => ∫ y, Real.exp (g (x, y)) ∂η x := by
    have : StronglyMeasurable fun p : Ω × Ω' => Real.exp (g p) := (Real.measurable_exp.comp hg).stronglyMeasurable
    exact (this.integral_kernel_prod_right' (κ := η)).measurable
  have hpos : ∀ x, Real.exp (-B) ≤ ∫ y, Real.exp (g (x, y)) ∂η x := fun x => by
    have := integral_mono (μ := η x) (integrable_const (Real.exp (-B))) (integrable_exp_of_bdd (hgx x) fun y => hB (x, y))
      fun y => Real.exp_le_exp.2 (neg_le_of_abs_le (hB (x, y)))
    simpa using this
  have hle : ∀ x, ∫ y, Real.exp (g (x, y)) ∂η x ≤ Real.exp B := fun x => by
    have := integral_mono (μ := η x) (integrable_exp_of_bdd (hgx x) fun y => hB (x, y)) (integrable_const (Real.exp B))
      fun y => Real.exp_le_exp.2 (le_trans (le_abs_self _) (hB (x, y)))
    simpa using this
  have hp : ∀ x, 0 < ∫ y, Real.exp (g (x, y)) ∂η x := fun x => lt_of_lt_of_le (Real.exp_pos _) (hpos x)
  set k : Ω → ℝ := fun x => Real.log (∫ y, Real.exp (g (x, y)) ∂η x) with hk
  have hkm : Measurable k := Real.measurable_log.comp hem
  have hkb : ∀ x, |k x| ≤ B := fun x => by
    rw [abs_le]
    constructor
    · rw [← Real.log_exp (-B)]; exact Real.log_le_log (Real.exp_pos _) (hpos x)
    · rw [← Real.log_exp B]; exact Real.log_le_log (hp x) (hle x)
  have a := h k hkm ⟨B, hkb⟩
  have e : ∀ x, Real.exp (k x) = ∫ y, Real.exp (g (x, y)) ∂η x := fun x => Real.exp_log (hp x)
  simp only [e] at a
  have b : ∫ x, ∫ y, g (x, y) ∂κ x ∂P ≤ ∫ x, s + k x ∂P := by
    refine integral_mono hi1.integral_compProd ((integrable_const s).add (integrable_of_bdd hkm hkb)) fun x => ?_
    exact h' x _ (hgx x) ⟨B, fun y => hB (x, y)⟩
  rw [integral_add (integrable_const s) (integrable_of_bdd hkm hkb)] at b
  simp only [integral_const, measureReal_def, measure_univ, ENNReal.toReal_one, one_smul] at b
  linarith

lemma KlBound.map {Ω' : Type*} [MeasurableSpace Ω'] {r : ℝ} {P Q : Measure Ω} (h : KlBound r P Q) {f : Ω → Ω'}
    (hf : Measurable f) : KlBound r (P.map f) (Q.map f) := by
  intro g hg ⟨B, hB⟩
  rw [integral_map hf.aemeasurable hg.aestronglyMeasurable,
    integral_map (f := fun x => Real.exp (g x)) hf.aemeasurable (Real.measurable_exp.comp hg).aestronglyMeasurable]
  exact h _ (hg.comp hf) ⟨B, fun x => hB (f x)⟩

/-- Adaptive composition adds Rényi divergences. -/
theorem renyi_adaptive {Ω' : Type*} [MeasurableSpace Ω'] {α : ℝ} (hα : 1 ≤ α) {P Q : Measure Ω} [IsProbabilityMeasure P]
    [IsProbabilityMeasure Q] {κ η : Kernel Ω Ω'} [IsMarkovKernel κ] [IsMarkovKernel η] {r s : ℝ}
    (h : renyiDiv α P Q ≤ (r : EReal)) (h' : ∀ x, renyiDiv α (κ x) (η x) ≤ (s : EReal)) :
    renyiDiv α (P ⊗ₘ κ) (Q ⊗ₘ η) ≤ ((r + s : ℝ) : EReal) := by
  rcases hα.eq_or_lt with rfl | hα
  · simp only [renyiDiv, if_true] at *
    exact ((kl_dual h).adaptive fun x => kl_dual (h' x)).klDiv
  · simp only [renyi_le_iff_holder hα] at *
    have := h.adaptive hα h'
    rw [← ENNReal.ofReal_mul (Real.exp_pos _).le, ← Real.exp_add, ← mul_add] at this
    exact this

/-- Post-processing does not increase the Rényi divergence. -/
theorem renyi_map {Ω' : Type*} [MeasurableSpace Ω'] {α : ℝ} (hα : 1 ≤ α) {P Q : Measure Ω} [IsProbabilityMeasure P]
    [IsProbabilityMeasure Q] {f : Ω → Ω'} (hf : Measurable f) {r : ℝ} (h : renyiDiv α P Q ≤ (r : EReal)) :
    renyiDiv α (P.map f) (Q.map f) ≤ (r : EReal) := by
  have : IsProbabilityMeasure (P.map f) := Measure.isProbabilityMeasure_map hf.aemeasurable
  have : IsProbabilityMeasure (Q.map f) := Measure.isProbabilityMeasure_map hf.aemeasurable
  rcases hα.eq_or_lt with rfl | hα
  · simp only [renyiDiv, if_true] at *
    exact ((kl_dual h).map hf).klDiv
  · rw [renyi_le_iff_holder hα] at *
    exact h.map hf

end Verif.Spec
