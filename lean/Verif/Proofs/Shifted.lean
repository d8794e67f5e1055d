import Verif.Proofs.AdditiveNoise
import Verif.Proofs.Laplace
import Verif.Proofs.PldLaw
import Mathlib.MeasureTheory.Measure.WithDensity
import Mathlib.MeasureTheory.Constructions.Pi
import Mathlib.Probability.CDF

/-! # Trade-off between two distributions, compared with shifted noise -/

namespace Verif.Mech
open Verif Spec Pld MeasureTheory

variable {Ω Ω' : Type*} [MeasurableSpace Ω] [MeasurableSpace Ω']

/-- `P` and `Q` are at most as distinguishable as noise with cdf `F` and the same noise moved by `t`. -/
def Shifted (F : ℝ → ℝ) (t : ℝ) (P Q : Measure Ω) : Prop :=
  ∀ S, MeasurableSet S → ∀ x, Q.real S ≤ F x → P.real S ≤ F (x + t)

namespace Shifted
variable {F : ℝ → ℝ} {t u : ℝ} {P Q R : Measure Ω}

lemma refl (P : Measure Ω) : Shifted F 0 P P := fun S _ x h => by rwa [add_zero]

lemma trans (h1 : Shifted F t P Q) (h2 : Shifted F u Q R) : Shifted F (t + u) P R := fun S hS x h => by
  have := h1 S hS _ (h2 S hS x h)
  rwa [add_assoc, add_comm u t] at this

lemma mono (hF : Monotone F) (h : Shifted F t P Q) (htu : t ≤ u) : Shifted F u P Q := fun S hS x hx =>
  (h S hS x hx).trans (hF (by linarith))

lemma map (h : Shifted F t P Q) {f : Ω → Ω'} (hf : Measurable f) : Shifted F t (P.map f) (Q.map f) := fun S hS x hx => by
  rw [measureReal_def, Measure.map_apply hf hS, ← measureReal_def] at hx ⊢
  exact h _ (hf hS) x hx

end Shifted

/-- The cdf of the Laplace distribution. -/
noncomputable def lapCdf (b x : ℝ) : ℝ := (laplace 0 b).real (Set.Iic x)

lemma laplace_neg_loss_antitone {t b : ℝ} (ht : 0 ≤ t) (hb : 0 < b) : Antitone (laplaceLoss (-t) b) := by
  intro x y hxy
  unfold laplaceLoss
  apply div_le_div_of_nonneg_right _ hb.le
  rw [sub_neg_eq_add, sub_neg_eq_add]
  rcases abs_cases x with ⟨e1, _⟩ | ⟨e1, _⟩ <;> rcases abs_cases y with ⟨e2, _⟩ | ⟨e2, _⟩ <;>
  rcases abs_cases (x + t) with ⟨e3, _⟩ | ⟨e3, _⟩ <;> rcases abs_cases (y + t) with ⟨e4, _⟩ | ⟨e4, _⟩ <;>
  rw [e1, e2, e3, e4] <;> linarith

lemma lapCdf_shift (b t x : ℝ) : (laplace (-t) b).real (Set.Iic x) = lapCdf b (x + t) := by
  have : laplace (-t) b = (laplace 0 b).map fun y => 1 * y + -t := by
    rw [laplace_map _ _ _ _ (Or.inl rfl)]; congr 1; ring
  rw [this, measureReal_def, Measure.map_apply (by fun_prop) measurableSet_Iic, ← measureReal_def, lapCdf]
  congr 1
  ext y
  simp only [Set.mem_preimage, Set.mem_Iic]
  constructor <;> intro h <;> linarith

/-- Moving one Laplace coordinate. -/
lemma shifted_laplace_base {t b : ℝ} (ht : 0 ≤ t) (hb : 0 < b) (R : Measure Ω) [IsProbabilityMeasure R] :
    Shifted (lapCdf b) t ((laplace (-t) b).prod R) ((laplace 0 b).prod R) := by
  have p0 := laplace_prob 0 hb
  have p1 := laplace_prob (-t) hb
  intro S hS x hx
  set ν := (laplace 0 b).prod R with hν
  have hmeas : Measurable fun z : ℝ × Ω => Real.exp (laplaceLoss (-t) b z.1) :=
    ((measurable_laplaceLoss (-t) b).exp).comp measurable_fst
  have e1 : (laplace (-t) b).prod R = ν.withDensity fun z => ENNReal.ofReal (Real.exp (laplaceLoss (-t) b z.1)) := by
    rw [laplace_withDensity (-t) b hb, prod_withDensity_left ((measurable_laplaceLoss (-t) b).exp.ennreal_ofReal)]
  have e2 : ν = ν.withDensity fun _ => ENNReal.ofReal 1 := by simp
  have f1 : IsFiniteMeasure (ν.withDensity fun z => ENNReal.ofReal (Real.exp (laplaceLoss (-t) b z.1))) := by
    rw [← e1]; infer_instance
  have f2 : IsFiniteMeasure (ν.withDensity fun _ => ENNReal.ofReal 1) := by
    rw [← e2]; infer_instance
  have key := isHs_of_density ν hmeas (measurable_const (a := (1 : ℝ))) (fun _ => zero_le_one) (laplaceLoss (-t) b x)
    (S := Prod.fst ⁻¹' Set.Iic x) (measurable_fst measurableSet_Iic)
    (fun z hz => by
      rw [mul_one]; exact Real.exp_le_exp.2 (laplace_neg_loss_antitone ht hb hz))
    (fun z hz => by
      rw [mul_one]; exact Real.exp_le_exp.2 (laplace_neg_loss_antitone ht hb (le_of_lt (not_le.1 hz))))
  rw [← e1, ← e2] at key
  have k := key.1 S hS
  have c1 : ((laplace (-t) b).prod R).real (Prod.fst ⁻¹' Set.Iic x) = lapCdf b (x + t) := by
    rw [← lapCdf_shift, ← Set.prod_univ, measureReal_prod_prod]; simp
  have c0 : ν.real (Prod.fst ⁻¹' Set.Iic x) = lapCdf b x := by
    rw [hν, ← Set.prod_univ, measureReal_prod_prod]; simp [lapCdf]
  rw [c1, c0] at k
  have := Real.exp_pos (laplaceLoss (-t) b x)
  nlinarith

lemma shifted_laplace_one (a c : ℝ) {b : ℝ} (hb : 0 < b) (R : Measure Ω) [IsProbabilityMeasure R] :
    Shifted (lapCdf b) |a - c| ((laplace a b).prod R) ((laplace c b).prod R) := by
  have key : ∃ f : ℝ → ℝ, Measurable f ∧ laplace a b = (laplace (-|a - c|) b).map f ∧ laplace c b = (laplace 0 b).map f := by
    obtain ⟨f, hf, h1, h2⟩ := laplace_reduce a c b
    refine ⟨f ∘ fun x => -1 * x + 0, hf.comp (by fun_prop), ?_, ?_⟩
    · rw [← Measure.map_map hf (by fun_prop), laplace_map _ _ _ _ (Or.inr rfl), h1]; congr 2; ring
    · rw [← Measure.map_map hf (by fun_prop), laplace_map _ _ _ _ (Or.inr rfl), h2]; congr 2; ring
  obtain ⟨f, hf, h1, h2⟩ := key
  have p0 := laplace_prob 0 hb
  have p1 := laplace_prob (-|a - c|) hb
  have := (shifted_laplace_base (abs_nonneg (a - c)) hb R).map (f := Prod.map f id) (hf.prodMap measurable_id)
  rwa [← Measure.map_prod_map _ _ hf measurable_id, ← Measure.map_prod_map _ _ hf measurable_id, Measure.map_id, ← h1, ← h2] at this

lemma lapCdf_mono {b : ℝ} (hb : 0 < b) : Monotone (lapCdf b) := by
  have := laplace_prob 0 hb
  intro x y h
  exact measureReal_mono (Set.Iic_subset_Iic.2 h)

/-- Changing one coordinate of a vector. -/
lemma shifted_laplaceVec_update {d : ℕ} (a : Fin d → ℝ) (i : Fin d) (v : ℝ) {b : ℝ} (hb : 0 < b) :
    Shifted (lapCdf b) |a i - v| (laplaceVec a b) (laplaceVec (Function.update a i v) b) := by
  have hp := fun c => laplace_prob c hb
  cases d with
  | zero => exact i.elim0
  | succ d =>
    have e : ∀ c : Fin (d + 1) → ℝ, laplaceVec c b =
        ((laplace (c i) b).prod (Measure.pi fun j => laplace (c (i.succAbove j)) b)).map
          (MeasurableEquiv.piFinSuccAbove (fun _ => ℝ) i).symm := by
      intro c
      have := (measurePreserving_piFinSuccAbove (fun j => laplace (c j) b) i).symm
      rw [laplaceVec, ← this.map_eq]
    rw [e a, e (Function.update a i v)]
    have e2 : (fun j => laplace (Function.update a i v (i.succAbove j)) b) = fun j => laplace (a (i.succAbove j)) b := by
      funext j
      rw [Function.update_of_ne (Fin.succAbove_ne i j)]
    rw [e2, Function.update_self]
    exact (shifted_laplace_one (a i) v hb _).map (MeasurableEquiv.measurable _)

/-- Laplace noise on vectors: the trade-off is that of one coordinate moved by the `ℓ₁` distance. -/
lemma shifted_laplaceVec {d : ℕ} (a c : Fin d → ℝ) {b : ℝ} (hb : 0 < b) :
    Shifted (lapCdf b) (∑ i, |a i - c i|) (laplaceVec a b) (laplaceVec c b) := by
  classical
  have key : ∀ T : Finset (Fin d), Shifted (lapCdf b) (∑ i ∈ T, |a i - c i|) (laplaceVec a b)
      (laplaceVec (fun i => if i ∈ T then c i else a i) b) := by
    intro T
    induction T using Finset.induction_on with
    | empty => simpa using Shifted.refl _
    | insert i T hi ih =>
      rw [Finset.sum_insert hi, add_comm]
      refine ih.trans ?_
      have := shifted_laplaceVec_update (fun j => if j ∈ T then c j else a j) i (c i) hb
      simp only [if_neg hi] at this
      convert this using 2
      funext j
      by_cases hj : j = i
      · subst hj; simp
      · rw [Function.update_of_ne hj]; simp [hj]
  have := key Finset.univ
  simpa using this

/-! ### From the trade-off to deltas -/

/-- The noise has a continuous cdf `F`. -/
structure NoiseCdf (μ : Measure ℝ) (F : ℝ → ℝ) : Prop where
  prob : IsProbabilityMeasure μ
  noAtoms : ∀ x, μ {x} = 0
  cdf : ∀ x, F x = μ.real (Set.Iic x)

namespace NoiseCdf
variable {μ : Measure ℝ} {F : ℝ → ℝ} (h : NoiseCdf μ F)
include h

lemma eq_cdf : F = ProbabilityTheory.cdf μ := by
  have := h.prob
  funext x
  rw [h.cdf, ProbabilityTheory.cdf_eq_real]

lemma mono : Monotone F := by rw [h.eq_cdf]; exact ProbabilityTheory.monotone_cdf μ

lemma nonneg (x : ℝ) : 0 ≤ F x := by rw [h.cdf]; exact measureReal_nonneg

lemma le_one (x : ℝ) : F x ≤ 1 := by have := h.prob; rw [h.cdf]; exact measureReal_le_one

lemma continuous : Continuous F := by
  have := h.prob
  rw [h.eq_cdf]
  rw [continuous_iff_continuousAt]
  intro x
  have hm := (ProbabilityTheory.cdf μ).mono
  rw [Monotone.continuousAt_iff_leftLim_eq_rightLim hm, StieltjesFunction.rightLim_eq]
  have h1 := StieltjesFunction.measure_singleton (ProbabilityTheory.cdf μ) x
  rw [ProbabilityTheory.measure_cdf, h.noAtoms] at h1
  have h2 := ENNReal.ofReal_eq_zero.1 h1.symm
  have h3 := hm.leftLim_le (le_refl x)
  linarith

lemma exists_eq {β : ℝ} (h0 : 0 < β) (h1 : β < 1) : ∃ x, F x = β := by
  have := h.prob
  have t0 : Filter.Tendsto F Filter.atBot (nhds 0) := by rw [h.eq_cdf]; exact ProbabilityTheory.tendsto_cdf_atBot μ
  have t1 : Filter.Tendsto F Filter.atTop (nhds 1) := by rw [h.eq_cdf]; exact ProbabilityTheory.tendsto_cdf_atTop μ
  obtain ⟨x, hx⟩ := (t0.eventually (gt_mem_nhds h0)).exists
  obtain ⟨y, hy⟩ := (t1.eventually (lt_mem_nhds h1)).exists
  obtain ⟨z, hz⟩ := mem_range_of_exists_le_of_exists_ge h.continuous ⟨x, hx.le⟩ ⟨y, hy.le⟩
  exact ⟨z, hz⟩

lemma tendsto_bot : Filter.Tendsto F Filter.atBot (nhds 0) := by
  have := h.prob
  rw [h.eq_cdf]; exact ProbabilityTheory.tendsto_cdf_atBot μ

lemma cdf_mix {q : ℝ} (q0 : 0 ≤ q) (q1 : q ≤ 1) (d x : ℝ) : (mixShift μ q d).real (Set.Iic x) = (1 - q) * F x + q * F (x - d) := by
  have := h.prob
  have hd : Measurable fun x : ℝ => x + d := by fun_prop
  have hmap : IsProbabilityMeasure (μ.map fun x => x + d) := Measure.isProbabilityMeasure_map hd.aemeasurable
  rw [mixShift, measureReal_def, Measure.add_apply, Measure.smul_apply, Measure.smul_apply, smul_eq_mul, smul_eq_mul,
    ENNReal.toReal_add (ENNReal.mul_ne_top ENNReal.ofReal_ne_top (measure_ne_top _ _))
      (ENNReal.mul_ne_top ENNReal.ofReal_ne_top (measure_ne_top _ _)), ENNReal.toReal_mul, ENNReal.toReal_mul,
    ENNReal.toReal_ofReal (by linarith), ENNReal.toReal_ofReal q0, Measure.map_apply hd measurableSet_Iic, ← measureReal_def,
    ← measureReal_def, h.cdf, h.cdf]
  congr 3
  ext y
  simp only [Set.mem_preimage, Set.mem_Iic]
  constructor <;> intro h <;> linarith

/-- REMOVE: a valid delta for the sampled noise is valid for the sampled pair. -/
lemma remove_bound {s q ε D : ℝ} (q0 : 0 ≤ q) (q1 : q ≤ 1) (hD : Indist (mixShift μ q (-s)) μ ε D)
    {K' K : Measure Ω} [IsProbabilityMeasure K'] [IsProbabilityMeasure K] (hs : Shifted F s K' K) (S : Set Ω) (hS : MeasurableSet S) :
    (1 - q) * K.real S + q * K'.real S ≤ Real.exp ε * K.real S + D := by
  have := h.prob
  have hx : ∀ x, (1 - q) * F x + q * F (x + s) ≤ Real.exp ε * F x + D := by
    intro x
    have := hD _ (measurableSet_Iic (a := x))
    rwa [h.cdf_mix q0 q1, ← h.cdf, sub_neg_eq_add] at this
  rcases (measureReal_nonneg (μ := K) (s := S)).eq_or_lt with h0 | h0
  · rw [← h0]
    have k0 : K'.real S ≤ 0 := by
      by_contra hc
      have hc := not_le.1 hc
      have ht : Filter.Tendsto (fun x => F (x + s)) Filter.atBot (nhds 0) :=
        h.tendsto_bot.comp (Filter.tendsto_atBot_add_const_right _ s Filter.tendsto_id)
      obtain ⟨x, hx⟩ := (ht.eventually (gt_mem_nhds hc)).exists
      have := hs S hS x (by rw [← h0]; exact h.nonneg x)
      linarith
    have : 0 ≤ D := by simpa using hD ∅ MeasurableSet.empty
    nlinarith
  · rcases (measureReal_le_one (μ := K) (s := S)).eq_or_lt with h1 | h1
    · rw [h1]
      have := hD _ MeasurableSet.univ
      have hp := mixShift_prob μ q q0 q1 (-s)
      rw [probReal_univ, probReal_univ] at this
      have k1 : K'.real S ≤ 1 := measureReal_le_one
      nlinarith
    · obtain ⟨x, hxx⟩ := h.exists_eq h0 h1
      have a := hs S hS x hxx.ge
      have b := hx x
      rw [hxx] at b
      nlinarith

/-- ADD: likewise. -/
lemma add_bound {s q ε D : ℝ} (q0 : 0 ≤ q) (q1 : q ≤ 1) (hD : Indist μ (mixShift μ q s) ε D)
    {K' K : Measure Ω} [IsProbabilityMeasure K'] [IsProbabilityMeasure K] (hs : Shifted F s K K') (S : Set Ω) (hS : MeasurableSet S) :
    K.real S ≤ Real.exp ε * ((1 - q) * K.real S + q * K'.real S) + D := by
  have := h.prob
  have hD0 : 0 ≤ D := by simpa using hD ∅ MeasurableSet.empty
  have hx : ∀ x, F (x + s) ≤ Real.exp ε * ((1 - q) * F (x + s) + q * F x) + D := by
    intro x
    have := hD _ (measurableSet_Iic (a := x + s))
    rwa [h.cdf_mix q0 q1, ← h.cdf, add_sub_cancel_right] at this
  have he := Real.exp_pos ε
  have nK' : 0 ≤ K'.real S := measureReal_nonneg
  have nK : 0 ≤ K.real S := measureReal_nonneg
  by_cases hc : Real.exp ε * (1 - q) ≤ 1
  · rcases nK'.eq_or_lt with h0 | h0
    · have k0 : K.real S ≤ 0 := by
        by_contra hc
        have hc := not_le.1 hc
        have ht : Filter.Tendsto (fun x => F (x + s)) Filter.atBot (nhds 0) :=
          h.tendsto_bot.comp (Filter.tendsto_atBot_add_const_right _ s Filter.tendsto_id)
        obtain ⟨x, hx⟩ := (ht.eventually (gt_mem_nhds hc)).exists
        have := hs S hS x (by rw [← h0]; exact h.nonneg x)
        linarith
      rw [← h0, le_antisymm k0 nK]; simpa using hD0
    · rcases (measureReal_le_one (μ := K') (s := S)).eq_or_lt with h1 | h1
      · rw [h1]
        have := hD _ MeasurableSet.univ
        have hp := mixShift_prob μ q q0 q1 s
        rw [probReal_univ, probReal_univ] at this
        have k1 : K.real S ≤ 1 := measureReal_le_one
        nlinarith
      · obtain ⟨x, hxx⟩ := h.exists_eq h0 h1
        have a := hs S hS x hxx.ge
        have b := hx x
        rw [hxx] at b
        have c := mul_le_mul_of_nonneg_right a (show 0 ≤ 1 - Real.exp ε * (1 - q) by linarith)
        nlinarith
  · have hc := (not_le.1 hc).le
    have : 0 ≤ Real.exp ε * (q * K'.real S) := by positivity
    nlinarith

end NoiseCdf

lemma laplace_noiseCdf {b : ℝ} (hb : 0 < b) : NoiseCdf (laplace 0 b) (lapCdf b) where
  prob := laplace_prob 0 hb
  noAtoms x := by
    unfold laplace
    exact withDensity_absolutelyContinuous _ _ (measure_singleton x)
  cdf _ := rfl

end Verif.Mech
