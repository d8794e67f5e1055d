import Verif.Proofs.GaussianVec

/-! # Rényi divergence of the vector-valued, Poisson-sampled Gaussian mechanism -/

namespace Verif.Spec
open MeasureTheory ProbabilityTheory
open scoped ENNReal NNReal

variable {d : ℕ}

/-- Rényi bounds survive randomised post-processing. -/
lemma renyi_prod_map {Ω Ω' Ω'' : Type*} [MeasurableSpace Ω] [MeasurableSpace Ω'] [MeasurableSpace Ω''] {α : ℝ} (hα : 1 ≤ α)
    {P Q : Measure Ω} [IsProbabilityMeasure P] [IsProbabilityMeasure Q] {ν : Measure Ω'} [IsProbabilityMeasure ν] {r : ℝ}
    (h : renyiDiv α P Q ≤ (r : EReal)) {f : Ω × Ω' → Ω''} (hf : Measurable f) :
    renyiDiv α ((P.prod ν).map f) ((Q.prod ν).map f) ≤ (r : EReal) := by
  refine renyi_map hα hf ?_
  rw [← Measure.compProd_const, ← Measure.compProd_const]
  have := renyi_adaptive (κ := Kernel.const Ω ν) (η := Kernel.const Ω ν) (s := 0) hα h fun x => by
    rw [Kernel.const_apply, RdpConv.renyi_self α hα]; simp
  simpa using this

/-- The mixture over finitely many values of an index. -/
lemma renyi_mixture {ι Ω : Type*} [MeasurableSpace Ω] {α : ℝ} (hα : 1 ≤ α) (T : Finset ι) (w : ι → ℝ≥0∞) (hw : ∑ s ∈ T, w s = 1)
    (A B : ι → Measure Ω) [∀ s, IsProbabilityMeasure (A s)] [∀ s, IsProbabilityMeasure (B s)] {r : ℝ}
    (h : ∀ s, renyiDiv α (A s) (B s) ≤ (r : EReal)) :
    renyiDiv α (∑ s ∈ T, w s • A s) (∑ s ∈ T, w s • B s) ≤ (r : EReal) := by
  letI : MeasurableSpace ι := ⊤
  let μ : Measure ι := ∑ s ∈ T, w s • Measure.dirac s
  have hμ : IsProbabilityMeasure μ := ⟨by simp [μ, hw]⟩
  have key : ∀ (C : ι → Measure Ω) [∀ s, IsProbabilityMeasure (C s)],
      ∃ κ : Kernel ι Ω, IsMarkovKernel κ ∧ (∀ s, κ s = C s) ∧ (μ ⊗ₘ κ).map Prod.snd = ∑ s ∈ T, w s • C s := by
    intro C _
    let κ : Kernel ι Ω := ⟨C, measurable_from_top⟩
    have hκ : IsMarkovKernel κ := ⟨fun s => inferInstanceAs (IsProbabilityMeasure (C s))⟩
    refine ⟨κ, hκ, fun s => rfl, ?_⟩
    ext S hS
    rw [Measure.map_apply measurable_snd hS, Measure.compProd_apply (measurable_snd hS)]
    simp only [μ]
    rw [lintegral_finsetSum_measure, Measure.finsetSum_apply]
    refine Finset.sum_congr rfl fun s _ => ?_
    rw [lintegral_smul_measure, lintegral_dirac' _ measurable_from_top]
    rfl
  obtain ⟨κ, _, hκ, e1⟩ := key A
  obtain ⟨η, _, hη, e2⟩ := key B
  rw [← e1, ← e2]
  refine renyi_map hα measurable_snd ?_
  have := renyi_adaptive (κ := κ) (η := η) (r := 0) (s := r) hα (P := μ) (Q := μ) (by rw [RdpConv.renyi_self α hα]; simp)
    fun x => by rw [hκ, hη]; exact h x
  simpa using this

instance gaussianVec_prob (a : Vec d) (σ : ℝ) : IsProbabilityMeasure (gaussianVec a σ) :=
  Measure.isProbabilityMeasure_map (by fun_prop)

/-- The Gaussian mechanism. -/
lemma renyi_gaussianVec {α : ℝ} (hα : 1 ≤ α) {z : ℝ} (hz : 0 < z) (a b : Vec d) {Δ : ℝ} (hΔ : 0 < Δ) (h : ‖a - b‖ ≤ Δ) :
    renyiDiv α (gaussianVec a (z * Δ)) (gaussianVec b (z * Δ)) ≤ ((α / (2 * z ^ 2) : ℝ) : EReal) := by
  have hv : Real.toNNReal (z ^ 2) ≠ 0 := by simpa using hz.ne'
  have e1 := gaussianVec_reduce b (a - b) z Δ hΔ h 1
  have e0 := gaussianVec_reduce b (a - b) z Δ hΔ h 0
  rw [one_smul, add_sub_cancel] at e1
  rw [zero_smul, add_zero] at e0
  rw [e1, e0]
  refine renyi_prod_map hα ?_ (measurable_spread _ _ _ _)
  rw [renyi_gaussian' hα 1 hv, Real.coe_toNNReal _ (sq_nonneg z)]
  simp

/-- One record included with probability `q`. -/
noncomputable def mixVec (q : ℝ) (a b : Vec d) (σ : ℝ) : Measure (Vec d) :=
  ENNReal.ofReal (1 - q) • gaussianVec b σ + ENNReal.ofReal q • gaussianVec a σ

lemma mixVec_prob {q : ℝ} (h0 : 0 ≤ q) (h1 : q ≤ 1) (a b : Vec d) (σ : ℝ) : IsProbabilityMeasure (mixVec q a b σ) := by
  constructor
  unfold mixVec
  simp only [Measure.add_apply, Measure.smul_apply, measure_univ, smul_eq_mul, mul_one]
  rw [← ENNReal.ofReal_add (by linarith) h0]
  simp

lemma mixVec_reduce {q : ℝ} (a b : Vec d) (z : ℝ) {Δ : ℝ} (hΔ : 0 < Δ) (h : ‖a - b‖ ≤ Δ) :
    mixVec q a b (z * Δ) = ((gaussMix q (Real.toNNReal (z ^ 2))).prod (stdGaussian (Vec d))).map (spread b (a - b) z Δ) := by
  have e1 := gaussianVec_reduce b (a - b) z Δ hΔ h 1
  have e0 := gaussianVec_reduce b (a - b) z Δ hΔ h 0
  rw [one_smul, add_sub_cancel] at e1
  rw [zero_smul, add_zero] at e0
  unfold mixVec gaussMix
  rw [Measure.add_prod, Measure.map_add _ _ (measurable_spread _ _ _ _), Measure.prod_smul_left, Measure.prod_smul_left,
    Measure.map_smul, Measure.map_smul, ← e1, ← e0]

lemma poisson_insert {R : Type} [DecidableEq R] {q : ℝ} (h0 : 0 ≤ q) (h1 : q ≤ 1) (σ : ℝ) (f : Finset R → Vec d) (D : Finset R) (r : R)
    (hr : r ∉ D) : poissonGaussianMech q σ f (insert r D) =
      ∑ s ∈ D.powerset, ENNReal.ofReal (q ^ s.card * (1 - q) ^ (D.card - s.card)) • mixVec q (f (insert r s)) (f s) σ := by
  unfold poissonGaussianMech
  rw [Finset.sum_powerset_insert hr, ← Finset.sum_add_distrib]
  refine Finset.sum_congr rfl fun s hs => ?_
  have hsD := Finset.mem_powerset.1 hs
  have hc := Finset.card_le_card hsD
  have hrs : r ∉ s := fun h => hr (hsD h)
  rw [Finset.card_insert_of_notMem hr, Finset.card_insert_of_notMem hrs, mixVec, smul_add, smul_smul, smul_smul,
    show D.card + 1 - (s.card + 1) = D.card - s.card by omega, show D.card + 1 - s.card = D.card - s.card + 1 by omega,
    ← ENNReal.ofReal_mul (mul_nonneg (pow_nonneg h0 _) (pow_nonneg (by linarith) _)),
    ← ENNReal.ofReal_mul (mul_nonneg (pow_nonneg h0 _) (pow_nonneg (by linarith) _))]
  congr 3 <;> ring

lemma poisson_weights {R : Type} [DecidableEq R] {q : ℝ} (h0 : 0 ≤ q) (h1 : q ≤ 1) (D : Finset R) :
    ∑ s ∈ D.powerset, ENNReal.ofReal (q ^ s.card * (1 - q) ^ (D.card - s.card)) = 1 := by
  rw [← ENNReal.ofReal_sum_of_nonneg fun s _ => mul_nonneg (pow_nonneg h0 _) (pow_nonneg (by linarith) _)]
  have := Finset.sum_pow_mul_eq_add_pow q (1 - q) D
  rw [this]; simp

/-- The Poisson-sampled Gaussian mechanism: bounds for the one-dimensional mixture, in both directions, are bounds for the
mechanism. -/
lemma renyi_poissonGaussian_of {q : ℝ} (h0 : 0 ≤ q) (h1 : q ≤ 1) {z : ℝ} {α : ℝ} (hα : 1 ≤ α) {r₀ : ℝ}
    (hf : renyiDiv α (gaussMix q (Real.toNNReal (z ^ 2))) (gaussianReal 0 (Real.toNNReal (z ^ 2))) ≤ (r₀ : EReal))
    (hb : renyiDiv α (gaussianReal 0 (Real.toNNReal (z ^ 2))) (gaussMix q (Real.toNNReal (z ^ 2))) ≤ (r₀ : EReal)) {Ω : Type}
    [MeasurableSpace Ω] (P Q : Measure Ω) (h : PoissonGaussianPair q z Ω P Q) : renyiDiv α P Q ≤ (r₀ : EReal) := by
  have := gaussMix_prob h0 h1 (Real.toNNReal (z ^ 2))
  cases h with
  | remove f Δ hΔ hf' D r hr =>
    rw [poisson_insert h0 h1 _ _ _ _ hr]
    have hp := fun s => mixVec_prob h0 h1 (f (insert r s)) (f s) (z * Δ)
    refine renyi_mixture hα _ _ (poisson_weights h0 h1 D) (fun s => mixVec q (f (insert r s)) (f s) (z * Δ)) (fun s => gaussianVec (f s) (z * Δ))
      fun s => ?_
    have e0 := gaussianVec_reduce (f s) (f (insert r s) - f s) z Δ hΔ (hf' s r) 0
    rw [zero_smul, add_zero] at e0
    rw [e0, mixVec_reduce _ _ z hΔ (hf' s r)]
    exact renyi_prod_map hα hf (measurable_spread _ _ _ _)
  | add f Δ hΔ hf' D r hr =>
    rw [poisson_insert h0 h1 _ _ _ _ hr]
    have hp := fun s => mixVec_prob h0 h1 (f (insert r s)) (f s) (z * Δ)
    refine renyi_mixture hα _ _ (poisson_weights h0 h1 D) (fun s => gaussianVec (f s) (z * Δ)) (fun s => mixVec q (f (insert r s)) (f s) (z * Δ))
      fun s => ?_
    have e0 := gaussianVec_reduce (f s) (f (insert r s) - f s) z Δ hΔ (hf' s r) 0
    rw [zero_smul, add_zero] at e0
    rw [e0, mixVec_reduce _ _ z hΔ (hf' s r)]
    exact renyi_prod_map hα hb (measurable_spread _ _ _ _)

/-- The Poisson-sampled Gaussian mechanism at integer orders, both directions. -/
lemma renyi_poissonGaussian {q : ℝ} (h0 : 0 ≤ q) (h1 : q ≤ 1) {z : ℝ} (hz : 0 < z) (m : ℕ) (hm : 2 ≤ m) {Ω : Type}
    [MeasurableSpace Ω] (P Q : Measure Ω) (h : PoissonGaussianPair q z Ω P Q) :
    renyiDiv m P Q ≤ ((Real.log (mixMoment q (Real.toNNReal (z ^ 2)) m) / (m - 1) : ℝ) : EReal) := by
  have hv : Real.toNNReal (z ^ 2) ≠ 0 := by simpa using hz.ne'
  have hm1 : (1 : ℝ) ≤ m := by exact_mod_cast (by omega : 1 ≤ m)
  exact renyi_poissonGaussian_of h0 h1 hm1 (renyi_gaussMix h0 h1 hv m hm).le (renyi_gaussMix_reverse h0 h1 hv m hm) P Q h

/-- A bound on the divergence of the mixture from the Gaussian is a bound for the mechanism, in both directions. -/
lemma renyi_poissonGaussian_fwd {q : ℝ} (h0 : 0 ≤ q) (h1 : q ≤ 1) {z : ℝ} (hz : 0 < z) {α : ℝ} (hα : 1 < α) {r₀ : ℝ}
    (hf : renyiDiv α (gaussMix q (Real.toNNReal (z ^ 2))) (gaussianReal 0 (Real.toNNReal (z ^ 2))) ≤ (r₀ : EReal)) {Ω : Type}
    [MeasurableSpace Ω] (P Q : Measure Ω) (h : PoissonGaussianPair q z Ω P Q) : renyiDiv α P Q ≤ (r₀ : EReal) := by
  have hv : Real.toNNReal (z ^ 2) ≠ 0 := by simpa using hz.ne'
  refine renyi_poissonGaussian_of h0 h1 hα.le hf ?_ P Q h
  rw [renyi_le_iff hα] at hf ⊢
  refine ⟨?_, (reverse_moment_le h0 h1 hv hα.le).trans hf.2⟩
  conv_lhs => rw [gaussian_withDensity_mix h0 h1 hv]
  exact withDensity_absolutelyContinuous _ _

end Verif.Spec
