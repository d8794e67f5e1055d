import Verif.Proofs.SmallestNoisePure
import Verif.Proofs.WorGauss

/-! # The delta of repeated Gaussian queries -/

namespace Verif.Spec
open MeasureTheory ProbabilityTheory Verif.Mech
open scoped RealInnerProductSpace NNReal

/-- The projection of a normally distributed vector to the axis of its mean. -/
lemma gaussianVec_proj {σ : ℝ} (hσ : 0 < σ) (t : ℝ) :
    (gaussianVec (t • (EuclideanSpace.single 0 1 : Vec 1)) σ).map (fun x => ⟪(EuclideanSpace.single 0 1 : Vec 1), x⟫) =
      gaussianReal t (Real.toNNReal (σ ^ 2)) := by
  set e : Vec 1 := EuclideanSpace.single 0 1 with he
  have hn : ‖e‖ = 1 := by simp [he]
  have h0 : e ≠ 0 := by intro h; rw [h, norm_zero] at hn; exact zero_ne_one hn
  obtain ⟨h1, h2⟩ := Wor.gaussianVec_dir (d := 1) 0 e h0 hσ t
  rw [zero_add, hn] at h1
  rw [h1, Measure.map_map (by fun_prop) (measurable_spread _ _ _ _)]
  have : ((fun x => ⟪e, x⟫) ∘ spread 0 e (σ / 1) 1) = Prod.fst := by
    funext p
    have := h2 p
    rw [hn, inner_zero_right] at this
    simpa using this
  rw [this, Measure.map_fst_prod]
  simp

/-- There are adaptive (in fact independent) repeated queries whose sum of outputs has these laws. -/
lemma gaussian_worst {σ : ℝ} (hσ : 0 < σ) {s : ℝ} (hs : 0 ≤ s) (n : ℕ) : ∃ (Ω : Type) (_ : MeasurableSpace Ω) (P Q : Measure Ω) (f : Ω → ℝ),
    Measurable f ∧ Adaptive (List.replicate n (GaussianQuery σ s)) Ω P Q ∧
      P.map f = gaussianReal (n * s) (n * Real.toNNReal (σ ^ 2)) ∧ Q.map f = gaussianReal 0 (n * Real.toNNReal (σ ^ 2)) := by
  induction n with
  | zero =>
    refine ⟨Unit, inferInstance, Measure.dirac (), Measure.dirac (), fun _ => 0, measurable_const, ?_, ?_, ?_⟩
    · exact .nil _
    · simp
    · simp
  | succ n ih =>
    obtain ⟨Ω, _, P, Q, f, hf, ha, hP, hQ⟩ := ih
    obtain ⟨_, _⟩ := ha.isProb
    set e : Vec 1 := EuclideanSpace.single 0 1 with he
    have hn : ‖e‖ = 1 := by simp [he]
    have p1 : ∀ a : Vec 1, IsProbabilityMeasure (gaussianVec a σ) := fun a => Measure.isProbabilityMeasure_map (by fun_prop)
    have hm : Measurable fun x : Vec 1 => ⟪e, x⟫ := by fun_prop
    have hm2 : Measurable fun x : Vec 1 × Ω => ⟪e, x.1⟫ + f x.2 := by fun_prop
    have key : ∀ (A : Measure (Vec 1)) (B : Measure Ω) [IsProbabilityMeasure A] [IsProbabilityMeasure B],
        (A.prod B).map (fun x => ⟪e, x.1⟫ + f x.2) = (A.map fun x => ⟪e, x⟫).conv (B.map f) := by
      intro A B _ _
      rw [Measure.conv, Measure.map_prod_map _ _ hm hf, Measure.map_map (by fun_prop) (by fun_prop)]
      rfl
    refine ⟨Vec 1 × Ω, inferInstance, (gaussianVec (s • e) σ) ⊗ₘ (Kernel.const _ P), (gaussianVec ((0 : ℝ) • e) σ) ⊗ₘ (Kernel.const _ Q),
      fun x => ⟪e, x.1⟫ + f x.2, hm2, ?_, ?_, ?_⟩
    · rw [List.replicate_succ]
      refine .cons _ _ _ _ (.mk _ _ ?_) fun x => ?_
      · rw [zero_smul, sub_zero, norm_smul, hn, mul_one, Real.norm_eq_abs, abs_of_nonneg hs]
      · simpa using ha
    · rw [Measure.compProd_const, key, gaussianVec_proj hσ, hP, gaussianReal_conv_gaussianReal]
      congr 1
      · push_cast; ring
      · push_cast; ring
    · rw [Measure.compProd_const, key, gaussianVec_proj hσ, hQ, gaussianReal_conv_gaussianReal]
      congr 1
      · simp
      · push_cast; ring

/-- Necessary: the delta of the sum. -/
lemma gaussian_necessary {σ s : ℝ} (hσ : 0 < σ) (hs : 0 < s) {n : ℕ} (hn : 0 < n) {ε δ : ℝ} (h : RepeatedPrivate (GaussianQuery σ s) n ε δ) :
    (gaussLaw (σ / (s * Real.sqrt n))).hs ε ≤ δ := by
  obtain ⟨Ω, _, P, Q, f, hf, ha, hP, hQ⟩ := gaussian_worst hσ hs.le n
  have hn' : (0 : ℝ) < n := by exact_mod_cast hn
  have hq : 0 < Real.sqrt n := Real.sqrt_pos.2 hn'
  have h1 := Indist.map (h Ω P Q ha).1 hf
  rw [hP, hQ] at h1
  have h2 := ((gaussLaw_of (z := σ / (s * Real.sqrt n)) (t := n * s) (by positivity) (by positivity)).isHs ε).2
  refine h2 ?_
  have e : Real.toNNReal ((σ / (s * Real.sqrt n) * (n * s)) ^ 2) = n * Real.toNNReal (σ ^ 2) := by
    rw [← Real.toNNReal_coe_nat, ← Real.toNNReal_mul hn'.le]
    congr 1
    rw [mul_pow, div_pow, mul_pow, mul_pow, Real.sq_sqrt hn'.le]
    field_simp
  rw [e]
  exact h1

lemma gaussianQuery_pair {σ s : ℝ} (hs : 0 < s) {Ω : Type} [MeasurableSpace Ω] {P Q : Measure Ω} (h : GaussianQuery σ s Ω P Q) :
    GaussianPair (σ / s) Ω P Q := by
  cases h with
  | mk a a' h =>
    have := GaussianPair.mk (z := σ / s) a a' s hs h
    rwa [div_mul_cancel₀ _ hs.ne'] at this

lemma gaussianQuery_symm {σ s : ℝ} {Ω : Type} [MeasurableSpace Ω] {P Q : Measure Ω} (h : GaussianQuery σ s Ω P Q) :
    GaussianQuery σ s Ω Q P := by
  cases h with
  | mk a a' h => exact .mk a' a (by rwa [norm_sub_rev])

/-- Sufficient: the delta of the sum. -/
lemma gaussian_sufficient {σ s : ℝ} (hσ : 0 < σ) (hs : 0 < s) {n : ℕ} (hn : 0 < n) {ε δ : ℝ}
    (h : (gaussLaw (σ / (s * Real.sqrt n))).hs ε ≤ δ) : RepeatedPrivate (GaussianQuery σ s) n ε δ := by
  have hz : 0 < σ / s := by positivity
  have key : ∀ (Ω : Type) [MeasurableSpace Ω] (P Q : Measure Ω), Adaptive (List.replicate n (GaussianQuery σ s)) Ω P Q → Indist P Q ε δ := by
    intro Ω _ P Q ha
    have := (ha.dominates (List.replicate n (gaussLaw (σ / s))) (by
      rw [List.forall₂_iff_get]
      refine ⟨by simp, fun i h1 h2 => ?_⟩
      simp only [List.get_eq_getElem, List.getElem_replicate]
      intro Ω _ P Q _ _ hC
      exact gaussLaw_lawFor hz Ω P Q (gaussianQuery_pair hs hC))).2.2 ε
    rw [← pow_eq_convAll, gaussLaw_pow hz n hn, div_div] at this
    exact this.mono h
  intro Ω _ P Q ha
  refine ⟨key Ω P Q ha, key Ω Q P ?_⟩
  refine ha.swap.mono ?_
  rw [List.map_replicate, List.forall₂_iff_get]
  refine ⟨by simp, fun i h1 h2 => ?_⟩
  simp only [List.get_eq_getElem, List.getElem_replicate]
  intro Ω _ P Q _ _ hC
  exact gaussianQuery_symm hC

/-- More noise, smaller delta. -/
lemma gaussLaw_hs_anti {z z' : ℝ} (hz : 0 < z) (h : z ≤ z') (ε : ℝ) : (gaussLaw z').hs ε ≤ (gaussLaw z).hs ε := by
  have hz' : 0 < z' := hz.trans_le h
  -- answers at distance `z / z'` with noise `z`
  have h1 : RepeatedPrivate (GaussianQuery z 1) 1 ε ((gaussLaw z).hs ε) := gaussian_sufficient hz one_pos one_pos (by simp)
  have h2 : RepeatedPrivate (GaussianQuery z (z / z')) 1 ε ((gaussLaw z).hs ε) := h1.mono fun Ω _ P Q hC => by
    cases hC with
    | mk a a' hh => exact .mk a a' (hh.trans ((div_le_one hz').2 h))
  have h3 := gaussian_necessary hz (by positivity) one_pos h2
  have e : z / (z / z' * Real.sqrt (1 : ℕ)) = z' := by simp; field_simp
  rwa [e] at h3

/-- The delta tends to zero. -/
lemma gaussLaw_hs_le {z ε : ℝ} (hz : 0 < z) (hε : 0 < ε) : (gaussLaw z).hs ε ≤ (1 / z ^ 2 + (1 / (2 * z ^ 2)) ^ 2) / (4 * ε) := by
  set v := Real.toNNReal (1 / z ^ 2) with hv
  set m := 1 / (2 * z ^ 2) with hm
  have h2 : MemLp (id : ℝ → ℝ) 2 (gaussianReal m v) := memLp_id_gaussianReal 2
  have hvar := variance_eq_sub h2
  rw [variance_id_gaussianReal] at hvar
  have hmean : ∫ x, id x ∂(gaussianReal m v) = m := by simp
  rw [hmean] at hvar
  have hvc : (v : ℝ) = 1 / z ^ 2 := Real.coe_toNNReal _ (by positivity)
  have hsq : ∫ x, x ^ 2 ∂(gaussianReal m v) = 1 / z ^ 2 + m ^ 2 := by
    have : ∫ x, ((id : ℝ → ℝ) ^ 2) x ∂(gaussianReal m v) = ∫ x, x ^ 2 ∂(gaussianReal m v) := by simp
    rw [this, hvc] at hvar
    linarith
  have hint : Integrable (fun x : ℝ => x ^ 2) (gaussianReal m v) := h2.integrable_sq
  unfold LossLaw.hs lossHs
  simp only [gaussLaw, zero_add]
  calc ∫ x, hinge (ε : EReal) x ∂(gaussianReal m v) ≤ ∫ x, x ^ 2 / (4 * ε) ∂(gaussianReal m v) := by
        refine integral_mono_of_nonneg (ae_of_all _ fun x => ?_) (hint.div_const _) (ae_of_all _ fun x => ?_)
        · simp [hinge]
        · simp only [hinge, EReal.coe_ne_top, EReal.coe_ne_bot, if_false, EReal.toReal_coe]
          refine max_le (by positivity) ?_
          rw [le_div_iff₀ (by positivity)]
          have := Real.add_one_le_exp (ε - x)
          nlinarith [sq_nonneg (x - 2 * ε)]
    _ = _ := by rw [integral_div, hsq]

end Verif.Spec

namespace Verif.SmallestNoise
open MeasureTheory ProbabilityTheory Verif.Spec Verif.Mech InverseMonotone

lemma gaussianDelta_ok {σ s : ℝ} (hσ : 0 < σ) (hs : 0 < s) (ε : ℝ) : gaussianDelta ε s 1 σ = .ok ((gaussLaw (σ / s)).hs ε) := by
  obtain ⟨m, hm⟩ := mkGaussian_ok (σ := σ) (s := s) (lb := -50) (q := 1) .remove hσ (by norm_num) ⟨hs, one_pos, le_rfl⟩
  obtain ⟨d, h1, h2⟩ := Props.C31_gaussian_partial hm ε (.inl rfl)
  unfold gaussianDelta
  rw [hm]
  simp only
  rw [h1]
  have h3 := gaussLaw_isHs (z := σ / s) (s := s) (by positivity) hs ε
  rw [div_mul_cancel₀ _ hs.ne'] at h3
  rw [h2.unique h3]

lemma gaussianDelta_params {σ s q v ε : ℝ} (h : gaussianDelta ε s q σ = .ok v) : 0 < σ ∧ 0 < s ∧ 0 < q ∧ q ≤ 1 := by
  unfold gaussianDelta at h
  cases hm : mkGaussian σ s (-50) q .remove with
  | error e => rw [hm] at h; simp at h
  | ok m =>
    obtain ⟨hf, -, rfl, -, hs, hb⟩ := gaussian_faithful hm
    exact ⟨hb, hs, hf.q0, hf.q1⟩

end Verif.SmallestNoise
