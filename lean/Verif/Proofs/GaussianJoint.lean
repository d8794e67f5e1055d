import Verif.Proofs.RdpGaussian
import Mathlib.MeasureTheory.Measure.CharacteristicFunction.Basic

/-!
# Several Gaussian queries answered together

Queries with noise multipliers `z₁, …, z_m` are, after rescaling, one Gaussian query with noise multiplier `z` where
`1/z² = ∑ 1/zₖ²`.
-/

namespace Verif.Spec
open MeasureTheory ProbabilityTheory Complex
open scoped RealInnerProductSpace

variable {d m : ℕ}

/-- Characteristic function of an affine image of the standard normal distribution. -/
lemma charFun_affine {E F : Type*} [NormedAddCommGroup E] [InnerProductSpace ℝ E] [FiniteDimensional ℝ E] [MeasurableSpace E]
    [BorelSpace E] [NormedAddCommGroup F] [InnerProductSpace ℝ F] [MeasurableSpace F] [OpensMeasurableSpace F] [SecondCountableTopology F]
    {L : E → F} (hL : Measurable L) (c : F) (A : F → E) (h : ∀ z t, ⟪L z, t⟫ = ⟪c, t⟫ + ⟪z, A t⟫) (t : F) :
    charFun ((stdGaussian E).map L) t = cexp (⟪c, t⟫ * I - ‖A t‖ ^ 2 / 2) := by
  rw [charFun_apply, integral_map hL.aemeasurable (by fun_prop)]
  have e : ∀ z : E, cexp (⟪L z, t⟫ * I) = cexp (⟪c, t⟫ * I) * cexp (⟪z, A t⟫ * I) := by
    intro z
    rw [h, ← Complex.exp_add]
    congr 1
    push_cast; ring
  simp_rw [e]
  rw [integral_const_mul, ← charFun_apply, charFun_stdGaussian, ← Complex.exp_add]
  congr 1
  ring

lemma charFun_gaussianVec (a : Vec d) (σ : ℝ) (t : Vec d) : charFun (gaussianVec a σ) t = cexp (⟪a, t⟫ * I - (σ * ‖t‖) ^ 2 / 2) := by
  unfold gaussianVec
  rw [charFun_affine (by fun_prop) a (fun t => σ • t)
    (fun z t => by rw [inner_add_left, real_inner_smul_left, real_inner_smul_right])]
  congr 2
  rw [norm_smul]
  push_cast
  rw [mul_pow, mul_pow, Real.norm_eq_abs]
  congr 2
  exact_mod_cast sq_abs σ

/-- Splits a long vector into blocks and scales them. -/
noncomputable def blocks (σ : Fin m → ℝ) (x : Vec (m * d)) : Fin m → Vec d :=
  fun k => WithLp.toLp 2 fun i => σ k * x (finProdFinEquiv (k, i))

lemma measurable_blocks (σ : Fin m → ℝ) : Measurable (blocks (d := d) σ) := by
  refine measurable_pi_lambda _ fun k => ?_
  unfold blocks
  fun_prop

/-- The long vector of scaled answers. -/
noncomputable def stack (a : Fin m → Vec d) (σ : Fin m → ℝ) : Vec (m * d) :=
  WithLp.toLp 2 fun j => a (finProdFinEquiv.symm j).1 (finProdFinEquiv.symm j).2 / σ (finProdFinEquiv.symm j).1

lemma stack_apply (a : Fin m → Vec d) (σ : Fin m → ℝ) (k : Fin m) (i : Fin d) : stack a σ (finProdFinEquiv (k, i)) = a k i / σ k := by
  show a (finProdFinEquiv.symm (finProdFinEquiv (k, i))).1 (finProdFinEquiv.symm (finProdFinEquiv (k, i))).2 /
    σ (finProdFinEquiv.symm (finProdFinEquiv (k, i))).1 = _
  rw [Equiv.symm_apply_apply]

/-- Several queries together are a function of one query with the long vector. -/
lemma gaussians_eq (a : Fin m → Vec d) (σ : Fin m → ℝ) (hσ : ∀ k, 0 < σ k) :
    gaussians a σ = (gaussianVec (stack a σ) 1).map (blocks σ) := by
  have hm : Measurable fun z : Vec (m * d) => stack a σ + (1 : ℝ) • z := by fun_prop
  have hb := measurable_blocks (d := d) σ
  have hp : ∀ k, IsProbabilityMeasure (gaussianVec (a k) (σ k)) := fun k => by infer_instance
  have : IsProbabilityMeasure ((gaussianVec (stack a σ) 1).map (blocks σ)) := Measure.isProbabilityMeasure_map hb.aemeasurable
  symm
  unfold gaussians
  rw [← charFun_eq_pi_iff]
  intro t
  have e1 : ((gaussianVec (stack a σ) 1).map (blocks σ)).map (WithLp.toLp 2) =
      (stdGaussian (Vec (m * d))).map (fun z => (WithLp.toLp 2 (blocks σ (stack a σ + (1 : ℝ) • z)) : PiLp 2 fun _ : Fin m => Vec d)) := by
    unfold gaussianVec
    rw [Measure.map_map hb hm, Measure.map_map (by fun_prop) (hb.comp hm)]
    rfl
  rw [e1, charFun_affine (by fun_prop) (WithLp.toLp 2 a : PiLp 2 fun _ : Fin m => Vec d)
    (fun t => WithLp.toLp 2 fun j => σ (finProdFinEquiv.symm j).1 * t (finProdFinEquiv.symm j).1 (finProdFinEquiv.symm j).2)]
  · simp_rw [charFun_gaussianVec]
    rw [← Complex.exp_sum, Finset.sum_sub_distrib]
    congr 2
    · rw [PiLp.inner_apply]
      push_cast
      rw [Finset.sum_mul]
    · rw [← Finset.sum_div]
      congr 1
      have : ‖(WithLp.toLp 2 fun j => σ (finProdFinEquiv.symm j).1 * t (finProdFinEquiv.symm j).1 (finProdFinEquiv.symm j).2 : Vec (m * d))‖ ^ 2
          = ∑ k, (σ k * ‖t k‖) ^ 2 := by
        rw [EuclideanSpace.norm_sq_eq, ← finProdFinEquiv.sum_comp, Fintype.sum_prod_type]
        refine Finset.sum_congr rfl fun k _ => ?_
        rw [mul_pow, EuclideanSpace.norm_sq_eq, Finset.mul_sum]
        refine Finset.sum_congr rfl fun i _ => ?_
        simp [mul_pow]
      exact_mod_cast this
  · intro z t
    rw [PiLp.inner_apply, PiLp.inner_apply, PiLp.inner_apply, ← finProdFinEquiv.sum_comp, Fintype.sum_prod_type, ← Finset.sum_add_distrib]
    refine Finset.sum_congr rfl fun k _ => ?_
    rw [PiLp.inner_apply, PiLp.inner_apply, ← Finset.sum_add_distrib]
    refine Finset.sum_congr rfl fun i _ => ?_
    have := (hσ k).ne'
    simp only [blocks, PiLp.add_apply, PiLp.smul_apply, stack_apply, Equiv.symm_apply_apply, one_smul]
    simp
    field_simp

lemma norm_stack_sub (a b : Fin m → Vec d) (σ : Fin m → ℝ) : ‖stack a σ - stack b σ‖ ^ 2 = ∑ k, ‖a k - b k‖ ^ 2 / σ k ^ 2 := by
  rw [EuclideanSpace.norm_sq_eq, ← finProdFinEquiv.sum_comp, Fintype.sum_prod_type]
  refine Finset.sum_congr rfl fun k _ => ?_
  rw [EuclideanSpace.norm_sq_eq, Finset.sum_div]
  refine Finset.sum_congr rfl fun i _ => ?_
  rw [PiLp.sub_apply, stack_apply, stack_apply, ← sub_div, Real.norm_eq_abs, Real.norm_eq_abs, sq_abs, sq_abs, div_pow]
  rfl

lemma stack_sens {zs : List ℝ} (hzs : ∀ z ∈ zs, 0 < z) {z : ℝ} (hz : 0 < z) (hsum : 1 / z ^ 2 = (zs.map fun x => 1 / x ^ 2).sum)
    (Δ : Fin zs.length → ℝ) (hΔ : ∀ k, 0 < Δ k) (a b : Fin zs.length → Vec d) (h : ∀ k, ‖a k - b k‖ ≤ Δ k) :
    ‖stack a (fun k => zs[k] * Δ k) - stack b (fun k => zs[k] * Δ k)‖ ≤ 1 / z := by
  refine abs_le_of_sq_le_sq' ?_ (by positivity) |>.2
  have e : (zs.map fun x => 1 / x ^ 2).sum = ∑ k : Fin zs.length, 1 / zs[k] ^ 2 := by
    rw [← List.sum_ofFn]
    congr 1
    refine List.ext_getElem (by simp) fun n h1 h2 => by simp
  rw [norm_stack_sub, div_pow, one_pow, hsum, e]
  · refine Finset.sum_le_sum fun k _ => ?_
    have h1 := hzs zs[k] (List.getElem_mem _)
    have h2 := hΔ k
    rw [div_le_div_iff₀ (by positivity) (by positivity), mul_pow]
    have := pow_le_pow_left₀ (norm_nonneg _) (h k) 2
    have h3 : 0 < zs[k] ^ 2 := by positivity
    nlinarith

lemma map_finsetSum_smul {ι Ω Ω' : Type*} [MeasurableSpace Ω] [MeasurableSpace Ω'] (T : Finset ι) (w : ι → ENNReal) (μ : ι → Measure Ω)
    {g : Ω → Ω'} (hg : Measurable g) : (∑ s ∈ T, w s • μ s).map g = ∑ s ∈ T, w s • (μ s).map g := by
  ext A hA
  rw [Measure.map_apply hg hA, Measure.finsetSum_apply, Measure.finsetSum_apply]
  refine Finset.sum_congr rfl fun s _ => ?_
  simp [Measure.map_apply hg hA]

/-- A sampled composition of Gaussian queries is a function of a sampled Gaussian query. -/
lemma poissonGaussians_reduce {zs : List ℝ} (hzs : ∀ z ∈ zs, 0 < z) {z : ℝ} (hz : 0 < z)
    (hsum : 1 / z ^ 2 = (zs.map fun x => 1 / x ^ 2).sum) {q : ℝ} {Ω : Type} [MeasurableSpace Ω] (P Q : Measure Ω)
    (h : PoissonGaussiansPair q zs Ω P Q) :
    ∃ (d : ℕ) (P' Q' : Measure (Vec d)) (g : Vec d → Ω), Measurable g ∧ PoissonGaussianPair q z (Vec d) P' Q' ∧ P = P'.map g ∧ Q = Q'.map g := by
  have key : ∀ {R : Type} [DecidableEq R] {d : ℕ} (f : Fin zs.length → Finset R → Vec d) (Δ : Fin zs.length → ℝ) (_ : ∀ k, 0 < Δ k)
      (D : Finset R), poissonGaussiansMech q (fun k => zs[k] * Δ k) f D =
      (poissonGaussianMech q (z * (1 / z)) (fun s => stack (fun k => f k s) (fun k => zs[k] * Δ k)) D).map (blocks fun k => zs[k] * Δ k) := by
    intro R _ d f Δ hΔ D
    unfold poissonGaussiansMech poissonGaussianMech
    rw [map_finsetSum_smul _ _ _ (measurable_blocks _)]
    refine Finset.sum_congr rfl fun s _ => ?_
    rw [gaussians_eq (fun k => f k s) (fun k => zs[k] * Δ k) (fun k => mul_pos (hzs zs[k] (List.getElem_mem _)) (hΔ k)), mul_one_div_cancel hz.ne']
  cases h with
  | remove f Δ hΔ hf D r hr =>
    exact ⟨_, _, _, _, measurable_blocks _, PoissonGaussianPair.remove (fun s => stack (fun k => f k s) (fun k => zs[k] * Δ k)) (1 / z) (by positivity)
      (fun s r => stack_sens hzs hz hsum Δ hΔ _ _ fun k => hf k s r) D r hr, key f Δ hΔ _, key f Δ hΔ _⟩
  | add f Δ hΔ hf D r hr =>
    exact ⟨_, _, _, _, measurable_blocks _, PoissonGaussianPair.add (fun s => stack (fun k => f k s) (fun k => zs[k] * Δ k)) (1 / z) (by positivity)
      (fun s r => stack_sens hzs hz hsum Δ hΔ _ _ fun k => hf k s r) D r hr, key f Δ hΔ _, key f Δ hΔ _⟩

lemma worGaussians_reduce {zs : List ℝ} (hzs : ∀ z ∈ zs, 0 < z) {z : ℝ} (hz : 0 < z)
    (hsum : 1 / z ^ 2 = (zs.map fun x => 1 / x ^ 2).sum) {n m : ℕ} {Ω : Type} [MeasurableSpace Ω] (P Q : Measure Ω)
    (h : WorGaussiansPair n m zs Ω P Q) :
    ∃ (d : ℕ) (P' Q' : Measure (Vec d)) (g : Vec d → Ω), Measurable g ∧ WorGaussianPair n m z (Vec d) P' Q' ∧ P = P'.map g ∧ Q = Q'.map g := by
  cases h with
  | mk f Δ hΔ hf D i x =>
    have key : ∀ D : Fin n → _, worGaussiansMech m (fun k => zs[k] * Δ k) f D =
        (worGaussianMech m (z * (1 / z)) (fun s => stack (fun k => f k s) (fun k => zs[k] * Δ k)) D).map (blocks fun k => zs[k] * Δ k) := by
      intro D
      unfold worGaussiansMech worGaussianMech
      rw [map_finsetSum_smul _ _ _ (measurable_blocks _)]
      refine Finset.sum_congr rfl fun s _ => ?_
      rw [gaussians_eq _ (fun k => zs[k] * Δ k) (fun k => mul_pos (hzs zs[k] (List.getElem_mem _)) (hΔ k)), mul_one_div_cancel hz.ne']
    exact ⟨_, _, _, _, measurable_blocks _, WorGaussianPair.mk (fun s => stack (fun k => f k s) (fun k => zs[k] * Δ k)) (1 / z) (by positivity)
      (fun s a b => stack_sens hzs hz hsum Δ hΔ _ _ fun k => hf k s a b) D i x, key _, key _⟩

end Verif.Spec
