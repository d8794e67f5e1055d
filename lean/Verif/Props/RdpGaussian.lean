import Verif.Proofs.RdpFns

/-!
# C39: RDP of the Gaussian and the Poisson-sampled Gaussian mechanism

`poissonOneOrder frac q sigma alpha` is the model of `compute_one_order` in `_compute_rdp_poisson_subsampled_gaussian`
(`frac`, used only for fractional orders, is arbitrary). `renyiDiv`: `Verif/Spec/Renyi.lean`; `GaussianPair`,
`PoissonGaussianPair` (mechanisms on data sets, with vector-valued queries): `Verif/Spec/Mechanisms.lean`.
-/

namespace Verif.Props
open Verif Verif.Spec Verif.Rdp MeasureTheory ProbabilityTheory

/-- **C39 (Gaussian, exact).** The value for sampling rate 1 (a `GaussianDpEvent`) is the Rényi divergence of `N(1, z²)` from
`N(0, z²)`, for every real order `α ≥ 1`. -/
theorem C39_gaussian_exact (frac : ℝ → PyNum → ℝ → EReal) (sigma : PyNum) (z : ℝ) (hs : sigma.val = (z : EReal)) (hz : 0 < z) (α : ℝ)
    (hα : 1 ≤ α) :
    poissonOneOrder frac 1 sigma (α : EReal) =
      .ok (renyiDiv α (gaussianReal 1 (Real.toNNReal (z ^ 2))) (gaussianReal 0 (Real.toNNReal (z ^ 2)))) := by
  have hv : Real.toNNReal (z ^ 2) ≠ 0 := by simpa using hz.ne'
  have h0 : ¬ ((α : EReal) = ⊤ ∨ sigma.val = 0) := by
    rw [hs]; push Not; exact ⟨EReal.coe_ne_top _, by exact_mod_cast hz.ne'⟩
  unfold poissonOneOrder
  rw [if_neg one_ne_zero, if_neg h0, if_pos rfl, renyi_gaussian' hα 1 hv, halfInvSq_eq hs, ← EReal.coe_mul]
  congr 2
  ring

/-- **C39 (Poisson-sampled Gaussian, exact).** The value at an integer order `m ≥ 2` is the Rényi divergence of the mixture
`(1-q) N(0, z²) + q N(1, z²)` from `N(0, z²)`. -/
theorem C39_poisson_exact (frac : ℝ → PyNum → ℝ → EReal) (sigma : PyNum) (z : ℝ) (hs : sigma.val = (z : EReal)) (hz : 0 < z) (q : ℝ)
    (h0 : 0 ≤ q) (h1 : q ≤ 1) (m : ℕ) (hm : 2 ≤ m) :
    poissonOneOrder frac q sigma ((m : ℝ) : EReal) =
      .ok (renyiDiv m (ENNReal.ofReal (1 - q) • gaussianReal 0 (Real.toNNReal (z ^ 2)) +
        ENNReal.ofReal q • gaussianReal 1 (Real.toNNReal (z ^ 2))) (gaussianReal 0 (Real.toNNReal (z ^ 2)))) := by
  have hv : Real.toNNReal (z ^ 2) ≠ 0 := by simpa using hz.ne'
  have hm1 : (1 : ℝ) < m := by exact_mod_cast hm
  rcases h1.eq_or_lt with rfl | h1
  · rw [C39_gaussian_exact frac sigma z hs hz m hm1.le]
    simp
  rcases h0.eq_or_lt with rfl | h0
  · unfold poissonOneOrder
    rw [if_pos rfl]
    simp [RdpConv.renyi_self (m : ℝ) hm1.le]
  have hne : ¬ (((m : ℝ) : EReal) = ⊤ ∨ sigma.val = 0) := by
    rw [hs]; push Not; exact ⟨EReal.coe_ne_top _, by exact_mod_cast hz.ne'⟩
  have hne1 : ((m : ℝ) : EReal) ≠ 1 := by
    intro h
    have h' : (m : ℝ) = 1 := by exact_mod_cast h
    linarith
  unfold poissonOneOrder
  rw [if_neg h0.ne', if_neg hne, if_neg h1.ne, if_neg hne1, EReal.toReal_coe, logA_nat h0 h1 sigma m _ (halfInvSq_eq hs)]
  have := renyi_gaussMix h0.le h1.le hv m hm
  unfold gaussMix at this
  rw [this, ← EReal.coe_mul]
  rfl

/-- **C39 (Gaussian mechanism).** Any vector-valued query of `ℓ₂` sensitivity `Δ` with noise `z Δ`, on any two neighbouring
data sets, has Rényi divergence at most the value computed for the `GaussianDpEvent`. -/
theorem C39_gaussian_mechanism (frac : ℝ → PyNum → ℝ → EReal) (sigma : PyNum) (z : ℝ) (hs : sigma.val = (z : EReal)) (hz : 0 < z) (α : ℝ)
    (hα : 1 ≤ α) {Ω : Type} [MeasurableSpace Ω] (P Q : Measure Ω) (h : GaussianPair z Ω P Q) (r : EReal)
    (hr : poissonOneOrder frac 1 sigma (α : EReal) = .ok r) : renyiDiv α P Q ≤ r := by
  have hv : Real.toNNReal (z ^ 2) ≠ 0 := by simpa using hz.ne'
  rw [C39_gaussian_exact frac sigma z hs hz α hα, renyi_gaussian' hα 1 hv, Real.coe_toNNReal _ (sq_nonneg z), Except.ok.injEq] at hr
  rw [← hr]
  cases h with
  | mk a b Δ hΔ h => simpa using renyi_gaussianVec hα hz a b hΔ h

/-- **C39 (Poisson-sampled Gaussian mechanism).** For any data set, any extra record and any vector-valued query that changes
by at most `Δ` when a record is added to the sample, the Rényi divergences *in both directions* are at most the value
computed for the `PoissonSampledDpEvent`, at every integer order. -/
theorem C39_poisson_mechanism (frac : ℝ → PyNum → ℝ → EReal) (sigma : PyNum) (z : ℝ) (hs : sigma.val = (z : EReal)) (hz : 0 < z) (q : ℝ)
    (h0 : 0 ≤ q) (h1 : q ≤ 1) (m : ℕ) (hm : 2 ≤ m) {Ω : Type} [MeasurableSpace Ω] (P Q : Measure Ω)
    (h : PoissonGaussianPair q z Ω P Q) (r : EReal) (hr : poissonOneOrder frac q sigma ((m : ℝ) : EReal) = .ok r) :
    renyiDiv m P Q ≤ r := by
  have hv : Real.toNNReal (z ^ 2) ≠ 0 := by simpa using hz.ne'
  rw [C39_poisson_exact frac sigma z hs hz q h0 h1 m hm, Except.ok.injEq] at hr
  have := renyi_gaussMix h0 h1 hv m hm
  unfold gaussMix at this
  rw [this] at hr
  rw [← hr]
  exact renyi_poissonGaussian h0 h1 hz m hm P Q h

/-- Concrete cases: the value for noise 1 at order 2 is 1; a counting query with noise multiplier 1 is such a mechanism. -/
example (frac : ℝ → PyNum → ℝ → EReal) : poissonOneOrder frac 1 (.float 1) ((2 : ℝ) : EReal) = .ok 1 := by
  unfold poissonOneOrder
  have h2 : ((2 : ℝ) : EReal) ≠ ⊤ := EReal.coe_ne_top _
  have h3 : ¬ (((2 : ℝ) : EReal) = ⊤ ∨ PyNum.val (.float 1) = 0) := by
    push Not; exact ⟨h2, by simp [PyNum.val]⟩
  rw [if_neg one_ne_zero, if_neg h3, if_pos rfl, halfInvSq, ← EReal.coe_mul]
  norm_num

example : PoissonGaussianPair (1 / 2) 1 (Vec 1)
    (poissonGaussianMech (1 / 2) (1 * 1) (fun s : Finset ℕ => EuclideanSpace.single 0 (s.card : ℝ)) {3, 7})
    (poissonGaussianMech (1 / 2) (1 * 1) (fun s : Finset ℕ => EuclideanSpace.single 0 (s.card : ℝ)) {7}) := by
  refine PoissonGaussianPair.remove _ 1 one_pos (fun s r => ?_) {7} 3 (by simp)
  have e : ∀ x y : ℝ, (EuclideanSpace.single 0 x - EuclideanSpace.single 0 y : Vec 1) = EuclideanSpace.single 0 (x - y) := by
    intro x y; ext i; fin_cases i; simp
  rw [e, EuclideanSpace.norm_single, Real.norm_eq_abs]
  rw [Finset.card_insert_eq_ite]
  split_ifs <;> simp

end Verif.Props
