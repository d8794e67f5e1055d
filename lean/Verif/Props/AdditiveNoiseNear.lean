import Verif.Proofs.NoiseSlack

/-!
# C32 without a restriction on the grid

Pessimistic PLDs made by connecting the dots (the default), for every sampling probability, also when a multiple of the discretization
interval is `math.isclose` to `log(1 - q)`: the deltas of the PLD are valid up to `closeSlack q = 1e-9 |log(1 - q)|`.
-/

namespace Verif.Props
open Verif Spec Pld Mech MeasureTheory ProbabilityTheory

/-- The deltas of the PLD are valid for all pairs, up to `τ`. -/
def DominatesUpTo (τ : ℝ) (p : Pld) (C : PairProp) : Prop :=
  ∀ (Ω : Type) [MeasurableSpace Ω] (P Q : Measure Ω), C Ω P Q →
    CurveValid P Q (fun e => p.remove.getDeltaForEpsilon e + τ) ∧ CurveValid Q P fun e => p.add.getDeltaForEpsilon e + τ

/-- **C32, error bound** for `from_laplace_mechanism`. -/
theorem C32_laplace_near {fuel : ℕ} {b s disc q : ℝ} {p : Pld} (h : fromLaplace fuel b s true disc q true = some (.ok p)) (hd : 0 < disc) :
    p.Valid ∧ p.remove.disc = disc ∧ p.remove.pessimistic = true ∧ DominatesUpTo (closeSlack q) p (SampledLaplace b s q) := by
  have g := fromLaplace_near h hd
  obtain ⟨hb, hs, q0, q1⟩ := laplace_params h
  refine ⟨g.valid, g.remove.disc, g.remove.pess, fun Ω _ P Q hC => ⟨fun ε => ?_, fun ε => ?_⟩⟩
  · exact (sampledLaplace_indist hb q0.le q1 hC ε _).1 (g.remove.valid ε)
  · exact (sampledLaplace_indist hb q0.le q1 hC ε _).2 (g.add.valid ε)

/-- **C32, error bound** for `from_gaussian_mechanism`. -/
theorem C32_gaussian_near {fuel : ℕ} {ppf : ℝ → ℝ} {σ s disc lb q : ℝ} {p : Pld}
    (h : fromGaussian fuel ppf σ s true disc lb q true = some (.ok p)) (hd : 0 < disc) :
    p.Valid ∧ p.remove.disc = disc ∧ p.remove.pessimistic = true ∧ DominatesUpTo (closeSlack q) p (SampledGaussian σ s q) := by
  have g := fromGaussian_near h hd
  obtain ⟨hσ, hs, q0, q1⟩ := gaussian_params h
  refine ⟨g.valid, g.remove.disc, g.remove.pess, fun Ω _ P Q hC => ⟨fun ε => ?_, fun ε => ?_⟩⟩
  · exact (sampledGaussian_indist hσ hs q0.le q1 hC ε _).1 (g.remove.valid ε)
  · exact (sampledGaussian_indist hσ hs q0.le q1 hC ε _).2 (g.add.valid ε)

/-- **C32, error bound** for `from_discrete_laplace_mechanism`. -/
theorem C32_discrete_laplace_near {a disc q : ℝ} {s : ℤ} {p : Pld} (h : fromDiscreteLaplace a s true disc q true = some (.ok p))
    (hd : 0 < disc) : p.Valid ∧ p.remove.disc = disc ∧ p.remove.pessimistic = true ∧
      DominatesUpTo (closeSlack q) p (SampledInteger (discreteLaplace a) s q) := by
  have g := fromDiscreteLaplace_near h hd
  obtain ⟨ha, q0, q1⟩ := discreteLaplace_params h
  refine ⟨g.valid, g.remove.disc, g.remove.pess, fun Ω _ P Q hC => ⟨fun ε => ?_, fun ε => ?_⟩⟩
  · exact ((discreteLaplace_logConcave ha).sampled_indist q0.le q1 hC ε _).1 (g.remove.valid ε)
  · exact ((discreteLaplace_logConcave ha).sampled_indist q0.le q1 hC ε _).2 (g.add.valid ε)

/-- **C32, error bound** for `from_discrete_gaussian_mechanism`. -/
theorem C32_discrete_gaussian_near {σ disc q : ℝ} {s : ℤ} {bound : Option ℤ} {p : Pld}
    (h : fromDiscreteGaussian σ s bound true disc q true = some (.ok p)) (hd : 0 < disc) :
    p.Valid ∧ p.remove.disc = disc ∧ p.remove.pessimistic = true ∧
      DominatesUpTo (closeSlack q) p (SampledInteger (discreteGaussian σ (dgBound σ bound)) s q) := by
  have g := fromDiscreteGaussian_near h hd
  obtain ⟨hl, q0, q1⟩ := discreteGaussian_params h
  rw [discreteGaussian_eq] at g ⊢
  refine ⟨g.valid, g.remove.disc, g.remove.pess, fun Ω _ P Q hC => ⟨fun ε => ?_, fun ε => ?_⟩⟩
  · exact (hl.sampled_indist q0.le q1 hC ε _).1 (g.remove.valid ε)
  · exact (hl.sampled_indist q0.le q1 hC ε _).2 (g.add.valid ε)

/-! Non-vacuity: the slack is tiny, and the hypotheses are met. -/

example : closeSlack (1 / 2) < 1e-9 := by
  unfold closeSlack
  have e : Real.log (1 - 1 / 2) = -Real.log 2 := by rw [← Real.log_inv]; norm_num
  rw [e, abs_neg, abs_of_pos (Real.log_pos (by norm_num))]
  have := Real.log_two_lt_d9
  norm_num at *; linarith

example : ∃ fuel p, fromGaussian fuel (fun _ => -9) 1 1 true 1e-4 (-50) (1 / 2) true = some (.ok p) ∧
    DominatesUpTo (closeSlack (1 / 2)) p (SampledGaussian 1 1 (1 / 2)) := by
  obtain ⟨N, hN⟩ := C32_gaussian_accepts (ppf := fun _ => -9) (σ := 1) (s := 1) (lb := -50) true true (by norm_num) (by norm_num) (by norm_num)
    (by norm_num) (by norm_num) (by norm_num) (by norm_num) offGrid_half
  obtain ⟨p, hp⟩ := hN (N + 1) (by omega)
  exact ⟨_, p, hp, (C32_gaussian_near hp (by norm_num)).2.2.2⟩

example : ∃ fuel p, fromLaplace fuel 2 1 true 1e-4 (1 / 2) true = some (.ok p) ∧ DominatesUpTo (closeSlack (1 / 2)) p (SampledLaplace 2 1 (1 / 2)) := by
  obtain ⟨N, hN⟩ := C32_laplace_accepts (b := 2) (s := 1) true true (by norm_num) (by norm_num) (by norm_num) (by norm_num) (by norm_num)
    offGrid_half
  obtain ⟨p, hp⟩ := hN (N + 1) (by omega)
  exact ⟨_, p, hp, (C32_laplace_near hp (by norm_num)).2.2.2⟩

example : ∃ p, fromDiscreteLaplace 1 2 true 1e-4 (1 / 2) true = some (.ok p) ∧
    DominatesUpTo (closeSlack (1 / 2)) p (SampledInteger (discreteLaplace 1) 2 (1 / 2)) := by
  obtain ⟨p, hp⟩ := C32_discrete_laplace_accepts (a := 1) (s := 2) true true (by norm_num) (by norm_num) (by norm_num) (by norm_num)
    (by norm_num) offGrid_half
  exact ⟨p, hp, (C32_discrete_laplace_near hp (by norm_num)).2.2.2⟩

end Verif.Props
