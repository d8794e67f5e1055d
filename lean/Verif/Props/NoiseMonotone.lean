import Verif.Proofs.NoiseMonotoneInst
import Verif.Props.AdditiveNoise

/-!
# C80: more noise never reports more loss, more sampling or a larger sensitivity never less

The four additive noise mechanisms of the PLD library: at every epsilon `get_delta_for_epsilon` answers for both parameter sets,
and the answers are ordered like the parameters. No epsilon is excluded, not even those that `math.isclose` identifies with the limit
of the loss.
-/

namespace Verif.Props
open Verif Spec Pld Mech MeasureTheory ProbabilityTheory

/-- A chain of two comparisons. -/
lemma le_chain {X : Type} [AddCommGroup X] {m m₁ m' : AdditiveNoise X} {ε : ℝ}
    (h : ∃ d d', m.getDelta ε = .ok d ∧ m₁.getDelta ε = .ok d' ∧ d ≤ d') (h' : ∃ d d', m₁.getDelta ε = .ok d ∧ m'.getDelta ε = .ok d' ∧ d ≤ d') :
    ∃ d d', m.getDelta ε = .ok d ∧ m'.getDelta ε = .ok d' ∧ d ≤ d' := by
  obtain ⟨d, d₁, h1, h2, h3⟩ := h
  obtain ⟨d₂, d', k1, k2, k3⟩ := h'
  have : d₁ = d₂ := Except.ok.inj (h2.symm.trans k1)
  exact ⟨d, d', h1, k2, h3.trans (this ▸ k3)⟩

/-- **C80** for the Laplace mechanism: a smaller ratio of noise to sensitivity and a larger sampling probability never give a smaller
delta. -/
theorem C80_laplace {b b' s s' q q' : ℝ} {adj : Adj} {m m' : AdditiveNoise ℝ} (h : mkLaplace b s q adj = .ok m)
    (h' : mkLaplace b' s' q' adj = .ok m') (hb : b' / s' ≤ b / s) (hq : q ≤ q') (ε : ℝ) :
    ∃ d d', m.getDelta ε = .ok d ∧ m'.getDelta ε = .ok d' ∧ d ≤ d' := by
  obtain ⟨hf, -, a2, -, s0, b0⟩ := laplace_faithful h
  obtain ⟨hf', -, b2, -, s0', b0'⟩ := laplace_faithful h'
  have q0 := hf.q0
  have q1 := hf'.q1
  rw [a2] at q0
  rw [b2] at q1
  obtain ⟨m₁, h₁⟩ := mkLaplace_ok (b := b) (s := s) (q := q') adj b0 ⟨s0, q0.trans_le hq, q1⟩
  refine le_chain (laplace_q h h₁ hq ε) (laplace_b h₁ h' ?_ ε)
  rw [div_le_div_iff₀ s0' s0] at hb
  rw [div_mul_eq_mul_div, div_le_iff₀ b0]
  linarith

/-- **C80** for the Gaussian mechanism: a smaller noise multiplier and a larger sampling probability never give a smaller delta. -/
theorem C80_gaussian {σ σ' s s' lb lb' q q' : ℝ} {adj : Adj} {m m' : AdditiveNoise ℝ} (h : mkGaussian σ s lb q adj = .ok m)
    (h' : mkGaussian σ' s' lb' q' adj = .ok m') (hb : σ' / s' ≤ σ / s) (hq : q ≤ q') (ε : ℝ) :
    ∃ d d', m.getDelta ε = .ok d ∧ m'.getDelta ε = .ok d' ∧ d ≤ d' := by
  obtain ⟨hf, -, a2, -, s0, b0⟩ := gaussian_faithful h
  obtain ⟨hf', -, b2, -, s0', b0'⟩ := gaussian_faithful h'
  have q0 := hf.q0
  have q1 := hf'.q1
  rw [a2] at q0
  rw [b2] at q1
  obtain ⟨m₁, h₁⟩ := mkGaussian_ok (σ := σ) (s := s) (lb := 0) (q := q') adj b0 le_rfl ⟨s0, q0.trans_le hq, q1⟩
  refine le_chain (gaussian_q h h₁ hq ε) (gaussian_σ h₁ h' ?_ ε)
  rw [div_le_div_iff₀ s0' s0] at hb
  rw [div_mul_eq_mul_div, div_le_iff₀ b0]
  linarith

/-- **C80** for the discrete Laplace mechanism (its parameter is the reciprocal of the scale of the noise). -/
theorem C80_discrete_laplace {a a' q q' : ℝ} {s s' : ℤ} {adj : Adj} {m m' : AdditiveNoise ℤ} (h : mkDiscreteLaplace a s q adj = .ok m)
    (h' : mkDiscreteLaplace a' s' q' adj = .ok m') (ha : a ≤ a') (hs : s ≤ s') (hq : q ≤ q') (ε : ℝ) :
    ∃ d d', m.getDelta ε = .ok d ∧ m'.getDelta ε = .ok d' ∧ d ≤ d' := by
  obtain ⟨hf, -, a2, -, s0, a0⟩ := discreteLaplace_faithful h
  obtain ⟨hf', -, b2, -, s0', a0'⟩ := discreteLaplace_faithful h'
  have q0 := hf.q0
  have q1 := hf'.q1
  rw [a2] at q0
  rw [b2] at q1
  have s1 : (0 : ℝ) < s := by exact_mod_cast s0
  obtain ⟨m₁, h₁⟩ := mkDiscreteLaplace_ok (a := a) (s := s) (q := q') adj a0 ⟨s1, q0.trans_le hq, q1⟩
  obtain ⟨m₂, h₂⟩ := mkDiscreteLaplace_ok (a := a') (s := s) (q := q') adj a0' ⟨s1, q0.trans_le hq, q1⟩
  exact le_chain (discreteLaplace_q h h₁ hq ε) (le_chain (discreteLaplace_a h₁ h₂ ha ε) (discreteLaplace_s h₂ h' hs ε))

/-- **C80** for the discrete Gaussian mechanism, with the same noise: the sensitivity and the sampling probability. What the full claim
says about the noise is false, see `C80_discrete_gaussian_violated`. -/
theorem C80_discrete_gaussian_partial {σ q q' : ℝ} {s s' : ℤ} {bound : Option ℤ} {adj : Adj} {m m' : AdditiveNoise ℤ}
    (h : mkDiscreteGaussian σ s bound q adj = .ok m) (h' : mkDiscreteGaussian σ s' bound q' adj = .ok m') (hs : s ≤ s') (hq : q ≤ q') (ε : ℝ) :
    ∃ d d', m.getDelta ε = .ok d ∧ m'.getDelta ε = .ok d' ∧ d ≤ d' := by
  obtain ⟨hf, -, a2, -, s0, a0, hT⟩ := discreteGaussian_faithful h
  obtain ⟨hf', -, b2, -, s0', a0', -⟩ := discreteGaussian_faithful h'
  have q0 := hf.q0
  have q1 := hf'.q1
  rw [a2] at q0
  rw [b2] at q1
  have s1 : (0 : ℝ) < s := by exact_mod_cast s0
  obtain ⟨m₁, h₁⟩ := mkDiscreteGaussian_ok (σ := σ) (s := s) (bound := bound) (q := q') adj a0 hT ⟨s1, q0.trans_le hq, q1⟩
  exact le_chain (discreteGaussian_q h h₁ hq ε) (discreteGaussian_s h₁ h' hs ε)

/-- The delta of a discrete Gaussian mechanism on `{-1, 0, 1}` with sensitivity one. -/
lemma dg_small {σ : ℝ} {m : AdditiveNoise ℤ} (h : mkDiscreteGaussian σ 1 (some 1) 1 .add = .ok m) {ε : ℝ} (hε : 0.5 / σ ^ 2 ≤ ε) :
    m.getDelta ε = .ok (1 / (2 + Real.exp (0.5 / σ ^ 2))) := by
  obtain ⟨hf, a1, a2, a3, -, hσ, -⟩ := discreteGaussian_faithful h
  have hs2 : 0 < σ ^ 2 := by positivity
  have hT : dgBound σ (some 1) = 1 := rfl
  rw [hT] at hf
  obtain ⟨d, hd, hs⟩ := getDelta_isHs hf ε (.inl a2)
  have hp := hf.prob
  have hpos : 0 ≤ 0.5 / σ ^ 2 := by positivity
  have hup : ∀ x, upperDens m (dgF σ 1) x = dgF σ 1 x := fun x => by simp only [upperDens, a3]
  have hlo : ∀ x, lowerDens m (dgF σ 1) x = dgF σ 1 (x - 1) := fun x => by simp only [lowerDens, a3, a2, a1]; ring
  have n0 := dgF_nonneg σ 1
  have key := isHs_of_cut hf ε (S := {(-1 : ℤ)}) (measurableSet_singleton _) fun x _ => by
    rw [hup, hlo]
    constructor
    · intro hx
      rw [Set.mem_singleton_iff] at hx
      subst hx
      rw [dgF_zero (x := -1 - 1) (by rw [Finset.mem_Icc]; omega), mul_zero]
      exact n0 _
    · intro hx
      rw [Set.mem_singleton_iff] at hx
      by_cases hm : x ∈ Finset.Icc (-1 : ℤ) 1
      · have hm1 : x - 1 ∈ Finset.Icc (-1 : ℤ) 1 := by rw [Finset.mem_Icc] at hm ⊢; omega
        rw [(dgF_ratio (σ := σ) (s := 1) (T := 1) (by norm_num) hm hm1).1]
        refine mul_le_mul_of_nonneg_right (Real.exp_le_exp.2 (le_trans ?_ hε)) (n0 _)
        refine div_le_div_of_nonneg_right ?_ hs2.le
        have : (0 : ℝ) ≤ x := by
          rw [Finset.mem_Icc] at hm
          have : 0 ≤ x := by omega
          exact_mod_cast this
        push_cast
        linarith
      · rw [dgF_zero hm]
        exact mul_nonneg (Real.exp_pos _).le (n0 _)
  have ed := hs.unique key
  rw [hd, ed, upper_eq hf, lower_eq hf, real_singleton (fun x => by rw [hup]; exact n0 x), real_singleton (fun x => by rw [hlo]; exact n0 _), hup, hlo,
    dgF_zero (x := -1 - 1) (by rw [Finset.mem_Icc]; omega), mul_zero, sub_zero]
  congr 1
  unfold dgF
  rw [if_pos (by rw [Finset.mem_Icc]; omega)]
  have hZ : dgZ σ 1 = 1 + 2 * Real.exp (-(0.5 / σ ^ 2)) := by
    unfold dgZ
    have : Finset.Icc (-1 : ℤ) 1 = {-1, 0, 1} := by decide
    rw [this, Finset.sum_insert (by decide), Finset.sum_insert (by decide), Finset.sum_singleton]
    unfold dgW
    norm_num
    ring_nf
  rw [hZ]
  have hW : dgW σ (-1) = Real.exp (-(0.5 / σ ^ 2)) := by
    unfold dgW
    congr 1
    push_cast
    ring
  rw [hW, Real.exp_neg]
  have := Real.exp_pos (0.5 / σ ^ 2)
  field_simp
  ring

/-- **C80, negated** for the noise of the discrete Gaussian mechanism: with `truncation_bound = 1` and sensitivity one, more noise
strictly raises the delta at every sufficiently large epsilon, because it moves mass to the end of the support. -/
theorem C80_discrete_gaussian_violated {σ σ' ε : ℝ} (h0 : 0 < σ) (hσ : σ < σ') (hε : 0.5 / σ ^ 2 ≤ ε) : ∃ m m' d d',
    mkDiscreteGaussian σ 1 (some 1) 1 .add = .ok m ∧ mkDiscreteGaussian σ' 1 (some 1) 1 .add = .ok m' ∧
      m.getDelta ε = .ok d ∧ m'.getDelta ε = .ok d' ∧ d < d' := by
  obtain ⟨m, hm⟩ := mkDiscreteGaussian_ok (σ := σ) (s := 1) (bound := some 1) (q := 1) .add h0 (by simp [dgBound]) (by norm_num)
  obtain ⟨m', hm'⟩ := mkDiscreteGaussian_ok (σ := σ') (s := 1) (bound := some 1) (q := 1) .add (h0.trans hσ) (by simp [dgBound]) (by norm_num)
  have hlt : 0.5 / σ' ^ 2 < 0.5 / σ ^ 2 := by
    refine div_lt_div_of_pos_left (by norm_num) (by positivity) ?_
    exact pow_lt_pow_left₀ hσ h0.le (by norm_num)
  refine ⟨m, m', _, _, hm, hm', dg_small hm hε, dg_small hm' (hlt.le.trans hε), ?_⟩
  have := Real.exp_lt_exp.2 hlt
  have := Real.exp_pos (0.5 / σ' ^ 2)
  exact one_div_lt_one_div_of_lt (by linarith) (by linarith)

/-- The delta of a discrete Gaussian mechanism with sensitivity one at an epsilon above all finite losses: the mass of the last output. -/
lemma dg_edge {σ : ℝ} {bound : Option ℤ} {T : ℤ} {m : AdditiveNoise ℤ} (h : mkDiscreteGaussian σ 1 bound 1 .add = .ok m) (hT : dgBound σ bound = T)
    (h1 : 1 ≤ T) {ε : ℝ} (hε : ((T : ℝ) - 0.5) / σ ^ 2 ≤ ε) : m.getDelta ε = .ok (dgW σ (-T) / dgZ σ T) := by
  obtain ⟨hf, a1, a2, a3, -, hσ, -⟩ := discreteGaussian_faithful h
  have hs2 : 0 < σ ^ 2 := by positivity
  rw [hT] at hf
  obtain ⟨d, hd, hs⟩ := getDelta_isHs hf ε (.inl a2)
  have hp := hf.prob
  have hup : ∀ x, upperDens m (dgF σ T) x = dgF σ T x := fun x => by simp only [upperDens, a3]
  have hlo : ∀ x, lowerDens m (dgF σ T) x = dgF σ T (x - 1) := fun x => by simp only [lowerDens, a3, a2, a1]; ring
  have n0 := dgF_nonneg σ T
  have key := isHs_of_cut hf ε (S := {-T}) (measurableSet_singleton _) fun x _ => by
    rw [hup, hlo]
    constructor
    · intro hx
      rw [Set.mem_singleton_iff] at hx
      subst hx
      rw [dgF_zero (x := -T - 1) (by rw [Finset.mem_Icc]; omega), mul_zero]
      exact n0 _
    · intro hx
      rw [Set.mem_singleton_iff] at hx
      by_cases hm : x ∈ Finset.Icc (-T) T
      · have hm1 : x - 1 ∈ Finset.Icc (-T) T := by rw [Finset.mem_Icc] at hm ⊢; omega
        rw [(dgF_ratio (σ := σ) (s := 1) (T := T) (by omega) hm hm1).1]
        refine mul_le_mul_of_nonneg_right (Real.exp_le_exp.2 (le_trans ?_ hε)) (n0 _)
        refine div_le_div_of_nonneg_right ?_ hs2.le
        have : (-T + 1 : ℝ) ≤ x := by
          rw [Finset.mem_Icc] at hm
          have : -T + 1 ≤ x := by omega
          exact_mod_cast this
        push_cast
        linarith
      · rw [dgF_zero hm]
        exact mul_nonneg (Real.exp_pos _).le (n0 _)
  have ed := hs.unique key
  rw [hd, ed, upper_eq hf, lower_eq hf, real_singleton (fun x => by rw [hup]; exact n0 x), real_singleton (fun x => by rw [hlo]; exact n0 _), hup, hlo,
    dgF_zero (x := -T - 1) (by rw [Finset.mem_Icc]; omega), mul_zero, sub_zero]
  unfold dgF
  rw [if_pos (by rw [Finset.mem_Icc]; omega)]

/-- **C80, negated** for the noise of the discrete Gaussian mechanism with the default truncation, or any other one: of two values of sigma with
the same truncation bound the larger one has the strictly larger delta at every epsilon above the finite losses, because it moves mass to the
end of the support. (With the default truncation these deltas are tiny.) -/
theorem C80_discrete_gaussian_default_violated {σ σ' ε : ℝ} (bound : Option ℤ) (h0 : 0 < σ) (hσ : σ < σ') (h1 : 1 ≤ dgBound σ bound)
    (hT : dgBound σ bound = dgBound σ' bound) (hε : ((dgBound σ bound : ℝ) - 0.5) / σ ^ 2 ≤ ε) : ∃ m m' d d',
    mkDiscreteGaussian σ 1 bound 1 .add = .ok m ∧ mkDiscreteGaussian σ' 1 bound 1 .add = .ok m' ∧
      m.getDelta ε = .ok d ∧ m'.getDelta ε = .ok d' ∧ d < d' := by
  obtain ⟨m, hm⟩ := mkDiscreteGaussian_ok (σ := σ) (s := 1) (bound := bound) (q := 1) .add h0 (by omega) (by norm_num)
  obtain ⟨m', hm'⟩ := mkDiscreteGaussian_ok (σ := σ') (s := 1) (bound := bound) (q := 1) .add (h0.trans hσ) (by omega) (by norm_num)
  generalize hTd : dgBound σ bound = T at *
  have hT1 : (1 : ℝ) ≤ T := by exact_mod_cast h1
  have hsq : σ ^ 2 < σ' ^ 2 := pow_lt_pow_left₀ hσ h0.le (by norm_num)
  have hs0 : 0 < σ ^ 2 := by positivity
  refine ⟨m, m', _, _, hm, hm', dg_edge hm hTd h1 hε, dg_edge hm' hT.symm h1 ((div_le_div_of_nonneg_left (by linarith) hs0 hsq.le).trans hε), ?_⟩
  have hinv : 1 / σ' ^ 2 < 1 / σ ^ 2 := one_div_lt_one_div_of_lt hs0 hsq
  have hexp : ∀ x : ℤ, (-0.5 * ((-T : ℤ) : ℝ) ^ 2 / σ' ^ 2 + -0.5 * (x : ℝ) ^ 2 / σ ^ 2) - (-0.5 * ((-T : ℤ) : ℝ) ^ 2 / σ ^ 2 + -0.5 * (x : ℝ) ^ 2 / σ' ^ 2) =
      0.5 * ((T : ℝ) ^ 2 - (x : ℝ) ^ 2) * (1 / σ ^ 2 - 1 / σ' ^ 2) := fun x => by push_cast; ring
  have hle : ∀ x ∈ Finset.Icc (-T) T, dgW σ (-T) * dgW σ' x ≤ dgW σ' (-T) * dgW σ x := by
    intro x hx
    rw [Finset.mem_Icc] at hx
    unfold dgW
    rw [← Real.exp_add, ← Real.exp_add, Real.exp_le_exp, ← sub_nonneg, hexp]
    have : (x : ℝ) ^ 2 ≤ (T : ℝ) ^ 2 := sq_le_sq' (by exact_mod_cast hx.1) (by exact_mod_cast hx.2)
    exact mul_nonneg (by linarith) (by linarith)
  have hlt : dgW σ (-T) * dgW σ' 0 < dgW σ' (-T) * dgW σ 0 := by
    unfold dgW
    rw [← Real.exp_add, ← Real.exp_add, Real.exp_lt_exp, ← sub_pos, hexp]
    have : (0 : ℝ) < (T : ℝ) ^ 2 := by positivity
    exact mul_pos (by push_cast; linarith) (by linarith)
  rw [div_lt_div_iff₀ (dgZ_pos _ (by omega)) (dgZ_pos _ (by omega))]
  unfold dgZ
  rw [Finset.mul_sum, Finset.mul_sum]
  exact Finset.sum_lt_sum hle ⟨0, by rw [Finset.mem_Icc]; omega, hlt⟩

/-- The hypotheses are met with the default truncation bound, for instance by sigma 1 and 1.03 at epsilon 12. -/
example : ∃ m m' d d', mkDiscreteGaussian 1 1 none 1 .add = .ok m ∧ mkDiscreteGaussian 1.03 1 none 1 .add = .ok m' ∧
    m.getDelta 12 = .ok d ∧ m'.getDelta 12 = .ok d' ∧ d < d' := by
  have e1 : dgBound 1 none = 12 := by
    unfold dgBound
    rw [Int.ceil_eq_iff]
    norm_num
  have e2 : dgBound 1.03 none = 12 := by
    unfold dgBound
    rw [Int.ceil_eq_iff]
    norm_num
  exact C80_discrete_gaussian_default_violated none one_pos (by norm_num) (by rw [e1]; norm_num) (by rw [e1, e2]) (by rw [e1]; norm_num)

/-- The hypotheses are met, for instance by sub-sampled mechanisms that differ in every parameter. -/
example : (∃ m m', mkLaplace 3 1 0.25 .add = .ok m ∧ mkLaplace 2 1.5 0.5 .add = .ok m' ∧ (2 : ℝ) / 1.5 ≤ 3 / 1) ∧
    (∃ m m', mkGaussian 3 1 (-50) 0.25 .remove = .ok m ∧ mkGaussian 4 2 (-50) 1 .remove = .ok m' ∧ (4 : ℝ) / 2 ≤ 3 / 1) ∧
    (∃ m m', mkDiscreteLaplace 0.5 1 0.25 .add = .ok m ∧ mkDiscreteLaplace 1 4 0.5 .add = .ok m') ∧
    ∃ m m', mkDiscreteGaussian 2 1 (some 10) 0.25 .remove = .ok m ∧ mkDiscreteGaussian 2 3 (some 10) 0.5 .remove = .ok m' := by
  refine ⟨?_, ?_, ?_, ?_⟩
  · obtain ⟨m, h⟩ := mkLaplace_ok (b := 3) (s := 1) (q := 0.25) .add (by norm_num) (by norm_num)
    obtain ⟨m', h'⟩ := mkLaplace_ok (b := 2) (s := 1.5) (q := 0.5) .add (by norm_num) (by norm_num)
    exact ⟨m, m', h, h', by norm_num⟩
  · obtain ⟨m, h⟩ := mkGaussian_ok (σ := 3) (s := 1) (lb := -50) (q := 0.25) .remove (by norm_num) (by norm_num) (by norm_num)
    obtain ⟨m', h'⟩ := mkGaussian_ok (σ := 4) (s := 2) (lb := -50) (q := 1) .remove (by norm_num) (by norm_num) (by norm_num)
    exact ⟨m, m', h, h', by norm_num⟩
  · obtain ⟨m, h⟩ := mkDiscreteLaplace_ok (a := 0.5) (s := 1) (q := 0.25) .add (by norm_num) (by norm_num)
    obtain ⟨m', h'⟩ := mkDiscreteLaplace_ok (a := 1) (s := 4) (q := 0.5) .add (by norm_num) (by norm_num)
    exact ⟨m, m', h, h'⟩
  · obtain ⟨m, h⟩ := mkDiscreteGaussian_ok (σ := 2) (s := 1) (bound := some 10) (q := 0.25) .remove (by norm_num) (by simp [dgBound]) (by norm_num)
    obtain ⟨m', h'⟩ := mkDiscreteGaussian_ok (σ := 2) (s := 3) (bound := some 10) (q := 0.5) .remove (by norm_num) (by simp [dgBound]) (by norm_num)
    exact ⟨m, m', h, h'⟩

end Verif.Props
