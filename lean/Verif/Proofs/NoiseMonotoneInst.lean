import Verif.Proofs.NoiseMonotone

/-! # Additive noise: the comparison for each of the four mechanisms -/

namespace Verif.Mech
open Verif Spec Pld MeasureTheory ProbabilityTheory LogDomain

section
variable {X : Type} [AddCommGroup X] [MeasurableSpace X] [MeasurableAdd X]

/-! ### Scaling the noise and the sensitivity together -/

lemma mixShift_map (μ : Measure X) (q : ℝ) (s : X) (g : X →+ X) (hg : Measurable g) :
    mixShift (μ.map g) q (g s) = (mixShift μ q s).map g := by
  unfold mixShift
  rw [Measure.map_add _ _ hg, Measure.map_smul, Measure.map_smul, Measure.map_map (measurable_add_const _) hg,
    Measure.map_map hg (measurable_add_const _)]
  congr 3
  ext x
  simp

lemma upper_map (μ : Measure X) (q : ℝ) (s : X) (adj : Adj) (g : X →+ X) (hg : Measurable g) :
    upper (μ.map g) (g s) q adj = (upper μ s q adj).map g := by
  cases adj with
  | add => rfl
  | remove => simp only [upper]; rw [← map_neg, mixShift_map _ _ _ _ hg]

lemma lower_map (μ : Measure X) (q : ℝ) (s : X) (adj : Adj) (g : X →+ X) (hg : Measurable g) :
    lower (μ.map g) (g s) q adj = (lower μ s q adj).map g := by
  cases adj with
  | add => simp only [lower]; rw [mixShift_map _ _ _ _ hg]
  | remove => rfl

end

lemma cdfOf_bot {X : Type} [MeasurableSpace X] (g : X → ℝ) (μ : Measure X) : cdfOf g μ ⊥ = 0 := by simp [cdfOf]

/-- The divergence does not change when the noise and the sensitivity are scaled by the same factor. -/
lemma isHs_scale {μ μ' : Measure ℝ} {c : ℝ} (hc : 0 < c) (hμ : μ.map (fun x => c * x) = μ') (s q : ℝ) (adj : Adj) {ε d : ℝ}
    (h : IsHs (upper μ' (c * s) q adj) (lower μ' (c * s) q adj) ε d) : IsHs (upper μ s q adj) (lower μ s q adj) ε d := by
  have hm : Measurable (AddMonoidHom.mulLeft c : ℝ →+ ℝ) := by
    show Measurable fun x : ℝ => c * x
    fun_prop
  have hm' : Measurable fun x : ℝ => c * x := hm
  have hi : Measurable fun x : ℝ => c⁻¹ * x := by fun_prop
  have e1 : upper μ' (c * s) q adj = (upper μ s q adj).map fun x => c * x := by
    rw [← hμ]; exact upper_map μ q s adj (AddMonoidHom.mulLeft c) hm
  have e2 : lower μ' (c * s) q adj = (lower μ s q adj).map fun x => c * x := by
    rw [← hμ]; exact lower_map μ q s adj (AddMonoidHom.mulLeft c) hm
  have back : ∀ ν : Measure ℝ, (ν.map fun x => c * x).map (fun x => c⁻¹ * x) = ν := by
    intro ν
    rw [Measure.map_map hi hm']
    have : ((fun x : ℝ => c⁻¹ * x) ∘ fun x => c * x) = id := by ext x; simp; field_simp
    exact this ▸ Measure.map_id
  have iff : ∀ t, Indist (upper μ' (c * s) q adj) (lower μ' (c * s) q adj) ε t ↔ Indist (upper μ s q adj) (lower μ s q adj) ε t := by
    intro t
    rw [e1, e2]
    constructor
    · intro k
      have := Indist.map k hi
      rwa [back, back] at this
    · intro k; exact Indist.map k hm'
  unfold IsHs at h ⊢
  simpa only [iff] using h

lemma laplace_scale_mul {b c : ℝ} (hb : 0 < b) (hc : 0 < c) : (laplace 0 b).map (fun x => c * x) = laplace 0 (c * b) := by
  have hm : Measurable fun x : ℝ => c * x := by fun_prop
  rw [laplace_law, laplace_law]
  ext S hS
  rw [Measure.map_apply hm hS, withDensity_apply _ (hm hS), withDensity_apply _ hS]
  conv_rhs => rw [← Real.smul_map_volume_mul_left hc.ne', abs_of_pos hc, Measure.restrict_smul, lintegral_smul_measure,
    Measure.restrict_map hm hS, lintegral_map (by fun_prop) hm, smul_eq_mul, ← lintegral_const_mul _ (by fun_prop)]
  refine lintegral_congr fun x => ?_
  rw [← ENNReal.ofReal_mul hc.le]
  congr 1
  rw [abs_mul, abs_of_pos hc]
  field_simp

lemma gaussian_scale {σ c : ℝ} : (gaussianReal 0 (Real.toNNReal (σ ^ 2))).map (fun x => c * x) = gaussianReal 0 (Real.toNNReal ((c * σ) ^ 2)) := by
  have e : NNReal.mk (c ^ 2) (sq_nonneg c) * Real.toNNReal (σ ^ 2) = Real.toNNReal ((c * σ) ^ 2) := by
    rw [mul_pow, Real.toNNReal_mul (sq_nonneg _)]
    congr 1
    exact (Real.toNNReal_of_nonneg (sq_nonneg c)).symm
  rw [gaussianReal_map_const_mul, mul_zero, e]

/-! ### Laplace -/

lemma laplace_inv {b s q : ℝ} {adj : Adj} {m : AdditiveNoise ℝ} (h : mkLaplace b s q adj = .ok m) :
    m.invNo ⊥ = ⊤ ∧ m.invNo ⊤ = ⊥ ∧ m.toReal = AddMonoidHom.id ℝ := by
  obtain ⟨-, -, -, -, -, hb⟩ := laplace_faithful h
  unfold mkLaplace at h
  rw [if_neg (not_le.2 hb)] at h
  obtain ⟨-, rfl⟩ := map_checkBase h
  exact ⟨rfl, rfl, rfl⟩

lemma gaussian_inv {σ s lb q : ℝ} {adj : Adj} {m : AdditiveNoise ℝ} (h : mkGaussian σ s lb q adj = .ok m) :
    m.invNo ⊥ = ⊤ ∧ m.invNo ⊤ = ⊥ ∧ m.toReal = AddMonoidHom.id ℝ := by
  obtain ⟨-, -, -, -, -, hb⟩ := gaussian_faithful h
  unfold mkGaussian at h
  rw [if_neg (not_le.2 hb)] at h
  by_cases hl : lb > 0
  · rw [if_pos hl] at h; exact absurd h (by simp)
  rw [if_neg hl] at h
  obtain ⟨-, rfl⟩ := map_checkBase h
  exact ⟨rfl, rfl, rfl⟩

lemma discreteLaplace_inv {a q : ℝ} {s : ℤ} {adj : Adj} {m : AdditiveNoise ℤ} (h : mkDiscreteLaplace a s q adj = .ok m) :
    m.invNo ⊥ = ⊤ ∧ m.invNo ⊤ = ⊥ ∧ m.toReal = Int.castAddHom ℝ := by
  obtain ⟨-, -, -, -, -, hb⟩ := discreteLaplace_faithful h
  unfold mkDiscreteLaplace at h
  rw [if_neg (not_le.2 hb)] at h
  obtain ⟨-, rfl⟩ := map_checkBase h
  exact ⟨rfl, rfl, rfl⟩

section
variable {X : Type} [AddCommGroup X] [MeasurableSpace X] [MeasurableAdd X] {m m' : AdditiveNoise X} {ν ν' : Measure X}
  [ν.IsAddRightInvariant] [ν'.IsAddRightInvariant] {f f' : X → ℝ}

lemma edges_of_inv (h : Faithful m ν f) (hi : m.invNo ⊥ = ⊤ ∧ m.invNo ⊤ = ⊥) : Edges m where
  bot := fun _ => by have := h.prob; rw [hi.1, EReal.top_add_coe, h.cdf, cdfOf_top]
  top := fun _ => by rw [hi.2, EReal.bot_add, h.cdf, cdfOf_bot]

/-- Noise with all of the line as support. -/
lemma getDelta_le_of_inv (h : Faithful m ν f) (h' : Faithful m' ν' f') (hi : m.invNo ⊥ = ⊤ ∧ m.invNo ⊤ = ⊥)
    (hi' : m'.invNo ⊥ = ⊤ ∧ m'.invNo ⊤ = ⊥) (ha : m.adj = m'.adj) (hq : m.samplingProb ≤ m'.samplingProb) (ε : ℝ)
    (hs : m'.samplingProb = 1 ∨ ¬ IsClose ε (edge m') → ∀ d d',
      IsHs (upper (ν.withDensity fun x => ENNReal.ofReal (f x)) m.sensitivity m.samplingProb m.adj)
        (lower (ν.withDensity fun x => ENNReal.ofReal (f x)) m.sensitivity m.samplingProb m.adj) ε d →
      IsHs (upper (ν'.withDensity fun x => ENNReal.ofReal (f' x)) m'.sensitivity m'.samplingProb m'.adj)
        (lower (ν'.withDensity fun x => ENNReal.ofReal (f' x)) m'.sensitivity m'.samplingProb m'.adj) ε d' → d ≤ d') :
    ∃ d d', m.getDelta ε = .ok d ∧ m'.getDelta ε = .ok d' ∧ d ≤ d' := by
  have := h.prob
  have := h'.prob
  refine getDelta_le h h' (edges_of_inv h hi) (edges_of_inv h' hi') ha hq (fun _ => ?_) (fun _ => ?_) ε hs
  · rw [hi.2, hi'.2, h.cdf, h'.cdf, cdfOf_bot, cdfOf_bot]
  · rw [hi.1, hi'.1, h.cdf, h'.cdf, cdfOf_top, cdfOf_top]

lemma edge_congr (ha : m.adj = m'.adj) (hq : m.samplingProb = m'.samplingProb) : edge m = edge m' := by
  unfold edge; rw [ha, hq]

end

lemma laplace_q {b s q q' : ℝ} {adj : Adj} {m m' : AdditiveNoise ℝ} (h : mkLaplace b s q adj = .ok m) (h' : mkLaplace b s q' adj = .ok m')
    (hq : q ≤ q') (ε : ℝ) : ∃ d d', m.getDelta ε = .ok d ∧ m'.getDelta ε = .ok d' ∧ d ≤ d' := by
  have i := laplace_inv h
  have i' := laplace_inv h'
  obtain ⟨hf, a1, a2, a3, -, -⟩ := laplace_faithful h
  obtain ⟨hf', b1, b2, b3, -, -⟩ := laplace_faithful h'
  have := hf.prob
  refine getDelta_le_of_inv hf hf' ⟨i.1, i.2.1⟩ ⟨i'.1, i'.2.1⟩ (by rw [a3, b3]) (by rw [a2, b2]; exact hq) ε fun _ d d' hd hd' => ?_
  refine isHs_mono_of_indist hd hd' fun e he => ?_
  have q0 := hf.q0
  have q1 := hf'.q1
  rw [a1, a2, a3]
  rw [b1, b2, b3] at he
  rw [a2] at q0
  rw [b2] at q1
  exact indist_sampling _ s q0 hq q1 adj ε e he

lemma laplace_b {b b' s s' q : ℝ} {adj : Adj} {m m' : AdditiveNoise ℝ} (h : mkLaplace b s q adj = .ok m) (h' : mkLaplace b' s' q adj = .ok m')
    (hb : b' / b * s ≤ s') (ε : ℝ) : ∃ d d', m.getDelta ε = .ok d ∧ m'.getDelta ε = .ok d' ∧ d ≤ d' := by
  have i := laplace_inv h
  have i' := laplace_inv h'
  obtain ⟨hf, a1, a2, a3, s0, b0⟩ := laplace_faithful h
  obtain ⟨hf', b1, b2, b3, -, b0'⟩ := laplace_faithful h'
  have ea : m.adj = m'.adj := by rw [a3, b3]
  have eq : m.samplingProb = m'.samplingProb := by rw [a2, b2]
  refine getDelta_le_of_inv hf hf' ⟨i.1, i.2.1⟩ ⟨i'.1, i'.2.1⟩ ea eq.le ε fun hc d d' hd hd' => ?_
  -- noise of scale `b` and sensitivity `s` are noise of scale `b'` and sensitivity `s b' / b`
  have q0 := hf.q0
  have q1 := hf.q1
  rw [a2] at q0 q1
  obtain ⟨m₂, h₂⟩ := mkLaplace_ok (b := b') (s := b' / b * s) (q := q) adj b0' ⟨by positivity, q0, q1⟩
  have i₂ := laplace_inv h₂
  obtain ⟨hf₂, c1, c2, c3, -, -⟩ := laplace_faithful h₂
  have hd₂ : IsHs (upper (laplace 0 b') (b' / b * s) q adj) (lower (laplace 0 b') (b' / b * s) q adj) ε d := by
    rw [← laplace_law, a1, a2, a3] at hd
    have e1 : b / b' * (b' / b * s) = s := by field_simp
    refine isHs_scale (c := b / b') (by positivity) (laplace_scale_mul b0' (by positivity)) (b' / b * s) q adj ?_
    rw [e1, show b / b' * b' = b by field_simp]
    exact hd
  rw [laplace_law, ← c1] at hd₂
  have hd₃ : IsHs (upper (volume.withDensity fun x => ENNReal.ofReal (0.5 / b' * Real.exp (-|x| / b'))) m₂.sensitivity m₂.samplingProb m₂.adj)
      (lower (volume.withDensity fun x => ENNReal.ofReal (0.5 / b' * Real.exp (-|x| / b'))) m₂.sensitivity m₂.samplingProb m₂.adj) ε d := by
    rw [c2, c3]; exact hd₂
  have ea₂ : m₂.adj = m'.adj := by rw [c3, b3]
  have eq₂ : m₂.samplingProb = m'.samplingProb := by rw [c2, b2]
  refine isHs_sensitivity hf₂ hf' (by rw [i₂.2.2, i'.2.2]) ea₂ eq₂ ?_ ε (by rwa [eq₂, edge_congr ea₂ eq₂]) hd₃ hd'
  rw [i₂.2.2, i'.2.2, c1, b1]
  exact hb

/-! ### Gaussian -/

lemma gaussian_q {σ s lb lb' q q' : ℝ} {adj : Adj} {m m' : AdditiveNoise ℝ} (h : mkGaussian σ s lb q adj = .ok m)
    (h' : mkGaussian σ s lb' q' adj = .ok m') (hq : q ≤ q') (ε : ℝ) :
    ∃ d d', m.getDelta ε = .ok d ∧ m'.getDelta ε = .ok d' ∧ d ≤ d' := by
  have i := gaussian_inv h
  have i' := gaussian_inv h'
  obtain ⟨hf, a1, a2, a3, -, -⟩ := gaussian_faithful h
  obtain ⟨hf', b1, b2, b3, -, -⟩ := gaussian_faithful h'
  have := hf.prob
  refine getDelta_le_of_inv hf hf' ⟨i.1, i.2.1⟩ ⟨i'.1, i'.2.1⟩ (by rw [a3, b3]) (by rw [a2, b2]; exact hq) ε fun _ d d' hd hd' => ?_
  refine isHs_mono_of_indist hd hd' fun e he => ?_
  have q0 := hf.q0
  have q1 := hf'.q1
  rw [a1, a2, a3]
  rw [b1, b2, b3] at he
  rw [a2] at q0
  rw [b2] at q1
  exact indist_sampling _ s q0 hq q1 adj ε e he

lemma gaussian_σ {σ σ' s s' lb lb' q : ℝ} {adj : Adj} {m m' : AdditiveNoise ℝ} (h : mkGaussian σ s lb q adj = .ok m)
    (h' : mkGaussian σ' s' lb' q adj = .ok m') (hb : σ' / σ * s ≤ s') (ε : ℝ) :
    ∃ d d', m.getDelta ε = .ok d ∧ m'.getDelta ε = .ok d' ∧ d ≤ d' := by
  have i := gaussian_inv h
  have i' := gaussian_inv h'
  obtain ⟨hf, a1, a2, a3, s0, b0⟩ := gaussian_faithful h
  obtain ⟨hf', b1, b2, b3, -, b0'⟩ := gaussian_faithful h'
  have ea : m.adj = m'.adj := by rw [a3, b3]
  have eq : m.samplingProb = m'.samplingProb := by rw [a2, b2]
  refine getDelta_le_of_inv hf hf' ⟨i.1, i.2.1⟩ ⟨i'.1, i'.2.1⟩ ea eq.le ε fun hc d d' hd hd' => ?_
  have q0 := hf.q0
  have q1 := hf.q1
  rw [a2] at q0 q1
  obtain ⟨m₂, h₂⟩ := mkGaussian_ok (σ := σ') (s := σ' / σ * s) (lb := 0) (q := q) adj b0' le_rfl ⟨by positivity, q0, q1⟩
  have i₂ := gaussian_inv h₂
  obtain ⟨hf₂, c1, c2, c3, -, -⟩ := gaussian_faithful h₂
  have hd₂ : IsHs (upper (gaussianReal 0 (Real.toNNReal (σ' ^ 2))) (σ' / σ * s) q adj)
      (lower (gaussianReal 0 (Real.toNNReal (σ' ^ 2))) (σ' / σ * s) q adj) ε d := by
    rw [← gaussian_law b0, a1, a2, a3] at hd
    have e1 : σ / σ' * (σ' / σ * s) = s := by field_simp
    refine isHs_scale (c := σ / σ') (by positivity) gaussian_scale (σ' / σ * s) q adj ?_
    rw [e1, show σ / σ' * σ' = σ by field_simp]
    exact hd
  rw [gaussian_law b0', ← c1] at hd₂
  have hd₃ : IsHs (upper (volume.withDensity fun x => ENNReal.ofReal (gaussConst σ' * Real.exp (-0.5 * x ^ 2 / σ' ^ 2))) m₂.sensitivity m₂.samplingProb m₂.adj)
      (lower (volume.withDensity fun x => ENNReal.ofReal (gaussConst σ' * Real.exp (-0.5 * x ^ 2 / σ' ^ 2))) m₂.sensitivity m₂.samplingProb m₂.adj) ε d := by
    rw [c2, c3]; exact hd₂
  have ea₂ : m₂.adj = m'.adj := by rw [c3, b3]
  have eq₂ : m₂.samplingProb = m'.samplingProb := by rw [c2, b2]
  refine isHs_sensitivity hf₂ hf' (by rw [i₂.2.2, i'.2.2]) ea₂ eq₂ ?_ ε (by rwa [eq₂, edge_congr ea₂ eq₂]) hd₃ hd'
  rw [i₂.2.2, i'.2.2, c1, b1]
  exact hb

/-! ### Discrete Laplace -/

lemma discreteLaplace_q {a q q' : ℝ} {s : ℤ} {adj : Adj} {m m' : AdditiveNoise ℤ} (h : mkDiscreteLaplace a s q adj = .ok m)
    (h' : mkDiscreteLaplace a s q' adj = .ok m') (hq : q ≤ q') (ε : ℝ) :
    ∃ d d', m.getDelta ε = .ok d ∧ m'.getDelta ε = .ok d' ∧ d ≤ d' := by
  have i := discreteLaplace_inv h
  have i' := discreteLaplace_inv h'
  obtain ⟨hf, a1, a2, a3, -, -⟩ := discreteLaplace_faithful h
  obtain ⟨hf', b1, b2, b3, -, -⟩ := discreteLaplace_faithful h'
  have := hf.prob
  refine getDelta_le_of_inv hf hf' ⟨i.1, i.2.1⟩ ⟨i'.1, i'.2.1⟩ (by rw [a3, b3]) (by rw [a2, b2]; exact hq) ε fun _ d d' hd hd' => ?_
  refine isHs_mono_of_indist hd hd' fun e he => ?_
  have q0 := hf.q0
  have q1 := hf'.q1
  rw [a1, a2, a3]
  rw [b1, b2, b3] at he
  rw [a2] at q0
  rw [b2] at q1
  exact indist_sampling _ s q0 hq q1 adj ε e he

lemma discreteLaplace_s {a q : ℝ} {s s' : ℤ} {adj : Adj} {m m' : AdditiveNoise ℤ} (h : mkDiscreteLaplace a s q adj = .ok m)
    (h' : mkDiscreteLaplace a s' q adj = .ok m') (hs : s ≤ s') (ε : ℝ) :
    ∃ d d', m.getDelta ε = .ok d ∧ m'.getDelta ε = .ok d' ∧ d ≤ d' := by
  have i := discreteLaplace_inv h
  have i' := discreteLaplace_inv h'
  obtain ⟨hf, a1, a2, a3, -, -⟩ := discreteLaplace_faithful h
  obtain ⟨hf', b1, b2, b3, -, -⟩ := discreteLaplace_faithful h'
  have ea : m.adj = m'.adj := by rw [a3, b3]
  have eq : m.samplingProb = m'.samplingProb := by rw [a2, b2]
  refine getDelta_le_of_inv hf hf' ⟨i.1, i.2.1⟩ ⟨i'.1, i'.2.1⟩ ea eq.le ε fun hc d d' hd hd' => ?_
  refine isHs_sensitivity hf hf' (by rw [i.2.2, i'.2.2]) ea eq ?_ ε (by rwa [eq, edge_congr ea eq]) hd hd'
  rw [i.2.2, i'.2.2, a1, b1]
  exact Int.cast_le.2 hs

/-- The sum of a discrete Laplace variable and an independent one is, up to constants, a difference of two. -/
lemma sum_geometric {p r : ℝ} (p0 : 0 < p) (p1 : p < 1) (r0 : 0 < r) (r1 : r < 1) (k : ℕ) :
    ∃ g, HasSum (fun n : ℕ => r ^ ((k : ℤ) - n).natAbs * p ^ n) g ∧
      g * (p - r) = p ^ k * (p - r) / (1 - p * r) + (p ^ k - r ^ k) * r := by
  have hpr : p * r < 1 := by nlinarith
  induction k with
  | zero =>
    refine ⟨(1 - r * p)⁻¹, ?_, by rw [mul_comm r p]; have : 1 - p * r ≠ 0 := by linarith
                                  field_simp; ring⟩
    have : (fun n : ℕ => r ^ (((0 : ℕ) : ℤ) - n).natAbs * p ^ n) = fun n => (r * p) ^ n := by
      ext n
      rw [mul_pow]
      congr 2
      omega
    rw [this]
    exact hasSum_geometric_of_lt_one (by positivity) (by linarith)
  | succ k ih =>
    obtain ⟨g, hg, e⟩ := ih
    refine ⟨r ^ (k + 1) + p * g, ?_, ?_⟩
    · rw [← hasSum_nat_add_iff' 1]
      have : (fun n : ℕ => r ^ (((k + 1 : ℕ) : ℤ) - (n + 1 : ℕ)).natAbs * p ^ (n + 1)) = fun n : ℕ => p * (r ^ ((k : ℤ) - n).natAbs * p ^ n) := by
        ext n
        have : (((k + 1 : ℕ) : ℤ) - (n + 1 : ℕ)).natAbs = ((k : ℤ) - n).natAbs := by omega
        rw [this, pow_succ]; ring
      rw [this]
      have h2 := hg.mul_left p
      have e2 : ∑ i ∈ Finset.range 1, r ^ (((k + 1 : ℕ) : ℤ) - (i : ℕ)).natAbs * p ^ i = r ^ (k + 1) := by
        simp only [Finset.range_one, Finset.sum_singleton, pow_zero, mul_one]
        congr 1
      rw [e2, add_sub_cancel_left]
      exact h2
    · have : (r ^ (k + 1) + p * g) * (p - r) = r ^ (k + 1) * (p - r) + p * (g * (p - r)) := by ring
      rw [this, e, pow_succ, pow_succ]
      ring

lemma alg1 {p r g A B : ℝ} (hpr : r < p) (hlt : 0 < 1 - p * r) (e : g * (p - r) = A * (p - r) / (1 - p * r) + (A - B) * r) :
    g + B * r * p * (1 - r * p)⁻¹ = A * (p * (1 - r ^ 2) / ((1 - p * r) * (p - r))) - B * (r * (1 - p ^ 2) / ((1 - p * r) * (p - r))) := by
  have d1 : p - r ≠ 0 := by linarith
  have eg : g = (A * (p - r) / (1 - p * r) + (A - B) * r) / (p - r) := by rw [← e]; field_simp
  rw [eg, mul_comm r p]
  generalize hD : 1 - p * r = D at *
  have d2 : D ≠ 0 := hlt.ne'
  field_simp
  rw [← hD]
  ring

lemma alg2 {p r A B : ℝ} (p0 : 0 < p) (p1 : p < 1) (r0 : 0 < r) (hpr : r < p) :
    r * (1 - p) ^ 2 / (p * (1 - r) ^ 2) * ((1 - r) / (1 + r) * B) + (1 - p * r) * (p - r) / (p * (1 - r) ^ 2) * ((1 - p) / (1 + p)) *
      ((1 - r) / (1 + r)) * (A * (p * (1 - r ^ 2) / ((1 - p * r) * (p - r))) - B * (r * (1 - p ^ 2) / ((1 - p * r) * (p - r)))) =
      (1 - p) / (1 + p) * A := by
  have e1 : p - r ≠ 0 := by linarith
  have e2 : 1 - p * r ≠ 0 := by nlinarith
  have e3 : 1 - r ≠ 0 := by linarith
  have e4 : 1 + r ≠ 0 := by linarith
  have e5 : 1 + p ≠ 0 := by linarith
  have k1 : (1 - p * r) * (p - r) / (p * (1 - r) ^ 2) * ((1 - p) / (1 + p)) * ((1 - r) / (1 + r)) * (p * (1 - r ^ 2) / ((1 - p * r) * (p - r))) =
      (1 - p) / (1 + p) := by
    have : (1 - r ^ 2) = (1 - r) * (1 + r) := by ring
    rw [this]
    field_simp
  have k2 : (1 - p * r) * (p - r) / (p * (1 - r) ^ 2) * ((1 - p) / (1 + p)) * ((1 - r) / (1 + r)) * (r * (1 - p ^ 2) / ((1 - p * r) * (p - r))) =
      r * (1 - p) ^ 2 / (p * (1 - r) ^ 2) * ((1 - r) / (1 + r)) := by
    have : (1 - p ^ 2) = (1 - p) * (1 + p) := by ring
    rw [this]
    field_simp
  linear_combination A * k1 - B * k2

lemma alg3 {p r : ℝ} (p0 : 0 < p) (p1 : p < 1) (r0 : 0 < r) (hpr : r < p) :
    r * (1 - p) ^ 2 / (p * (1 - r) ^ 2) + (1 - p * r) * (p - r) / (p * (1 - r) ^ 2) * ((1 - p) / (1 + p) * ((1 + p) / (1 - p))) = 1 := by
  have e3 : 1 - r ≠ 0 := by linarith
  have e5 : 1 + p ≠ 0 := by linarith
  have e6 : 1 - p ≠ 0 := by linarith
  have : (1 - p) / (1 + p) * ((1 + p) / (1 - p)) = 1 := by field_simp
  rw [this]
  field_simp
  ring

lemma sum_dl {p r : ℝ} (p0 : 0 < p) (p1 : p < 1) (r0 : 0 < r) (r1 : r < 1) (hpr : r < p) (k : ℤ) :
    HasSum (fun j : ℤ => r ^ (k - j).natAbs * p ^ j.natAbs)
      (p ^ k.natAbs * (p * (1 - r ^ 2) / ((1 - p * r) * (p - r))) - r ^ k.natAbs * (r * (1 - p ^ 2) / ((1 - p * r) * (p - r)))) := by
  have hlt : p * r < 1 := by nlinarith
  have pos : ∀ k : ℕ, HasSum (fun j : ℤ => r ^ ((k : ℤ) - j).natAbs * p ^ j.natAbs)
      (p ^ k * (p * (1 - r ^ 2) / ((1 - p * r) * (p - r))) - r ^ k * (r * (1 - p ^ 2) / ((1 - p * r) * (p - r)))) := by
    intro k
    obtain ⟨g, hg, e⟩ := sum_geometric p0 p1 r0 r1 k
    have h2 : HasSum (fun n : ℕ => r ^ ((k : ℤ) - -((n : ℤ) + 1)).natAbs * p ^ (-((n : ℤ) + 1)).natAbs)
        (r ^ (k + 1) * p * (1 - r * p)⁻¹) := by
      have : (fun n : ℕ => r ^ ((k : ℤ) - -((n : ℤ) + 1)).natAbs * p ^ (-((n : ℤ) + 1)).natAbs) = fun n => r ^ (k + 1) * p * (r * p) ^ n := by
        ext n
        rw [show ((k : ℤ) - -((n : ℤ) + 1)).natAbs = k + 1 + n by omega, show (-((n : ℤ) + 1)).natAbs = n + 1 by omega, mul_pow]
        ring
      rw [this]
      exact (hasSum_geometric_of_lt_one (by positivity) (by linarith)).mul_left _
    have h1 : HasSum (fun n : ℕ => r ^ ((k : ℤ) - (n : ℤ)).natAbs * p ^ ((n : ℤ)).natAbs) g := by simpa using hg
    have := HasSum.of_nat_of_neg_add_one (f := fun j : ℤ => r ^ ((k : ℤ) - j).natAbs * p ^ j.natAbs) h1 h2
    rw [← alg1 (A := p ^ k) (B := r ^ k) hpr (show 0 < 1 - p * r by linarith) e, ← pow_succ]
    exact this
  rcases Int.natAbs_eq k with e | e
  · have := pos k.natAbs
    rwa [← e] at this
  · have := (pos k.natAbs)
    rw [← (Equiv.neg ℤ).hasSum_iff] at this
    convert this using 1
    ext j
    simp only [Function.comp, Equiv.neg_apply, Int.natAbs_neg]
    congr 2
    omega

/-- Mixing shifted copies keeps the guarantee. -/
lemma indist_mixture {μ μ' : Measure ℤ} [IsProbabilityMeasure μ'] [IsProbabilityMeasure μ] (w : ℤ → ENNReal) (hw : ∑' j, w j = 1)
    (hμ : μ = Measure.sum fun j => w j • μ'.map fun x => x + j) (s : ℤ) {q : ℝ} (q0 : 0 ≤ q) (q1 : q ≤ 1) (adj : Adj) (ε d : ℝ)
    (h : Indist (upper μ' s q adj) (lower μ' s q adj) ε d) : Indist (upper μ s q adj) (lower μ s q adj) ε d := by
  have hd0 : 0 ≤ d := by simpa using h ∅ MeasurableSet.empty
  have hm : ∀ j : ℤ, Measurable fun x : ℤ => x + j := fun j => measurable_of_countable _
  have hmix : ∀ t : ℤ, mixShift μ q t = Measure.sum fun j => w j • (mixShift μ' q t).map fun x => x + j := by
    intro t
    ext S hS
    have hpre : ∀ j, MeasurableSet ((fun x : ℤ => x + j) ⁻¹' S) := fun j => hm j hS
    unfold mixShift
    rw [Measure.add_apply, Measure.smul_apply, Measure.smul_apply, Measure.map_apply (hm t) hS, hμ, Measure.sum_apply _ hS,
      Measure.sum_apply _ (hm t hS), Measure.sum_apply _ hS, smul_eq_mul, smul_eq_mul, ← ENNReal.tsum_mul_left, ← ENNReal.tsum_mul_left,
      ← ENNReal.tsum_add]
    refine tsum_congr fun j => ?_
    simp only [Measure.smul_apply, smul_eq_mul]
    rw [Measure.map_apply (hm j) hS, Measure.map_apply (hm j) (hm t hS), Measure.map_apply (hm j) hS, Measure.add_apply, Measure.smul_apply,
      Measure.smul_apply, Measure.map_apply (hm t) (hpre j), smul_eq_mul, smul_eq_mul]
    have : (fun x : ℤ => x + t) ⁻¹' ((fun x => x + j) ⁻¹' S) = (fun x => x + j) ⁻¹' ((fun x => x + t) ⁻¹' S) := by
      ext x; simp [add_right_comm]
    rw [this]
    ring
  have hu : upper μ s q adj = Measure.sum fun j => w j • (upper μ' s q adj).map fun x => x + j := by
    cases adj with
    | add => exact hμ
    | remove => exact hmix _
  have hl : lower μ s q adj = Measure.sum fun j => w j • (lower μ' s q adj).map fun x => x + j := by
    cases adj with
    | add => exact hmix _
    | remove => exact hμ
  have pu : IsProbabilityMeasure (upper μ' s q adj) := by
    cases adj with
    | add => assumption
    | remove => exact mixShift_prob μ' q q0 q1 _
  have pl : IsProbabilityMeasure (lower μ' s q adj) := by
    cases adj with
    | add => exact mixShift_prob μ' q q0 q1 _
    | remove => assumption
  have pl' : IsProbabilityMeasure (lower μ s q adj) := by
    cases adj with
    | add => exact mixShift_prob μ q q0 q1 _
    | remove => assumption
  intro S hS
  have key : upper μ s q adj S ≤ ENNReal.ofReal (Real.exp ε) * lower μ s q adj S + ENNReal.ofReal d := by
    rw [hu, hl, Measure.sum_apply _ hS, Measure.sum_apply _ hS, ← ENNReal.tsum_mul_left]
    have ew : ENNReal.ofReal d = ∑' j, w j * ENNReal.ofReal d := by rw [ENNReal.tsum_mul_right, hw, one_mul]
    rw [ew, ← ENNReal.tsum_add]
    refine ENNReal.tsum_le_tsum fun j => ?_
    simp only [Measure.smul_apply, smul_eq_mul]
    rw [Measure.map_apply (hm j) hS, Measure.map_apply (hm j) hS]
    have h1 := h _ (hm j hS)
    have h2 : upper μ' s q adj ((fun x => x + j) ⁻¹' S) ≤ ENNReal.ofReal (Real.exp ε) * lower μ' s q adj ((fun x => x + j) ⁻¹' S) + ENNReal.ofReal d := by
      rw [← ENNReal.ofReal_toReal (measure_ne_top (upper μ' s q adj) _), ← ENNReal.ofReal_toReal (measure_ne_top (lower μ' s q adj) _),
        ← ENNReal.ofReal_mul (Real.exp_pos _).le, ← ENNReal.ofReal_add (by positivity) hd0]
      exact ENNReal.ofReal_le_ofReal h1
    calc _ ≤ w j * (ENNReal.ofReal (Real.exp ε) * lower μ' s q adj ((fun x => x + j) ⁻¹' S) + ENNReal.ofReal d) := by gcongr
      _ = _ := by ring
  have := ENNReal.toReal_mono (ENNReal.add_ne_top.2 ⟨ENNReal.mul_ne_top ENNReal.ofReal_ne_top (measure_ne_top _ _), ENNReal.ofReal_ne_top⟩) key
  rwa [ENNReal.toReal_add (ENNReal.mul_ne_top ENNReal.ofReal_ne_top (measure_ne_top _ _)) ENNReal.ofReal_ne_top, ENNReal.toReal_mul,
    ENNReal.toReal_ofReal (Real.exp_pos _).le, ENNReal.toReal_ofReal hd0] at this

/-- The mass of the discrete Laplace distribution as a geometric sequence. -/
lemma dl_mass (a : ℝ) (k : ℤ) : (Real.exp a - 1) / (Real.exp a + 1) * Real.exp (-a * |(k : ℝ)|) =
    (1 - Real.exp (-a)) / (1 + Real.exp (-a)) * Real.exp (-a) ^ k.natAbs := by
  have h1 : (Real.exp a - 1) / (Real.exp a + 1) = (1 - Real.exp (-a)) / (1 + Real.exp (-a)) := by
    rw [Real.exp_neg]
    have := Real.exp_pos a
    field_simp
  rw [h1, ← Real.exp_nat_mul]
  congr 2
  rw [Nat.cast_natAbs, Int.cast_abs]
  ring

/-- More discrete Laplace noise is less noise and a further independent shift. -/
lemma discreteLaplace_mixture {a a' : ℝ} (ha : 0 < a) (hlt : a < a') : ∃ w : ℤ → ENNReal, ∑' j, w j = 1 ∧
    discreteLaplace a = Measure.sum fun j => w j • (discreteLaplace a').map fun x => x + j := by
  obtain ⟨p, hp⟩ : ∃ p, p = Real.exp (-a) := ⟨_, rfl⟩
  obtain ⟨r, hr⟩ : ∃ r, r = Real.exp (-a') := ⟨_, rfl⟩
  have p0 : 0 < p := by rw [hp]; exact Real.exp_pos _
  have r0 : 0 < r := by rw [hr]; exact Real.exp_pos _
  have p1 : p < 1 := by rw [hp]; exact (Real.exp_lt_exp.2 (show -a < 0 by linarith)).trans_eq Real.exp_zero
  have hrp : r < p := by rw [hp, hr]; exact Real.exp_lt_exp.2 (by linarith)
  have r1 : r < 1 := hrp.trans p1
  have d0 : 0 < p - r := by linarith
  have hpr : 0 < 1 - p * r := by nlinarith
  obtain ⟨k0, hk0⟩ : ∃ k0, k0 = r * (1 - p) ^ 2 / (p * (1 - r) ^ 2) := ⟨_, rfl⟩
  obtain ⟨k1, hk1⟩ : ∃ k1, k1 = (1 - p * r) * (p - r) / (p * (1 - r) ^ 2) := ⟨_, rfl⟩
  have k00 : 0 ≤ k0 := by rw [hk0]; positivity
  have k10 : 0 ≤ k1 := by rw [hk1]; exact div_nonneg (mul_nonneg hpr.le d0.le) (by positivity)
  have c0 : 0 < (1 - p) / (1 + p) := div_pos (by linarith) (by linarith)
  have c0' : 0 < (1 - r) / (1 + r) := div_pos (by linarith) (by linarith)
  have hdelta : HasSum (fun j : ℤ => if j = 0 then k0 else 0) k0 := hasSum_ite_eq 0 k0
  -- the weights
  let W : ℤ → ℝ := fun j => (if j = 0 then k0 else 0) + k1 * ((1 - p) / (1 + p) * p ^ j.natAbs)
  have W0 : ∀ j, 0 ≤ W j := fun j => add_nonneg (by split_ifs <;> simp [k00]) (mul_nonneg k10 (mul_nonneg c0.le (by positivity)))
  -- their convolution with the sharper distribution
  have conv : ∀ k : ℤ, HasSum (fun j : ℤ => W j * ((1 - r) / (1 + r) * r ^ (k - j).natAbs)) ((1 - p) / (1 + p) * p ^ k.natAbs) := by
    intro k
    have h1 : HasSum (fun j : ℤ => (if j = 0 then k0 else 0) * ((1 - r) / (1 + r) * r ^ (k - j).natAbs)) (k0 * ((1 - r) / (1 + r) * r ^ k.natAbs)) := by
      have : (fun j : ℤ => (if j = 0 then k0 else 0) * ((1 - r) / (1 + r) * r ^ (k - j).natAbs)) =
          fun j => if j = 0 then k0 * ((1 - r) / (1 + r) * r ^ k.natAbs) else 0 := by
        ext j
        by_cases hj : j = 0
        · rw [if_pos hj, if_pos hj, hj, sub_zero]
        · rw [if_neg hj, if_neg hj, zero_mul]
      rw [this]
      exact hasSum_ite_eq 0 _
    have h2 := ((sum_dl p0 p1 r0 r1 hrp k).mul_left (k1 * ((1 - p) / (1 + p)) * ((1 - r) / (1 + r))))
    have h3 := h1.add h2
    have e := alg2 (A := p ^ k.natAbs) (B := r ^ k.natAbs) p0 p1 r0 hrp
    rw [← hk0, ← hk1] at e
    rw [e] at h3
    have ef : (fun j : ℤ => W j * ((1 - r) / (1 + r) * r ^ (k - j).natAbs)) = fun j => (if j = 0 then k0 else 0) * ((1 - r) / (1 + r) * r ^ (k - j).natAbs) +
        k1 * ((1 - p) / (1 + p)) * ((1 - r) / (1 + r)) * (r ^ (k - j).natAbs * p ^ j.natAbs) := by
      ext j
      simp only [W]
      ring
    rw [ef]
    exact h3
  have total : HasSum W 1 := by
    have g : HasSum (fun j : ℤ => p ^ j.natAbs) ((1 + p) / (1 - p)) := by
      have g0 : HasSum (fun n : ℕ => p ^ n) (1 - p)⁻¹ := hasSum_geometric_of_lt_one p0.le p1
      have g1 : HasSum (fun n : ℕ => p ^ ((n : ℤ)).natAbs) (1 - p)⁻¹ := by simpa using g0
      have g2 : HasSum (fun n : ℕ => p ^ (-((n : ℤ) + 1)).natAbs) (p * (1 - p)⁻¹) := by
        have : (fun n : ℕ => p ^ (-((n : ℤ) + 1)).natAbs) = fun n => p * p ^ n := by
          ext n
          rw [show (-((n : ℤ) + 1)).natAbs = n + 1 by omega, pow_succ]; ring
        rw [this]; exact g0.mul_left p
      convert HasSum.of_nat_of_neg_add_one (f := fun j : ℤ => p ^ j.natAbs) g1 g2 using 1
      have : 1 - p ≠ 0 := by linarith
      field_simp
    have h3 := hdelta.add ((g.mul_left ((1 - p) / (1 + p))).mul_left k1)
    have e := alg3 p0 p1 r0 hrp
    rw [← hk0, ← hk1] at e
    rwa [e] at h3
  refine ⟨fun j => ENNReal.ofReal (W j), ?_, ?_⟩
  · rw [← ENNReal.ofReal_tsum_of_nonneg W0 total.summable, total.tsum_eq, ENNReal.ofReal_one]
  · have mass : ∀ (t : ℝ) (k : ℤ), discreteLaplace t {k} = ENNReal.ofReal ((1 - Real.exp (-t)) / (1 + Real.exp (-t)) * Real.exp (-t) ^ k.natAbs) := by
      intro t k
      unfold discreteLaplace
      rw [withDensity_apply _ (measurableSet_singleton k), lintegral_singleton, Measure.count_singleton, mul_one, dl_mass]
    refine Measure.ext_of_singleton fun k => ?_
    rw [Measure.sum_apply _ (measurableSet_singleton k), mass a k, ← hp, ← (conv k).tsum_eq,
      ENNReal.ofReal_tsum_of_nonneg (fun j => mul_nonneg (W0 j) (mul_nonneg c0'.le (by positivity))) (conv k).summable]
    refine tsum_congr fun j => ?_
    have hm : Measurable fun x : ℤ => x + j := measurable_of_countable _
    have hpre : (fun x : ℤ => x + j) ⁻¹' {k} = {k - j} := by
      ext x; simp only [Set.mem_preimage, Set.mem_singleton_iff]; omega
    rw [Measure.smul_apply, smul_eq_mul, Measure.map_apply hm (measurableSet_singleton k), hpre, mass a' (k - j), ← hr,
      ENNReal.ofReal_mul (W0 j)]

lemma discreteLaplace_a {a a' q : ℝ} {s : ℤ} {adj : Adj} {m m' : AdditiveNoise ℤ} (h : mkDiscreteLaplace a s q adj = .ok m)
    (h' : mkDiscreteLaplace a' s q adj = .ok m') (haa : a ≤ a') (ε : ℝ) :
    ∃ d d', m.getDelta ε = .ok d ∧ m'.getDelta ε = .ok d' ∧ d ≤ d' := by
  have i := discreteLaplace_inv h
  have i' := discreteLaplace_inv h'
  obtain ⟨hf, a1, a2, a3, -, a0⟩ := discreteLaplace_faithful h
  obtain ⟨hf', b1, b2, b3, -, a0'⟩ := discreteLaplace_faithful h'
  have ea : m.adj = m'.adj := by rw [a3, b3]
  have eq : m.samplingProb = m'.samplingProb := by rw [a2, b2]
  refine getDelta_le_of_inv hf hf' ⟨i.1, i.2.1⟩ ⟨i'.1, i'.2.1⟩ ea eq.le ε fun _ d d' hd hd' => ?_
  refine isHs_mono_of_indist hd hd' fun e he => ?_
  have q0 := hf.q0
  have q1 := hf.q1
  rw [a1, a2, a3]
  rw [b1, b2, b3] at he
  rw [a2] at q0 q1
  rcases haa.eq_or_lt with rfl | hlt
  · exact he
  · obtain ⟨w, hw, hμ⟩ := discreteLaplace_mixture a0 hlt
    have := discreteLaplace_prob a0
    have := discreteLaplace_prob a0'
    exact indist_mixture w hw hμ s q0.le q1 adj ε e he

/-! ### Discrete Gaussian -/

lemma discreteGaussian_inv {σ q : ℝ} {s : ℤ} {bound : Option ℤ} {adj : Adj} {m : AdditiveNoise ℤ}
    (h : mkDiscreteGaussian σ s bound q adj = .ok m) :
    m.invNo = dGaussianInvNo σ s (dgBound σ bound) adj ∧ m.toReal = Int.castAddHom ℝ := by
  obtain ⟨-, -, -, -, -, hσ, hT⟩ := discreteGaussian_faithful h
  unfold mkDiscreteGaussian at h
  rw [if_neg (not_le.2 hσ)] at h
  simp only [] at h
  rw [if_neg (not_lt.2 hT)] at h
  obtain ⟨-, rfl⟩ := map_checkBase h
  exact ⟨rfl, rfl⟩

lemma discreteGaussian_edges {σ q : ℝ} {s : ℤ} {bound : Option ℤ} {adj : Adj} {m : AdditiveNoise ℤ}
    (h : mkDiscreteGaussian σ s bound q adj = .ok m) : Edges m := by
  have i := discreteGaussian_inv h
  obtain ⟨hf, a1, a2, a3, s0, hσ, hT⟩ := discreteGaussian_faithful h
  constructor
  · intro hr
    rw [a3] at hr
    subst hr
    exact discreteGaussian_bot h
  · intro hr
    rw [a3] at hr
    subst hr
    rw [i.1, i.2, a1, hf.cdf, ← discreteGaussian_eq, i.2]
    show cdfOf _ _ ((((s - dgBound σ bound - 1 : ℤ) : ℝ) : EReal) + ((-((s : ℤ) : ℝ) : ℝ) : EReal)) = 0
    rw [← EReal.coe_add]
    unfold cdfOf
    classical
    rw [dg_measureReal, Finset.filter_false_of_mem]
    · simp
    · intro k hk
      rw [Finset.mem_Icc] at hk
      show ¬ ((((k : ℤ) : ℝ) : EReal) ≤ _)
      rw [EReal.coe_le_coe_iff, not_le]
      have : (-(dgBound σ bound : ℝ)) ≤ k := by exact_mod_cast hk.1
      push_cast
      linarith

lemma discreteGaussian_q {σ q q' : ℝ} {s : ℤ} {bound : Option ℤ} {adj : Adj} {m m' : AdditiveNoise ℤ}
    (h : mkDiscreteGaussian σ s bound q adj = .ok m) (h' : mkDiscreteGaussian σ s bound q' adj = .ok m') (hq : q ≤ q') (ε : ℝ) :
    ∃ d d', m.getDelta ε = .ok d ∧ m'.getDelta ε = .ok d' ∧ d ≤ d' := by
  have i := discreteGaussian_inv h
  have i' := discreteGaussian_inv h'
  obtain ⟨hf, a1, a2, a3, -, -, -⟩ := discreteGaussian_faithful h
  obtain ⟨hf', b1, b2, b3, -, -, -⟩ := discreteGaussian_faithful h'
  have := hf.prob
  refine getDelta_le hf hf' (discreteGaussian_edges h) (discreteGaussian_edges h') (by rw [a3, b3]) (by rw [a2, b2]; exact hq) ?_ ?_ ε
    fun _ d d' hd hd' => ?_
  · intro _; rw [i.1, i'.1, hf.cdf, hf'.cdf, i.2, i'.2]
  · intro _; rw [i.1, i'.1, hf.cdf, hf'.cdf, i.2, i'.2]
  refine isHs_mono_of_indist hd hd' fun e he => ?_
  have q0 := hf.q0
  have q1 := hf'.q1
  rw [a1, a2, a3]
  rw [b1, b2, b3] at he
  rw [a2] at q0
  rw [b2] at q1
  exact indist_sampling _ s q0 hq q1 adj ε e he

lemma discreteGaussian_s {σ q : ℝ} {s s' : ℤ} {bound : Option ℤ} {adj : Adj} {m m' : AdditiveNoise ℤ}
    (h : mkDiscreteGaussian σ s bound q adj = .ok m) (h' : mkDiscreteGaussian σ s' bound q adj = .ok m') (hs : s ≤ s') (ε : ℝ) :
    ∃ d d', m.getDelta ε = .ok d ∧ m'.getDelta ε = .ok d' ∧ d ≤ d' := by
  have i := discreteGaussian_inv h
  have i' := discreteGaussian_inv h'
  obtain ⟨hf, a1, a2, a3, -, -, -⟩ := discreteGaussian_faithful h
  obtain ⟨hf', b1, b2, b3, -, -, -⟩ := discreteGaussian_faithful h'
  have ea : m.adj = m'.adj := by rw [a3, b3]
  have eq : m.samplingProb = m'.samplingProb := by rw [a2, b2]
  have hcdf : ∀ x, m.noiseCdf x = m'.noiseCdf x := fun x => by rw [hf.cdf, hf'.cdf, i.2, i'.2]
  refine getDelta_le hf hf' (discreteGaussian_edges h) (discreteGaussian_edges h') ea eq.le ?_ ?_ ε fun hc d d' hd hd' => ?_
  · intro k
    rw [a3] at k
    subst k
    rw [hcdf]
    refine noiseCdf_mono hf' ?_
    rw [i.1, i'.1]
    show (((s - dgBound σ bound - 1 : ℤ) : ℝ) : EReal) ≤ (((s' - dgBound σ bound - 1 : ℤ) : ℝ) : EReal)
    rw [EReal.coe_le_coe_iff, Int.cast_le]
    omega
  · intro k
    rw [a3] at k
    subst k
    rw [hcdf]
    refine noiseCdf_mono hf' ?_
    rw [i.1, i'.1]
    show (((dgBound σ bound - s' : ℤ) : ℝ) : EReal) ≤ (((dgBound σ bound - s : ℤ) : ℝ) : EReal)
    rw [EReal.coe_le_coe_iff, Int.cast_le]
    omega
  refine isHs_sensitivity hf hf' (by rw [i.2, i'.2]) ea eq ?_ ε (by rwa [eq, edge_congr ea eq]) hd hd'
  rw [i.2, i'.2, a1, b1]
  exact Int.cast_le.2 hs

end Verif.Mech
