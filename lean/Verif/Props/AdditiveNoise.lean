import Verif.Proofs.NoiseNear

/-!
# C30, C31, C33: privacy losses and deltas of the additive noise mechanisms

`upper μ s q adj` and `lower μ s q adj` (Spec) are the output distributions on the two data sets.
-/

namespace Verif.Props
open Verif Spec Pld Mech MeasureTheory ProbabilityTheory

/-! ### C33: `privacy_loss` is the log ratio of the two mixtures -/

section C33
variable {X : Type} [AddCommGroup X] [MeasurableSpace X] [MeasurableAdd X] {m : AdditiveNoise X} {ν : Measure X}
  [ν.IsAddRightInvariant] {f : X → ℝ}

lemma loss_of_faithful (h : Faithful m ν f) :
    upper (ν.withDensity fun x => ENNReal.ofReal (f x)) m.sensitivity m.samplingProb m.adj =
        ν.withDensity (fun x => ENNReal.ofReal (upperDens m f x)) ∧
      lower (ν.withDensity fun x => ENNReal.ofReal (f x)) m.sensitivity m.samplingProb m.adj =
        ν.withDensity (fun x => ENNReal.ofReal (lowerDens m f x)) ∧
      ∀ x, IsLogRatio (upperDens m f x) (lowerDens m f x) (m.privacyLoss x) :=
  ⟨upper_eq h, lower_eq h, privacyLoss_isLoss h⟩

lemma continuous_dens {m : AdditiveNoise ℝ} {f : ℝ → ℝ} (hf : Continuous f) :
    Continuous (upperDens m f) ∧ Continuous (lowerDens m f) := by
  unfold upperDens lowerDens
  cases m.adj <;> constructor <;> simp only [] <;> fun_prop

lemma real_singleton {g : ℤ → ℝ} (hg : ∀ x, 0 ≤ g x) (x : ℤ) :
    (Measure.count.withDensity fun x => ENNReal.ofReal (g x)).real {x} = g x := by
  rw [measureReal_def, withDensity_apply _ (measurableSet_singleton x), lintegral_singleton, Measure.count_singleton, mul_one,
    ENNReal.toReal_ofReal (hg x)]

lemma upperDens_nonneg (h : Faithful m ν f) (x : X) : 0 ≤ upperDens m f x := by
  have q0 := h.q0
  have q1 := h.q1
  have := h.nonneg
  unfold upperDens
  cases m.adj
  · exact this _
  · exact add_nonneg (mul_nonneg (by linarith) (this _)) (mul_nonneg q0.le (this _))

end C33

/-- **C33** for the Laplace mechanism: `privacy_loss` is the logarithm of the ratio of the (continuous) densities of the output
distributions, for every sampling probability and both adjacencies. -/
theorem C33_laplace {b s q : ℝ} {adj : Adj} {m : AdditiveNoise ℝ} (h : mkLaplace b s q adj = .ok m) :
    ∃ p r : ℝ → ℝ, Continuous p ∧ Continuous r ∧
      upper (laplace 0 b) s q adj = volume.withDensity (fun x => ENNReal.ofReal (p x)) ∧
      lower (laplace 0 b) s q adj = volume.withDensity (fun x => ENNReal.ofReal (r x)) ∧
      ∀ x, IsLogRatio (p x) (r x) (m.privacyLoss x) := by
  obtain ⟨hf, rfl, rfl, rfl, -, -⟩ := laplace_faithful h
  have hc := continuous_dens (m := m) (f := fun x => 0.5 / b * Real.exp (-|x| / b)) (by fun_prop)
  rw [laplace_law]
  exact ⟨_, _, hc.1, hc.2, loss_of_faithful hf⟩

/-- **C33** for the Gaussian mechanism. -/
theorem C33_gaussian {σ s lb q : ℝ} {adj : Adj} {m : AdditiveNoise ℝ} (h : mkGaussian σ s lb q adj = .ok m) :
    ∃ p r : ℝ → ℝ, Continuous p ∧ Continuous r ∧
      upper (gaussianReal 0 (Real.toNNReal (σ ^ 2))) s q adj = volume.withDensity (fun x => ENNReal.ofReal (p x)) ∧
      lower (gaussianReal 0 (Real.toNNReal (σ ^ 2))) s q adj = volume.withDensity (fun x => ENNReal.ofReal (r x)) ∧
      ∀ x, IsLogRatio (p x) (r x) (m.privacyLoss x) := by
  obtain ⟨hf, rfl, rfl, rfl, -, hσ⟩ := gaussian_faithful h
  have hc := continuous_dens (m := m) (f := fun x => gaussConst σ * Real.exp (-0.5 * x ^ 2 / σ ^ 2)) (by fun_prop)
  rw [gaussian_law hσ]
  exact ⟨_, _, hc.1, hc.2, loss_of_faithful hf⟩

/-- **C33** for the discrete Laplace mechanism: the ratio of the probabilities of the output. -/
theorem C33_discrete_laplace {a q : ℝ} {s : ℤ} {adj : Adj} {m : AdditiveNoise ℤ} (h : mkDiscreteLaplace a s q adj = .ok m) (x : ℤ) :
    IsLogRatio ((upper (discreteLaplace a) s q adj).real {x}) ((lower (discreteLaplace a) s q adj).real {x}) (m.privacyLoss x) := by
  obtain ⟨hf, rfl, rfl, rfl, -, -⟩ := discreteLaplace_faithful h
  obtain ⟨h1, h2, h3⟩ := loss_of_faithful hf
  unfold discreteLaplace
  rw [h1, h2, real_singleton (upperDens_nonneg hf), real_singleton (lowerDens_nonneg hf)]
  exact h3 x

/-- **C33** for the discrete Gaussian mechanism. -/
theorem C33_discrete_gaussian {σ q : ℝ} {s : ℤ} {bound : Option ℤ} {adj : Adj} {m : AdditiveNoise ℤ}
    (h : mkDiscreteGaussian σ s bound q adj = .ok m) (x : ℤ) :
    IsLogRatio ((upper (discreteGaussian σ (dgBound σ bound)) s q adj).real {x})
      ((lower (discreteGaussian σ (dgBound σ bound)) s q adj).real {x}) (m.privacyLoss x) := by
  obtain ⟨hf, rfl, rfl, rfl, -, -, -⟩ := discreteGaussian_faithful h
  obtain ⟨h1, h2, h3⟩ := loss_of_faithful hf
  rw [discreteGaussian_eq, h1, h2, real_singleton (upperDens_nonneg hf), real_singleton (lowerDens_nonneg hf)]
  exact h3 x

/-! ### C31: `get_delta_for_epsilon` is the hockey-stick divergence

The theorems exclude epsilons that `math.isclose` identifies with the largest (ADD) or smallest (REMOVE) possible loss of a
sub-sampled mechanism: there the code returns a wrong value, see `C31_isclose_wrong`. -/

lemma edge_eq {X : Type} [AddCommGroup X] (m : AdditiveNoise X) : edge m = lossLimit m.samplingProb m.adj := by
  unfold edge lossLimit; cases m.adj <;> rfl

/-- **C31** for the Laplace mechanism. -/
theorem C31_laplace_partial {b s q : ℝ} {adj : Adj} {m : AdditiveNoise ℝ} (h : mkLaplace b s q adj = .ok m) (ε : ℝ)
    (hε : q = 1 ∨ ¬ IsClose ε (lossLimit q adj)) :
    ∃ d, m.getDelta ε = .ok d ∧ IsHs (upper (laplace 0 b) s q adj) (lower (laplace 0 b) s q adj) ε d := by
  obtain ⟨hf, rfl, rfl, rfl, -, -⟩ := laplace_faithful h
  rw [laplace_law]
  exact getDelta_isHs hf ε (by rwa [edge_eq])

/-- **C31** for the Gaussian mechanism. -/
theorem C31_gaussian_partial {σ s lb q : ℝ} {adj : Adj} {m : AdditiveNoise ℝ} (h : mkGaussian σ s lb q adj = .ok m) (ε : ℝ)
    (hε : q = 1 ∨ ¬ IsClose ε (lossLimit q adj)) :
    ∃ d, m.getDelta ε = .ok d ∧ IsHs (upper (gaussianReal 0 (Real.toNNReal (σ ^ 2))) s q adj)
      (lower (gaussianReal 0 (Real.toNNReal (σ ^ 2))) s q adj) ε d := by
  obtain ⟨hf, rfl, rfl, rfl, -, hσ⟩ := gaussian_faithful h
  rw [gaussian_law hσ]
  exact getDelta_isHs hf ε (by rwa [edge_eq])

/-- **C31** for the discrete Laplace mechanism. -/
theorem C31_discrete_laplace_partial {a q : ℝ} {s : ℤ} {adj : Adj} {m : AdditiveNoise ℤ} (h : mkDiscreteLaplace a s q adj = .ok m)
    (ε : ℝ) (hε : q = 1 ∨ ¬ IsClose ε (lossLimit q adj)) :
    ∃ d, m.getDelta ε = .ok d ∧ IsHs (upper (discreteLaplace a) s q adj) (lower (discreteLaplace a) s q adj) ε d := by
  obtain ⟨hf, rfl, rfl, rfl, -, -⟩ := discreteLaplace_faithful h
  exact getDelta_isHs hf ε (by rwa [edge_eq])

/-- **C31** for the discrete Gaussian mechanism. -/
theorem C31_discrete_gaussian_partial {σ q : ℝ} {s : ℤ} {bound : Option ℤ} {adj : Adj} {m : AdditiveNoise ℤ}
    (h : mkDiscreteGaussian σ s bound q adj = .ok m) (ε : ℝ) (hε : q = 1 ∨ ¬ IsClose ε (lossLimit q adj)) :
    ∃ d, m.getDelta ε = .ok d ∧ IsHs (upper (discreteGaussian σ (dgBound σ bound)) s q adj)
      (lower (discreteGaussian σ (dgBound σ bound)) s q adj) ε d := by
  obtain ⟨hf, rfl, rfl, rfl, -, -, -⟩ := discreteGaussian_faithful h
  exact getDelta_isHs hf ε (by rwa [edge_eq])

/-- The hypotheses are met: the sub-sampled Gaussian mechanism at epsilon one, for instance. -/
example : ∃ m, mkGaussian 1 1 (-50) 0.5 .remove = .ok m ∧ ¬ IsClose 1 (lossLimit 0.5 .remove) := by
  obtain ⟨m, hm⟩ := mkGaussian_ok (σ := 1) (s := 1) (lb := -50) (q := 0.5) .remove (by norm_num) (by norm_num) (by norm_num)
  refine ⟨m, hm, ?_⟩
  · have h0 : lossLimit 0.5 .remove < 0 := Real.log_neg (by norm_num) (by norm_num)
    rintro (k | k)
    · linarith
    · rw [abs_of_pos (show (0 : ℝ) < 1 - lossLimit 0.5 .remove by linarith), abs_of_neg h0, abs_one] at k
      rcases max_cases (1 : ℝ) (-lossLimit 0.5 .remove) with ⟨e, -⟩ | ⟨e, -⟩ <;> rw [e] at k <;> linarith

/-- … and a Laplace, a discrete Laplace and a discrete Gaussian mechanism without sub-sampling. -/
example : (∃ m, mkLaplace 2 1 1 .add = .ok m) ∧ (∃ m, mkDiscreteLaplace 2 3 1 .add = .ok m) ∧
    ∃ m, mkDiscreteGaussian 2 3 none 1 .add = .ok m := by
  refine ⟨mkLaplace_ok _ (by norm_num) (by norm_num), mkDiscreteLaplace_ok _ (by norm_num) (by norm_num),
    mkDiscreteGaussian_ok _ (by norm_num) ?_ (by norm_num)⟩
  have : ⌈(11.6 * 2 : ℝ)⌉ = (24 : ℤ) := by rw [Int.ceil_eq_iff]; norm_num
  simp only [dgBound]
  rw [this]
  norm_num

/-! Without any restriction on epsilon: the reported delta is never above the divergence and below it by at most
`closeSlack q = 1e-9 |log(1 - q)|`. -/

/-- **C31, error bound** for the Laplace mechanism. -/
theorem C31_laplace_near {b s q : ℝ} {adj : Adj} {m : AdditiveNoise ℝ} (h : mkLaplace b s q adj = .ok m) (ε : ℝ) :
    ∃ d d', m.getDelta ε = .ok d ∧ IsHs (upper (laplace 0 b) s q adj) (lower (laplace 0 b) s q adj) ε d' ∧ d ≤ d' ∧ d' ≤ d + closeSlack q := by
  have hb := laplace_bot h
  obtain ⟨hf, rfl, rfl, rfl, -, -⟩ := laplace_faithful h
  rw [laplace_law]
  exact getDelta_near hf (fun _ => hb) ε

/-- **C31, error bound** for the Gaussian mechanism. -/
theorem C31_gaussian_near {σ s lb q : ℝ} {adj : Adj} {m : AdditiveNoise ℝ} (h : mkGaussian σ s lb q adj = .ok m) (ε : ℝ) :
    ∃ d d', m.getDelta ε = .ok d ∧ IsHs (upper (gaussianReal 0 (Real.toNNReal (σ ^ 2))) s q adj)
      (lower (gaussianReal 0 (Real.toNNReal (σ ^ 2))) s q adj) ε d' ∧ d ≤ d' ∧ d' ≤ d + closeSlack q := by
  have hb := gaussian_bot h
  obtain ⟨hf, rfl, rfl, rfl, -, hσ⟩ := gaussian_faithful h
  rw [gaussian_law hσ]
  exact getDelta_near hf (fun _ => hb) ε

/-- **C31, error bound** for the discrete Laplace mechanism. -/
theorem C31_discrete_laplace_near {a q : ℝ} {s : ℤ} {adj : Adj} {m : AdditiveNoise ℤ} (h : mkDiscreteLaplace a s q adj = .ok m) (ε : ℝ) :
    ∃ d d', m.getDelta ε = .ok d ∧ IsHs (upper (discreteLaplace a) s q adj) (lower (discreteLaplace a) s q adj) ε d' ∧
      d ≤ d' ∧ d' ≤ d + closeSlack q := by
  have hb := discreteLaplace_bot h
  obtain ⟨hf, rfl, rfl, rfl, -, -⟩ := discreteLaplace_faithful h
  exact getDelta_near hf (fun _ => hb) ε

/-- **C31, error bound** for the discrete Gaussian mechanism. -/
theorem C31_discrete_gaussian_near {σ q : ℝ} {s : ℤ} {bound : Option ℤ} {adj : Adj} {m : AdditiveNoise ℤ}
    (h : mkDiscreteGaussian σ s bound q adj = .ok m) (ε : ℝ) :
    ∃ d d', m.getDelta ε = .ok d ∧ IsHs (upper (discreteGaussian σ (dgBound σ bound)) s q adj)
      (lower (discreteGaussian σ (dgBound σ bound)) s q adj) ε d' ∧ d ≤ d' ∧ d' ≤ d + closeSlack q := by
  have hb : adj = .remove → m.noiseCdf (m.invNo ⊥ + (m.toReal m.sensitivity : EReal)) = 1 := by
    rintro rfl; exact discreteGaussian_bot h
  obtain ⟨hf, rfl, rfl, rfl, -, -, -⟩ := discreteGaussian_faithful h
  exact getDelta_near hf hb ε

/-- **C31, negated** near the largest loss of the sub-sampled Gaussian mechanism: for every epsilon below `-log(1 - q)` that
`math.isclose` identifies with it, `get_delta_for_epsilon` returns zero although the mechanism is not `(ε, 0)`-private. -/
theorem C31_isclose_wrong {σ s lb q : ℝ} {m : AdditiveNoise ℝ} (h : mkGaussian σ s lb q .add = .ok m) (hq : q < 1) (ε : ℝ)
    (hc : IsClose ε (lossLimit q .add)) (hε : ε < lossLimit q .add) :
    m.getDelta ε = .ok 0 ∧ ¬ Indist (upper (gaussianReal 0 (Real.toNNReal (σ ^ 2))) s q .add)
      (lower (gaussianReal 0 (Real.toNNReal (σ ^ 2))) s q .add) ε 0 := by
  obtain ⟨hf, h1, h2, h3, hs, hσ⟩ := gaussian_faithful h
  have q0 : 0 < q := by rw [← h2]; exact hf.q0
  have hinv : m.invNo ⊤ = ⊥ := by
    unfold mkGaussian at h
    rw [if_neg (not_le.2 hσ)] at h
    by_cases hl : lb > 0
    · rw [if_pos hl] at h; exact absurd h (by simp)
    rw [if_neg hl] at h
    obtain ⟨-, rfl⟩ := map_checkBase h
    rfl
  constructor
  · have e1 : m.inversePrivacyLoss ε = .ok ⊥ := by
      unfold AdditiveNoise.inversePrivacyLoss
      rw [h2, h3]
      simp only []
      rw [if_neg hq.ne, if_pos (show IsClose ε (-Real.log (1 - q)) from hc), hinv]
    have e2 : m.muUpperCdf ⊥ = 0 := by
      unfold AdditiveNoise.muUpperCdf
      rw [h3, hf.cdf]
      simp [cdfOf]
    have e3 : expLog (m.muLowerLogCdf ⊥) = 0 := by
      rw [muLowerLogCdf_eq hf]
      simp
    unfold AdditiveNoise.getDelta
    rw [h2, h3]
    simp only []
    rw [if_neg hq.ne, if_pos (by rw [← sub_eq_add_neg]; exact hε)]
    unfold AdditiveNoise.deltaAtCutoff
    rw [e1]
    show Except.ok (AdditiveNoise.clip01 (m.muUpperCdf ⊥ - expLog (((ε : ℝ) : LogProb) + m.muLowerLogCdf ⊥))) = _
    rw [expLog_add, e2, e3]
    simp [AdditiveNoise.clip01]
  · intro hi
    have p1 := upper_prob hf
    have p2 := lower_prob hf
    have u := upper_eq hf
    have l := lower_eq hf
    rw [← gaussian_law hσ, h1, h2, h3] at u l p1 p2
    -- `e^ε (1 - q) = 1 - κ`
    obtain ⟨κ, hκ, hκ0⟩ : ∃ κ, Real.exp ε * (1 - q) = 1 - κ ∧ 0 < κ := by
      refine ⟨1 - Real.exp ε * (1 - q), by ring, ?_⟩
      have : Real.exp ε < (1 - q)⁻¹ := by
        rw [← Real.exp_log (show 0 < (1 - q)⁻¹ by rw [inv_pos]; linarith), Real.log_inv]
        exact Real.exp_lt_exp.2 hε
      have := mul_lt_mul_of_pos_right this (show 0 < 1 - q by linarith)
      rw [inv_mul_cancel₀ (by linarith)] at this
      linarith
    have hκ1 : κ < 1 := by have := mul_pos (Real.exp_pos ε) (show 0 < 1 - q by linarith); linarith
    set f : ℝ → ℝ := fun x => gaussConst σ * Real.exp (-0.5 * x ^ 2 / σ ^ 2) with hfdef
    -- far to the left the shifted density is negligible
    let x0 := 0.5 * s + σ ^ 2 / s * (Real.log (κ / 2) - ε)
    have hx0 : ∀ x ≤ x0, Real.exp ε * f (x - s) ≤ κ / 2 * f x := by
      intro x hx
      have hs2 : 0 < σ ^ 2 := by positivity
      have e1 : f (x - s) = f x * Real.exp (s * (x - 0.5 * s) / σ ^ 2) := by
        simp only [hfdef]
        rw [mul_assoc, ← Real.exp_add]
        congr 2
        field_simp
        ring
      have e2 : ε + s * (x - 0.5 * s) / σ ^ 2 ≤ Real.log (κ / 2) := by
        have : x - 0.5 * s ≤ σ ^ 2 / s * (Real.log (κ / 2) - ε) := by simp only [x0] at hx; linarith
        have := mul_le_mul_of_nonneg_left this (show 0 ≤ s / σ ^ 2 by positivity)
        have e3 : s / σ ^ 2 * (σ ^ 2 / s * (Real.log (κ / 2) - ε)) = Real.log (κ / 2) - ε := by field_simp
        rw [e3] at this
        have e4 : s / σ ^ 2 * (x - 0.5 * s) = s * (x - 0.5 * s) / σ ^ 2 := by ring
        linarith
      have e3 := Real.exp_le_exp.2 e2
      rw [Real.exp_log (by linarith), Real.exp_add] at e3
      rw [e1]
      have := mul_le_mul_of_nonneg_left e3 (hf.nonneg x)
      calc _ = f x * (Real.exp ε * Real.exp (s * (x - 0.5 * s) / σ ^ 2)) := by ring
        _ ≤ _ := this
        _ = _ := by ring
    have key : ∀ x ≤ x0, Real.exp ε * lowerDens m f x ≤ (1 - κ / 2) * upperDens m f x := by
      intro x hx
      have hd := dens_add (f := f) h3 x
      have := hx0 x hx
      have n1 := hf.nonneg x
      have n2 := hf.nonneg (x - s)
      rw [hd.1, hd.2]
      simp only [num, den, h3, h2, h1]
      have a1 : Real.exp ε * ((1 - q) * f x + q * f (x - s)) = (1 - κ) * f x + q * (Real.exp ε * f (x - s)) := by
        rw [← hκ]; ring
      have n3 : 0 ≤ Real.exp ε * f (x - s) := mul_nonneg (Real.exp_pos _).le n2
      show Real.exp ε * ((1 - q) * f x + q * f (x - s)) ≤ (1 - κ / 2) * f x
      rw [a1]
      nlinarith
    have hS : MeasurableSet (Set.Iic x0) := measurableSet_Iic
    have hle : ENNReal.ofReal (Real.exp ε) * (lower (gaussianReal 0 (Real.toNNReal (σ ^ 2))) s q .add) (Set.Iic x0) ≤
        ENNReal.ofReal (1 - κ / 2) * (upper (gaussianReal 0 (Real.toNNReal (σ ^ 2))) s q .add) (Set.Iic x0) := by
      rw [u, l, withDensity_apply _ hS, withDensity_apply _ hS, ← lintegral_const_mul _ (measurable_dens hf).1.ennreal_ofReal,
        ← lintegral_const_mul _ (measurable_dens hf).2.ennreal_ofReal]
      refine setLIntegral_mono ((measurable_dens hf).1.ennreal_ofReal.const_mul _) fun x hx => ?_
      rw [← ENNReal.ofReal_mul (Real.exp_pos _).le, ← ENNReal.ofReal_mul (by linarith)]
      exact ENNReal.ofReal_le_ofReal (key x hx)
    have hle' := ENNReal.toReal_mono (ENNReal.mul_ne_top ENNReal.ofReal_ne_top (measure_ne_top _ _)) hle
    rw [ENNReal.toReal_mul, ENNReal.toReal_mul, ENNReal.toReal_ofReal (Real.exp_pos _).le, ENNReal.toReal_ofReal (by linarith),
      ← measureReal_def, ← measureReal_def] at hle'
    have hi' := hi (Set.Iic x0) hS
    have hpos : 0 < (upper (gaussianReal 0 (Real.toNNReal (σ ^ 2))) s q .add).real (Set.Iic x0) := by
      rw [measureReal_def, ENNReal.toReal_pos_iff]
      refine ⟨?_, measure_lt_top _ _⟩
      show 0 < gaussianReal 0 (Real.toNNReal (σ ^ 2)) (Set.Iic x0)
      rw [pos_iff_ne_zero]
      intro h0
      have hv : Real.toNNReal (σ ^ 2) ≠ 0 := by
        rw [Ne, Real.toNNReal_eq_zero, not_le]; positivity
      have := (gaussianReal_absolutelyContinuous' 0 hv) h0
      simp at this
    nlinarith

/-- Such epsilons exist, for instance for `q = 1/2`. -/
example : ∃ m ε, mkGaussian 1 1 (-50) 0.5 .add = .ok m ∧ IsClose ε (lossLimit 0.5 .add) ∧ ε < lossLimit 0.5 .add := by
  have h0 : 0 < lossLimit 0.5 .add := by
    have := Real.log_neg (show (0 : ℝ) < 1 - 0.5 by norm_num) (by norm_num)
    simp only [lossLimit]; linarith
  obtain ⟨m, hm⟩ := mkGaussian_ok (σ := 1) (s := 1) (lb := -50) (q := 0.5) .add (by norm_num) (by norm_num) (by norm_num)
  refine ⟨m, (1 - 1e-10) * lossLimit 0.5 .add, hm, .inr ?_, by linarith⟩
  · generalize lossLimit 0.5 .add = t at h0
    have e : (1 - 1e-10) * t - t = -(1e-10 * t) := by ring
    rw [e, abs_neg, abs_of_pos (by positivity), abs_of_pos (a := t) h0]
    have := le_max_right |(1 - 1e-10) * t| t
    nlinarith

/-! ### C30: `privacy_loss` is non-increasing and `inverse_privacy_loss` is its inverse -/

/-- The privacy loss does not increase with the output. -/
def LossAntitone {X : Type} [AddCommGroup X] [Preorder X] (m : AdditiveNoise X) : Prop :=
  ∀ x x' L L', m.privacyLoss x = .ok L → m.privacyLoss x' = .ok L' → x ≤ x' → L' ≤ L

/-- `inverse_privacy_loss(l)` is the cut-off for outputs with loss at least `l`, and it raises (`ValueError`) only for `l`
beyond the limit of the loss. -/
def InverseCorrectAt {X : Type} [AddCommGroup X] (toReal : X → ℝ) (m : AdditiveNoise X) (q : ℝ) (adj : Adj) (l : ℝ) : Prop :=
  (∀ y, m.inversePrivacyLoss l = .ok y → ∀ x L, m.privacyLoss x = .ok L → ((l : EReal) ≤ L ↔ ((toReal x : ℝ) : EReal) ≤ y)) ∧
  ∀ e, m.inversePrivacyLoss l = .error e →
    e = .valueError ∧ q < 1 ∧ ((adj = .add ∧ lossLimit q adj < l) ∨ (adj = .remove ∧ l < lossLimit q adj))

section C30
variable {X : Type} [AddCommGroup X] [MeasurableSpace X] [MeasurableAdd X] {m : AdditiveNoise X} {ν : Measure X}
  [ν.IsAddRightInvariant] {f : X → ℝ}

lemma inverse_of_faithful (h : Faithful m ν f) (l : ℝ)
    (hl : m.samplingProb = 1 ∨ ¬ IsClose l (lossLimit m.samplingProb m.adj)) :
    InverseCorrectAt m.toReal m m.samplingProb m.adj l := by
  refine ⟨fun y hy x L hL => le_inverse_iff h l (by rwa [edge_eq]) hy hL, fun e he => ?_⟩
  obtain ⟨h1, h2, h3⟩ := inverse_error h l he
  rw [edge_eq] at h3
  exact ⟨h1, lt_of_le_of_ne h.q1 h2, h3⟩

end C30

/-- **C30** for the Laplace mechanism. -/
theorem C30_laplace_partial {b s q : ℝ} {adj : Adj} {m : AdditiveNoise ℝ} (h : mkLaplace b s q adj = .ok m) :
    LossAntitone m ∧ ∀ l, q = 1 ∨ ¬ IsClose l (lossLimit q adj) → InverseCorrectAt id m q adj l := by
  have hto : m.toReal = AddMonoidHom.id ℝ := by
    unfold mkLaplace at h
    by_cases hb : b ≤ 0
    · rw [if_pos hb] at h; exact absurd h (by simp)
    rw [if_neg hb] at h
    obtain ⟨-, rfl⟩ := map_checkBase h
    rfl
  obtain ⟨hf, rfl, rfl, rfl, -, -⟩ := laplace_faithful h
  refine ⟨fun x x' L L' hL hL' hx => privacyLoss_antitone hf hL hL' (by rw [hto]; exact hx), fun l hl => ?_⟩
  have := inverse_of_faithful hf l hl
  rwa [hto] at this

/-- **C30** for the Gaussian mechanism. -/
theorem C30_gaussian_partial {σ s lb q : ℝ} {adj : Adj} {m : AdditiveNoise ℝ} (h : mkGaussian σ s lb q adj = .ok m) :
    LossAntitone m ∧ ∀ l, q = 1 ∨ ¬ IsClose l (lossLimit q adj) → InverseCorrectAt id m q adj l := by
  have hto : m.toReal = AddMonoidHom.id ℝ := by
    unfold mkGaussian at h
    by_cases hb : σ ≤ 0
    · rw [if_pos hb] at h; exact absurd h (by simp)
    rw [if_neg hb] at h
    by_cases hl : lb > 0
    · rw [if_pos hl] at h; exact absurd h (by simp)
    rw [if_neg hl] at h
    obtain ⟨-, rfl⟩ := map_checkBase h
    rfl
  obtain ⟨hf, rfl, rfl, rfl, -, -⟩ := gaussian_faithful h
  refine ⟨fun x x' L L' hL hL' hx => privacyLoss_antitone hf hL hL' (by rw [hto]; exact hx), fun l hl => ?_⟩
  have := inverse_of_faithful hf l hl
  rwa [hto] at this

/-- **C30** for the discrete Laplace mechanism. -/
theorem C30_discrete_laplace_partial {a q : ℝ} {s : ℤ} {adj : Adj} {m : AdditiveNoise ℤ} (h : mkDiscreteLaplace a s q adj = .ok m) :
    LossAntitone m ∧ ∀ l, q = 1 ∨ ¬ IsClose l (lossLimit q adj) → InverseCorrectAt (fun k : ℤ => (k : ℝ)) m q adj l := by
  have hto : m.toReal = Int.castAddHom ℝ := by
    unfold mkDiscreteLaplace at h
    by_cases hb : a ≤ 0
    · rw [if_pos hb] at h; exact absurd h (by simp)
    rw [if_neg hb] at h
    obtain ⟨-, rfl⟩ := map_checkBase h
    rfl
  obtain ⟨hf, rfl, rfl, rfl, -, -⟩ := discreteLaplace_faithful h
  refine ⟨fun x x' L L' hL hL' hx => privacyLoss_antitone hf hL hL' (by rw [hto]; exact Int.cast_le.2 hx), fun l hl => ?_⟩
  have := inverse_of_faithful hf l hl
  rwa [hto] at this

/-- **C30** for the discrete Gaussian mechanism. -/
theorem C30_discrete_gaussian_partial {σ q : ℝ} {s : ℤ} {bound : Option ℤ} {adj : Adj} {m : AdditiveNoise ℤ}
    (h : mkDiscreteGaussian σ s bound q adj = .ok m) :
    LossAntitone m ∧ ∀ l, q = 1 ∨ ¬ IsClose l (lossLimit q adj) → InverseCorrectAt (fun k : ℤ => (k : ℝ)) m q adj l := by
  have hto : m.toReal = Int.castAddHom ℝ := by
    unfold mkDiscreteGaussian at h
    by_cases hb : σ ≤ 0
    · rw [if_pos hb] at h; exact absurd h (by simp)
    rw [if_neg hb] at h
    by_cases hl : 2 * dgBound σ bound < s
    · simp only [] at h; rw [if_pos hl] at h; exact absurd h (by simp)
    simp only [] at h
    rw [if_neg hl] at h
    obtain ⟨-, rfl⟩ := map_checkBase h
    rfl
  obtain ⟨hf, rfl, rfl, rfl, -, -, -⟩ := discreteGaussian_faithful h
  refine ⟨fun x x' L L' hL hL' hx => privacyLoss_antitone hf hL hL' (by rw [hto]; exact Int.cast_le.2 hx), fun l hl => ?_⟩
  have := inverse_of_faithful hf l hl
  rwa [hto] at this

end Verif.Props
