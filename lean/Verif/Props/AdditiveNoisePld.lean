import Verif.Proofs.AdditiveNoisePld
import Mathlib.Analysis.Complex.ExponentialBounds

/-!
# C32, C60: the PLDs of the additive noise mechanisms

`SampledLaplace`, `SampledGaussian`, `SampledInteger` (Spec) are the pairs of output distributions of the mechanisms on a
Poisson sample, for every query of sensitivity at most `s`, on vectors of any dimension.

What is missing in the theorems with suffix `_partial`: for `q < 1` no multiple of the discretization interval may be
`math.isclose` to `log(1 - q)`. At such a multiple `get_delta_for_epsilon` is wrong (`C31_isclose_wrong`).
-/

namespace Verif.Props
open Verif Spec Pld Mech MeasureTheory ProbabilityTheory

/-- No multiple of the discretization interval is `math.isclose` to the edge of the losses. -/
def OffGrid (disc q : ℝ) : Prop := q = 1 ∨ ∀ k : ℤ, ¬ IsClose (k * disc) (Real.log (1 - q))

lemma OffGrid.gridOk {disc q : ℝ} (h : OffGrid disc q) : ∀ adj, GridOk disc q adj := by
  intro adj
  rcases h with h | h
  · exact Or.inl h
  · right
    cases adj
    · intro k hk
      refine h (-k) ?_
      have e1 : ((-k : ℤ) : ℝ) * disc = -((k : ℝ) * disc) := by push_cast; ring
      have e2 : Real.log (1 - q) = -lossLimit q .add := by simp [lossLimit]
      rw [e1, e2]
      rcases hk with hk | hk
      · exact Or.inl (by rw [hk])
      · right
        rw [← neg_sub', abs_neg, abs_neg, abs_neg]
        exact hk
    · exact h

lemma offGrid_one (disc : ℝ) : OffGrid disc 1 := Or.inl rfl

/-- The hypothesis holds for sampling probability 1/2 and the default discretization interval. -/
lemma offGrid_half : OffGrid 1e-4 (1 / 2) := by
  right
  intro k hk
  have e : Real.log (1 - 1 / 2) = -Real.log 2 := by rw [← Real.log_inv]; norm_num
  rw [e] at hk
  have h1 := Real.log_two_gt_d9
  have h2 := Real.log_two_lt_d9
  rcases le_or_gt k (-6932) with hk' | hk'
  · have h3 : (k : ℝ) ≤ -6932 := by exact_mod_cast hk'
    have hneg : (k : ℝ) * 1e-4 < 0 := by norm_num at *; linarith
    rcases hk with hk | hk
    · norm_num at *; linarith
    · rw [abs_of_neg (a := (k : ℝ) * 1e-4 - -Real.log 2) (by norm_num at *; linarith), abs_of_neg hneg, abs_neg,
        abs_of_pos (by linarith : 0 < Real.log 2), max_eq_left (by norm_num at *; linarith)] at hk
      norm_num at *; linarith
  · have h3 : (-6931 : ℝ) ≤ k := by exact_mod_cast hk'
    rcases hk with hk | hk
    · norm_num at *; linarith
    · rw [abs_of_pos (a := (k : ℝ) * 1e-4 - -Real.log 2) (by norm_num at *; linarith), abs_neg,
        abs_of_pos (by linarith : 0 < Real.log 2)] at hk
      rcases le_or_gt |(k : ℝ) * 1e-4| (Real.log 2) with hm | hm
      · rw [max_eq_right hm] at hk
        norm_num at *; linarith
      · rw [max_eq_left hm.le] at hk
        rcases abs_cases ((k : ℝ) * 1e-4) with ⟨a1, a2⟩ | ⟨a1, a2⟩ <;> rw [a1] at hk <;> norm_num at * <;> linarith

/-! ### C32: pessimistic PLDs dominate the mechanism -/

lemma laplace_params {fuel : ℕ} {b s disc q : ℝ} {pess useDots : Bool} {p : Pld}
    (h : fromLaplace fuel b s pess disc q useDots = some (.ok p)) : 0 < b ∧ 0 < s ∧ 0 < q ∧ q ≤ 1 := by
  unfold fromLaplace subsampledPld at h
  cases hm : mkLaplace b s q .remove with
  | error e => simp only [hm] at h; simp at h
  | ok m =>
    obtain ⟨hf, -, rfl, -, hs, hb⟩ := laplace_faithful hm
    exact ⟨hb, hs, hf.q0, hf.q1⟩

/-- **C32** for `from_laplace_mechanism` with either way of discretizing: the REMOVE deltas of the returned PLD are valid when a
record is removed, the ADD deltas when a record is added. -/
theorem C32_laplace_partial {fuel : ℕ} {b s disc q : ℝ} {useDots : Bool} {p : Pld}
    (h : fromLaplace fuel b s true disc q useDots = some (.ok p)) (hd : 0 < disc) (hg : OffGrid disc q) :
    ProperPld p ∧ p.remove.disc = disc ∧ DominatesAll p (SampledLaplace b s q) := by
  have g := fromLaplace_good h hd hg.gridOk
  obtain ⟨hb, hs, q0, q1⟩ := laplace_params h
  refine ⟨g.proper, g.disc, fun Ω _ P Q _ _ hC => ⟨fun ε => ?_, fun ε => ?_⟩⟩
  · exact (sampledLaplace_indist hb q0.le q1 hC ε _).1 (g.remove ε)
  · exact (sampledLaplace_indist hb q0.le q1 hC ε _).2 (g.add ε)

/-- `from_laplace_mechanism` returns a PLD for all meaningful parameters; in particular the loop of the other way of
discretizing stops. -/
theorem C32_laplace_accepts {b s disc q : ℝ} (pess useDots : Bool) (hb : 0 < b) (hs : 0 < s) (q0 : 0 < q) (q1 : q ≤ 1) (hd : 0 < disc)
    (hg : OffGrid disc q) : ∃ N, ∀ fuel, N < fuel → ∃ p, fromLaplace fuel b s pess disc q useDots = some (.ok p) :=
  fromLaplace_accept pess useDots hb hs q0 q1 hd hg.gridOk

lemma gaussian_params {fuel : ℕ} {ppf : ℝ → ℝ} {σ s disc lb q : ℝ} {pess useDots : Bool} {p : Pld}
    (h : fromGaussian fuel ppf σ s pess disc lb q useDots = some (.ok p)) : 0 < σ ∧ 0 < s ∧ 0 < q ∧ q ≤ 1 := by
  unfold fromGaussian subsampledPld at h
  cases hm : mkGaussian σ s lb q .remove with
  | error e => simp only [hm] at h; simp at h
  | ok m =>
    obtain ⟨hf, -, rfl, -, hs, hb⟩ := gaussian_faithful hm
    exact ⟨hb, hs, hf.q0, hf.q1⟩

/-- **C32** for `from_gaussian_mechanism`. The function `norm.ppf` is only assumed not to be positive at the mass of a tail
(which is at most one half). -/
theorem C32_gaussian_partial {fuel : ℕ} {ppf : ℝ → ℝ} {σ s disc lb q : ℝ} {useDots : Bool} {p : Pld}
    (h : fromGaussian fuel ppf σ s true disc lb q useDots = some (.ok p)) (hppf : ppf (0.5 * Real.exp lb) ≤ 0)
    (hd : 0 < disc) (hg : OffGrid disc q) :
    ProperPld p ∧ p.remove.disc = disc ∧ DominatesAll p (SampledGaussian σ s q) := by
  have g := fromGaussian_good h hppf hd hg.gridOk
  obtain ⟨hσ, hs, q0, q1⟩ := gaussian_params h
  refine ⟨g.proper, g.disc, fun Ω _ P Q _ _ hC => ⟨fun ε => ?_, fun ε => ?_⟩⟩
  · exact (sampledGaussian_indist hσ hs q0.le q1 hC ε _).1 (g.remove ε)
  · exact (sampledGaussian_indist hσ hs q0.le q1 hC ε _).2 (g.add ε)

theorem C32_gaussian_accepts {ppf : ℝ → ℝ} {σ s disc lb q : ℝ} (pess useDots : Bool) (hσ : 0 < σ) (hlb : lb ≤ 0) (hs : 0 < s)
    (q0 : 0 < q) (q1 : q ≤ 1) (hppf : ppf (0.5 * Real.exp lb) ≤ 0) (hd : 0 < disc) (hg : OffGrid disc q) :
    ∃ N, ∀ fuel, N < fuel → ∃ p, fromGaussian fuel ppf σ s pess disc lb q useDots = some (.ok p) :=
  fromGaussian_accept pess useDots hσ hlb hs q0 q1 hppf hd hg.gridOk

lemma discreteLaplace_params {a disc q : ℝ} {s : ℤ} {pess useDots : Bool} {p : Pld}
    (h : fromDiscreteLaplace a s pess disc q useDots = some (.ok p)) : 0 < a ∧ 0 < q ∧ q ≤ 1 := by
  unfold fromDiscreteLaplace subsampledPld at h
  cases hm : mkDiscreteLaplace a s q .remove with
  | error e => simp only [hm] at h; cases h
  | ok m =>
    obtain ⟨hf, -, rfl, -, hs, hb⟩ := discreteLaplace_faithful hm
    exact ⟨hb, hf.q0, hf.q1⟩

/-- **C32** for `from_discrete_laplace_mechanism`. -/
theorem C32_discrete_laplace_partial {a disc q : ℝ} {s : ℤ} {useDots : Bool} {p : Pld}
    (h : fromDiscreteLaplace a s true disc q useDots = some (.ok p)) (hd : 0 < disc) (hg : OffGrid disc q) :
    ProperPld p ∧ p.remove.disc = disc ∧ DominatesAll p (SampledInteger (discreteLaplace a) s q) := by
  have g := fromDiscreteLaplace_good h hd hg.gridOk
  obtain ⟨ha, q0, q1⟩ := discreteLaplace_params h
  refine ⟨g.proper, g.disc, fun Ω _ P Q _ _ hC => ⟨fun ε => ?_, fun ε => ?_⟩⟩
  · exact ((discreteLaplace_logConcave ha).sampled_indist q0.le q1 hC ε _).1 (g.remove ε)
  · exact ((discreteLaplace_logConcave ha).sampled_indist q0.le q1 hC ε _).2 (g.add ε)

theorem C32_discrete_laplace_accepts {a disc q : ℝ} {s : ℤ} (pess useDots : Bool) (ha : 0 < a) (hs : 0 < s) (q0 : 0 < q) (q1 : q ≤ 1)
    (hd : 0 < disc) (hg : OffGrid disc q) : ∃ p, fromDiscreteLaplace a s pess disc q useDots = some (.ok p) :=
  fromDiscreteLaplace_accept pess useDots ha hs q0 q1 hd hg.gridOk

lemma discreteGaussian_params {σ disc q : ℝ} {s : ℤ} {bound : Option ℤ} {pess useDots : Bool} {p : Pld}
    (h : fromDiscreteGaussian σ s bound pess disc q useDots = some (.ok p)) :
    LogConcave (dgF σ (dgBound σ bound)) ∧ 0 < q ∧ q ≤ 1 := by
  unfold fromDiscreteGaussian subsampledPld at h
  cases hm : mkDiscreteGaussian σ s bound q .remove with
  | error e => simp only [hm] at h; cases h
  | ok m =>
    obtain ⟨hf, -, rfl, -, hs, hσ, -⟩ := discreteGaussian_faithful hm
    exact ⟨discreteGaussian_logConcave (by rw [discreteGaussian_eq]; exact hf.prob), hf.q0, hf.q1⟩

/-- **C32** for `from_discrete_gaussian_mechanism`; the noise is the discrete Gaussian truncated to `[-T, T]`, the bound `T` is
the given one or computed from `σ`. -/
theorem C32_discrete_gaussian_partial {σ disc q : ℝ} {s : ℤ} {bound : Option ℤ} {useDots : Bool} {p : Pld}
    (h : fromDiscreteGaussian σ s bound true disc q useDots = some (.ok p)) (hd : 0 < disc) (hg : OffGrid disc q) :
    ProperPld p ∧ p.remove.disc = disc ∧ DominatesAll p (SampledInteger (discreteGaussian σ (dgBound σ bound)) s q) := by
  have g := fromDiscreteGaussian_good h hd hg.gridOk
  obtain ⟨hl, q0, q1⟩ := discreteGaussian_params h
  rw [discreteGaussian_eq] at g ⊢
  refine ⟨g.proper, g.disc, fun Ω _ P Q _ _ hC => ⟨fun ε => ?_, fun ε => ?_⟩⟩
  · exact (hl.sampled_indist q0.le q1 hC ε _).1 (g.remove ε)
  · exact (hl.sampled_indist q0.le q1 hC ε _).2 (g.add ε)

theorem C32_discrete_gaussian_accepts {σ disc q : ℝ} {s : ℤ} {bound : Option ℤ} (pess useDots : Bool) (hσ : 0 < σ) (hs : 0 < s)
    (hT : s ≤ 2 * dgBound σ bound) (q0 : 0 < q) (q1 : q ≤ 1) (hd : 0 < disc) (hg : OffGrid disc q) :
    ∃ p, fromDiscreteGaussian σ s bound pess disc q useDots = some (.ok p) :=
  fromDiscreteGaussian_accept pess useDots hσ hs hT q0 q1 hd hg.gridOk

/-! Without sampling nothing is missing. -/

/-- **C32**, no sampling: the PLD of the Gaussian mechanism dominates Gaussian noise of the given standard deviation on any two
answers of distance at most the sensitivity, in both directions. -/
theorem C32_gaussian_unsampled {fuel : ℕ} {ppf : ℝ → ℝ} {σ s disc lb : ℝ} {useDots : Bool} {p : Pld}
    (h : fromGaussian fuel ppf σ s true disc lb 1 useDots = some (.ok p)) (hppf : ppf (0.5 * Real.exp lb) ≤ 0) (hd : 0 < disc)
    {d : ℕ} (a b : Vec d) (hab : ‖a - b‖ ≤ s) (ε : ℝ) :
    Indist (gaussianVec a σ) (gaussianVec b σ) ε (p.remove.getDeltaForEpsilon ε) ∧
      Indist (gaussianVec b σ) (gaussianVec a σ) ε (p.add.getDeltaForEpsilon ε) := by
  have g := fromGaussian_good h hppf hd (offGrid_one disc).gridOk
  obtain ⟨hσ, hs, q0, q1⟩ := gaussian_params h
  have hC : SampledGaussian σ s 1 (Vec d) (gaussianVec a σ) (gaussianVec b σ) := by
    have := SampledGaussian.mk (σ := σ) (s := s) (q := 1) (R := Unit) (fun S => if () ∈ S then a else b) (by
      intro S r
      by_cases hS : () ∈ S
      · simp [hS, hs.le]
      · simp [hS, hab]) ∅ () (by simp)
    simpa [poissonMech_one] using this
  exact ⟨(sampledGaussian_indist hσ hs q0.le q1 hC ε _).1 (g.remove ε), (sampledGaussian_indist hσ hs q0.le q1 hC ε _).2 (g.add ε)⟩

/-- **C32**, no sampling, Laplace noise. -/
theorem C32_laplace_unsampled {fuel : ℕ} {b s disc : ℝ} {useDots : Bool} {p : Pld}
    (h : fromLaplace fuel b s true disc 1 useDots = some (.ok p)) (hd : 0 < disc) {d : ℕ} (x y : Fin d → ℝ) (hxy : ∑ i, |x i - y i| ≤ s)
    (ε : ℝ) : Indist (laplaceVec x b) (laplaceVec y b) ε (p.remove.getDeltaForEpsilon ε) ∧
      Indist (laplaceVec y b) (laplaceVec x b) ε (p.add.getDeltaForEpsilon ε) := by
  have g := fromLaplace_good h hd (offGrid_one disc).gridOk
  obtain ⟨hb, hs, q0, q1⟩ := laplace_params h
  have hC : SampledLaplace b s 1 (Fin d → ℝ) (laplaceVec x b) (laplaceVec y b) := by
    have := SampledLaplace.mk (b := b) (s := s) (q := 1) (R := Unit) (fun S => if () ∈ S then x else y) (by
      intro S r
      by_cases hS : () ∈ S
      · simp [hS, hs.le]
      · simpa [hS] using hxy) ∅ () (by simp)
    simpa [poissonMech_one] using this
  exact ⟨(sampledLaplace_indist hb q0.le q1 hC ε _).1 (g.remove ε), (sampledLaplace_indist hb q0.le q1 hC ε _).2 (g.add ε)⟩

/-! Non-vacuity: sampling probability 1/2, default discretization interval. -/

example : ∃ fuel p, fromLaplace fuel 2 1 true 1e-4 (1 / 2) false = some (.ok p) ∧ DominatesAll p (SampledLaplace 2 1 (1 / 2)) := by
  obtain ⟨N, hN⟩ := C32_laplace_accepts (b := 2) (s := 1) true false (by norm_num) (by norm_num) (by norm_num) (by norm_num) (by norm_num)
    offGrid_half
  obtain ⟨p, hp⟩ := hN (N + 1) (by omega)
  exact ⟨_, p, hp, (C32_laplace_partial hp (by norm_num) offGrid_half).2.2⟩

example : ∃ fuel p, fromGaussian fuel (fun _ => -9) 1 1 true 1e-4 (-50) (1 / 2) true = some (.ok p) ∧
    DominatesAll p (SampledGaussian 1 1 (1 / 2)) := by
  obtain ⟨N, hN⟩ := C32_gaussian_accepts (ppf := fun _ => -9) (σ := 1) (s := 1) (lb := -50) true true (by norm_num) (by norm_num) (by norm_num)
    (by norm_num) (by norm_num) (by norm_num) (by norm_num) offGrid_half
  obtain ⟨p, hp⟩ := hN (N + 1) (by omega)
  exact ⟨_, p, hp, (C32_gaussian_partial hp (by norm_num) (by norm_num) offGrid_half).2.2⟩

example : ∃ p, fromDiscreteLaplace 1 2 true 1e-4 (1 / 2) true = some (.ok p) ∧
    DominatesAll p (SampledInteger (discreteLaplace 1) 2 (1 / 2)) := by
  obtain ⟨p, hp⟩ := C32_discrete_laplace_accepts (a := 1) (s := 2) true true (by norm_num) (by norm_num) (by norm_num) (by norm_num)
    (by norm_num) offGrid_half
  exact ⟨p, hp, (C32_discrete_laplace_partial hp (by norm_num) offGrid_half).2.2⟩

example : ∃ p, fromDiscreteGaussian 1 2 (some 10) true 1e-4 (1 / 2) true = some (.ok p) ∧
    DominatesAll p (SampledInteger (discreteGaussian 1 10) 2 (1 / 2)) := by
  obtain ⟨p, hp⟩ := C32_discrete_gaussian_accepts (σ := 1) (s := 2) (bound := some 10) true true (by norm_num) (by norm_num)
    (by simp [dgBound]) (by norm_num) (by norm_num) (by norm_num) offGrid_half
  exact ⟨p, hp, by simpa [dgBound] using (C32_discrete_gaussian_partial hp (by norm_num) offGrid_half).2.2⟩

/-! ### C60: optimistic PLDs never exceed the true divergence

The two pairs of distributions below are output distributions of the mechanism (query with one record, on a Poisson sample), so
an optimistic delta is at most every delta for which the mechanism is `(ε, δ)` private. -/

/-- **C60** for `from_laplace_mechanism(pessimistic_estimate=False)`. -/
theorem C60_laplace_partial {fuel : ℕ} {b s disc q : ℝ} {useDots : Bool} {p : Pld}
    (h : fromLaplace fuel b s false disc q useDots = some (.ok p)) (hd : 0 < disc) (hg : OffGrid disc q) :
    p.Valid ∧ p.remove.disc = disc ∧ p.remove.pessimistic = false ∧
      ∀ ε δ, (Indist (upper (laplace 0 b) s q .remove) (lower (laplace 0 b) s q .remove) ε δ → p.remove.getDeltaForEpsilon ε ≤ δ) ∧
        (Indist (upper (laplace 0 b) s q .add) (lower (laplace 0 b) s q .add) ε δ → p.add.getDeltaForEpsilon ε ≤ δ) :=
  fromLaplace_optimistic h hd hg.gridOk

/-- **C60** for `from_gaussian_mechanism(pessimistic_estimate=False)`. -/
theorem C60_gaussian_partial {fuel : ℕ} {ppf : ℝ → ℝ} {σ s disc lb q : ℝ} {useDots : Bool} {p : Pld}
    (h : fromGaussian fuel ppf σ s false disc lb q useDots = some (.ok p)) (hppf : ppf (0.5 * Real.exp lb) ≤ 0)
    (hd : 0 < disc) (hg : OffGrid disc q) :
    p.Valid ∧ p.remove.disc = disc ∧ p.remove.pessimistic = false ∧
      ∀ ε δ, (Indist (upper (gaussianReal 0 (Real.toNNReal (σ ^ 2))) s q .remove) (lower (gaussianReal 0 (Real.toNNReal (σ ^ 2))) s q .remove) ε δ →
          p.remove.getDeltaForEpsilon ε ≤ δ) ∧
        (Indist (upper (gaussianReal 0 (Real.toNNReal (σ ^ 2))) s q .add) (lower (gaussianReal 0 (Real.toNNReal (σ ^ 2))) s q .add) ε δ →
          p.add.getDeltaForEpsilon ε ≤ δ) :=
  fromGaussian_optimistic h hppf hd hg.gridOk

/-- **C60** for `from_discrete_laplace_mechanism(pessimistic_estimate=False)`; nothing is missing. -/
theorem C60_discrete_laplace {a disc q : ℝ} {s : ℤ} {useDots : Bool} {p : Pld}
    (h : fromDiscreteLaplace a s false disc q useDots = some (.ok p)) (hd : 0 < disc) :
    p.Valid ∧ p.remove.disc = disc ∧ p.remove.pessimistic = false ∧
      ∀ ε δ, (Indist (upper (discreteLaplace a) s q .remove) (lower (discreteLaplace a) s q .remove) ε δ → p.remove.getDeltaForEpsilon ε ≤ δ) ∧
        (Indist (upper (discreteLaplace a) s q .add) (lower (discreteLaplace a) s q .add) ε δ → p.add.getDeltaForEpsilon ε ≤ δ) :=
  fromDiscreteLaplace_optimistic h hd

/-- **C60** for `from_discrete_gaussian_mechanism(pessimistic_estimate=False)`; nothing is missing. -/
theorem C60_discrete_gaussian {σ disc q : ℝ} {s : ℤ} {bound : Option ℤ} {useDots : Bool} {p : Pld}
    (h : fromDiscreteGaussian σ s bound false disc q useDots = some (.ok p)) (hd : 0 < disc) :
    p.Valid ∧ p.remove.disc = disc ∧ p.remove.pessimistic = false ∧
      ∀ ε δ, (Indist (upper (discreteGaussian σ (dgBound σ bound)) s q .remove) (lower (discreteGaussian σ (dgBound σ bound)) s q .remove) ε δ →
          p.remove.getDeltaForEpsilon ε ≤ δ) ∧
        (Indist (upper (discreteGaussian σ (dgBound σ bound)) s q .add) (lower (discreteGaussian σ (dgBound σ bound)) s q .add) ε δ →
          p.add.getDeltaForEpsilon ε ≤ δ) :=
  fromDiscreteGaussian_optimistic h hd

example : ∃ fuel p, fromLaplace fuel 2 1 false 1e-4 (1 / 2) true = some (.ok p) ∧ ∀ ε δ,
    Indist (upper (laplace 0 2) 1 (1 / 2) .remove) (lower (laplace 0 2) 1 (1 / 2) .remove) ε δ → p.remove.getDeltaForEpsilon ε ≤ δ := by
  obtain ⟨N, hN⟩ := C32_laplace_accepts (b := 2) (s := 1) false true (by norm_num) (by norm_num) (by norm_num) (by norm_num) (by norm_num)
    offGrid_half
  obtain ⟨p, hp⟩ := hN (N + 1) (by omega)
  exact ⟨_, p, hp, fun ε δ => ((C60_laplace_partial hp (by norm_num) offGrid_half).2.2.2 ε δ).1⟩

example : ∃ p, fromDiscreteGaussian 1 2 (some 10) false 1e-4 (1 / 2) true = some (.ok p) ∧ p.remove.pessimistic = false := by
  obtain ⟨p, hp⟩ := C32_discrete_gaussian_accepts (σ := 1) (s := 2) (bound := some 10) false true (by norm_num) (by norm_num)
    (by simp [dgBound]) (by norm_num) (by norm_num) (by norm_num) offGrid_half
  exact ⟨p, hp, (C60_discrete_gaussian hp (by norm_num)).2.2.1⟩

end Verif.Props
