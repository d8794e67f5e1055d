import Verif.Proofs.AdditiveNoiseLoss
import Verif.Proofs.Laplace
import Mathlib.Probability.Distributions.Gaussian.Real
import Mathlib.Analysis.SpecificLimits.Basic
import Mathlib.MeasureTheory.Measure.Haar.OfBasis

/-! # The Laplace, Gaussian and discrete Laplace mechanisms -/

namespace Verif.Mech
open Verif Spec Pld MeasureTheory LogDomain ProbabilityTheory

section general
variable {X : Type} [AddCommGroup X] [MeasurableSpace X] {m : AdditiveNoise X} {ν : Measure X}

/-- `log (num / den)` for noise with density proportional to `exp (g x)`. -/
def expLoss (m : AdditiveNoise X) (g : X → ℝ) (x : X) : ℝ :=
  match m.adj with
  | .add => g x - g (x - m.sensitivity)
  | .remove => g (x + m.sensitivity) - g x

lemma expLog_logOf (p : ℝ) (hp : 0 ≤ p) : expLog (logOf p) = p := by
  unfold logOf
  split_ifs with h
  · rw [h]; rfl
  · exact Real.exp_log (lt_of_le_of_ne hp (Ne.symm h))

/-- Noise with positive density `c exp (g x)`. -/
lemma faithful_of_exp (c : ℝ) (g : X → ℝ) (hc : 0 < c) (q0 : 0 < m.samplingProb) (q1 : m.samplingProb ≤ 1)
    (inj : Measurable m.toReal) (meas : Measurable g)
    (prob : IsProbabilityMeasure (ν.withDensity fun x => ENNReal.ofReal (c * Real.exp (g x))))
    (cdf : ∀ x, m.noiseCdf x = cdfOf m.toReal (ν.withDensity fun x => ENNReal.ofReal (c * Real.exp (g x))) x)
    (logCdf : ∀ x, m.noiseLogCdf x = logOf (cdfOf m.toReal (ν.withDensity fun x => ENNReal.ofReal (c * Real.exp (g x))) x))
    (loss : ∀ x, m.lossNo x = .ok ((expLoss m g x : ℝ) : EReal))
    (inv : ∀ x (l : ℝ), (((m.toReal x : ℝ) : EReal) ≤ m.invNo l ↔ l ≤ expLoss m g x)) :
    Faithful m ν fun x => c * Real.exp (g x) := by
  have hden : ∀ x, 0 < den m (fun x => c * Real.exp (g x)) x := by
    intro x; unfold den; cases m.adj <;> positivity
  have hnum : ∀ x, num m (fun x => c * Real.exp (g x)) x = Real.exp (expLoss m g x) * den m (fun x => c * Real.exp (g x)) x := by
    intro x; unfold den num expLoss
    cases m.adj <;> simp only [] <;> rw [Real.exp_sub] <;> field_simp
  refine ⟨q0, q1, inj, fun x => by positivity, measurable_const.mul meas.exp, prob, cdf, ?_, ?_, ?_, ?_, ?_, ?_⟩
  · intro x
    rw [logCdf, expLog_logOf]
    exact measureReal_nonneg
  · intro x l _
    rw [inv, hnum, mul_le_mul_iff_left₀ (hden x), Real.exp_le_exp]
  · intro x l hl
    rw [loss] at hl
    have : expLoss m g x = l := EReal.coe_injective (Except.ok.inj hl)
    exact ⟨hden x, by rw [hnum, this]⟩
  · intro x hl
    rw [loss] at hl
    exact absurd (Except.ok.inj hl) (by simp)
  · intro x hl
    rw [loss] at hl
    exact absurd (Except.ok.inj hl) (by simp)
  · intro x e hl
    rw [loss] at hl
    exact absurd hl (by simp)

end general

lemma checkBase_ok {s q : ℝ} : checkBase s q = .ok () ↔ 0 < s ∧ 0 < q ∧ q ≤ 1 := by
  unfold checkBase
  by_cases h1 : s ≤ 0
  · rw [if_pos h1]; simp [h1, not_lt.2 h1]
  · rw [if_neg h1]
    by_cases h2 : q ≤ 0 ∨ q > 1
    · rw [if_pos h2]
      simp only [reduceCtorEq, false_iff]
      rintro ⟨_, h3, h4⟩
      rcases h2 with h2 | h2 <;> linarith
    · rw [if_neg h2]
      push Not at h1 h2
      simp [h1, h2]

/-- The three constructors that check the base class last. -/
lemma map_checkBase {α : Type} {s q : ℝ} {g : Unit → α} {a : α} (h : (checkBase s q).map g = .ok a) :
    (0 < s ∧ 0 < q ∧ q ≤ 1) ∧ g () = a := by
  cases hc : checkBase s q with
  | error e => rw [hc] at h; exact absurd h (by simp [Except.map])
  | ok u => rw [hc] at h; exact ⟨checkBase_ok.1 hc, Except.ok.inj h⟩

lemma checkBase_map {α : Type} {s q : ℝ} (g : Unit → α) (h : 0 < s ∧ 0 < q ∧ q ≤ 1) : ∃ a, (checkBase s q).map g = .ok a := by
  rw [checkBase_ok.2 h]; exact ⟨_, rfl⟩

lemma mkLaplace_ok {b s q : ℝ} (adj : Adj) (hb : 0 < b) (h : 0 < s ∧ 0 < q ∧ q ≤ 1) : ∃ m, mkLaplace b s q adj = .ok m := by
  unfold mkLaplace
  rw [if_neg (not_le.2 hb)]
  exact checkBase_map _ h

lemma mkGaussian_ok {σ s lb q : ℝ} (adj : Adj) (hb : 0 < σ) (hl : lb ≤ 0) (h : 0 < s ∧ 0 < q ∧ q ≤ 1) :
    ∃ m, mkGaussian σ s lb q adj = .ok m := by
  unfold mkGaussian
  rw [if_neg (not_le.2 hb), if_neg (not_lt.2 hl)]
  exact checkBase_map _ h

lemma mkDiscreteLaplace_ok {a q : ℝ} {s : ℤ} (adj : Adj) (hb : 0 < a) (h : 0 < (s : ℝ) ∧ 0 < q ∧ q ≤ 1) :
    ∃ m, mkDiscreteLaplace a s q adj = .ok m := by
  unfold mkDiscreteLaplace
  rw [if_neg (not_le.2 hb)]
  exact checkBase_map _ h

lemma mkDiscreteGaussian_ok {σ q : ℝ} {s : ℤ} {bound : Option ℤ} (adj : Adj) (hb : 0 < σ) (hs : s ≤ 2 * dgBound σ bound)
    (h : 0 < (s : ℝ) ∧ 0 < q ∧ q ≤ 1) : ∃ m, mkDiscreteGaussian σ s bound q adj = .ok m := by
  unfold mkDiscreteGaussian
  rw [if_neg (not_le.2 hb)]
  simp only []
  rw [if_neg (not_lt.2 hs)]
  exact checkBase_map _ h

/-! ### Laplace -/

lemma laplace_law (b : ℝ) : laplace 0 b = volume.withDensity fun x => ENNReal.ofReal (0.5 / b * Real.exp (-|x| / b)) := by
  unfold laplace; simp only [sub_zero]

open Classical in
lemma laplaceInvNo_coe (b s : ℝ) (adj : Adj) (l : ℝ) : laplaceInvNo b s adj (l : EReal) =
    if l * b > s then ⊥ else if l * b ≤ -s then ⊤ else match adj with
      | .add => ((0.5 * (s - l * b) : ℝ) : EReal)
      | .remove => ((0.5 * (-s - l * b) : ℝ) : EReal) := rfl

open Classical in
lemma dLaplaceInvNo_coe (a : ℝ) (s : ℤ) (adj : Adj) (l : ℝ) : dLaplaceInvNo a s adj (l : EReal) =
    if l / a > s then ⊥ else if l / a ≤ -s then ⊤ else match adj with
      | .add => (((⌊0.5 * ((s : ℝ) - l / a)⌋ : ℤ) : ℝ) : EReal)
      | .remove => (((⌊0.5 * (-(s : ℝ) - l / a)⌋ : ℤ) : ℝ) : EReal) := rfl

theorem laplace_faithful {b s q : ℝ} {adj : Adj} {m : AdditiveNoise ℝ} (h : mkLaplace b s q adj = .ok m) :
    Faithful m volume (fun x => 0.5 / b * Real.exp (-|x| / b)) ∧ m.sensitivity = s ∧ m.samplingProb = q ∧ m.adj = adj ∧
      0 < s ∧ 0 < b := by
  unfold mkLaplace at h
  by_cases hb : b ≤ 0
  · rw [if_pos hb] at h; exact absurd h (by simp)
  rw [if_neg hb] at h
  obtain ⟨⟨s0, q0, q1⟩, rfl⟩ := map_checkBase h
  have hb := not_le.1 hb
  refine ⟨?_, rfl, rfl, rfl, s0, hb⟩
  refine faithful_of_exp (0.5 / b) (fun x => -|x| / b) (by positivity) q0 q1 measurable_id (by fun_prop) ?_ ?_ ?_ ?_ ?_
  · rw [← laplace_law]; exact laplace_prob 0 hb
  · intro x; rw [← laplace_law]; rfl
  · intro x; rw [← laplace_law]; rfl
  · intro x
    show Except.ok ((laplaceLossNo b s adj x : ℝ) : EReal) = _
    congr 2
    unfold laplaceLossNo expLoss
    cases adj <;> simp only [] <;> ring
  · intro x l
    show ((x : ℝ) : EReal) ≤ laplaceInvNo b s adj (l : EReal) ↔ _
    rw [laplaceInvNo_coe]
    unfold expLoss
    have key : ∀ y : ℝ, (l ≤ -|y| / b - -|y - s| / b ↔ l * b ≤ |y - s| - |y|) := by
      intro y
      rw [← le_div_iff₀ hb]
      constructor <;> intro h <;> calc l ≤ _ := h
        _ = _ := by ring
    have key2 : ∀ y : ℝ, (l ≤ -|y + s| / b - -|y| / b ↔ l * b ≤ |y| - |y + s|) := by
      intro y
      rw [← le_div_iff₀ hb]
      constructor <;> intro h <;> calc l ≤ _ := h
        _ = _ := by ring
    cases adj with
    | add =>
      simp only []
      rw [key]
      split_ifs with h1 h2
      · simp only [le_bot_iff, EReal.coe_ne_bot, false_iff, not_le]
        have := abs_sub_abs_le_abs_sub (x - s) x
        rw [show x - s - x = -s by ring, abs_neg, abs_of_pos s0] at this
        linarith
      · simp only [le_top, true_iff]
        have := abs_sub_abs_le_abs_sub x (x - s)
        rw [show x - (x - s) = s by ring, abs_of_pos s0] at this
        linarith
      · rw [EReal.coe_le_coe_iff]
        constructor
        · intro h
          rcases abs_cases x with ⟨a1, a2⟩ | ⟨a1, a2⟩ <;> rcases abs_cases (x - s) with ⟨a3, a4⟩ | ⟨a3, a4⟩ <;> rw [a1, a3] <;> linarith
        · intro h
          rcases abs_cases x with ⟨a1, a2⟩ | ⟨a1, a2⟩ <;> rcases abs_cases (x - s) with ⟨a3, a4⟩ | ⟨a3, a4⟩ <;> rw [a1, a3] at h <;> linarith
    | remove =>
      simp only []
      rw [key2]
      split_ifs with h1 h2
      · simp only [le_bot_iff, EReal.coe_ne_bot, false_iff, not_le]
        have := abs_sub_abs_le_abs_sub x (x + s)
        rw [show x - (x + s) = -s by ring, abs_neg, abs_of_pos s0] at this
        linarith
      · simp only [le_top, true_iff]
        have := abs_sub_abs_le_abs_sub (x + s) x
        rw [show x + s - x = s by ring, abs_of_pos s0] at this
        linarith
      · rw [EReal.coe_le_coe_iff]
        constructor
        · intro h
          rcases abs_cases x with ⟨a1, a2⟩ | ⟨a1, a2⟩ <;> rcases abs_cases (x + s) with ⟨a3, a4⟩ | ⟨a3, a4⟩ <;> rw [a1, a3] <;> linarith
        · intro h
          rcases abs_cases x with ⟨a1, a2⟩ | ⟨a1, a2⟩ <;> rcases abs_cases (x + s) with ⟨a3, a4⟩ | ⟨a3, a4⟩ <;> rw [a1, a3] at h <;> linarith

/-! ### Gaussian -/

/-- The normalising constant of the normal density. -/
noncomputable def gaussConst (σ : ℝ) : ℝ := (Real.sqrt (2 * Real.pi * (Real.toNNReal (σ ^ 2))))⁻¹

lemma gaussian_law {σ : ℝ} (hσ : 0 < σ) : gaussianReal 0 (Real.toNNReal (σ ^ 2)) =
    volume.withDensity fun x => ENNReal.ofReal (gaussConst σ * Real.exp (-0.5 * x ^ 2 / σ ^ 2)) := by
  have hv : Real.toNNReal (σ ^ 2) ≠ 0 := by
    rw [Ne, Real.toNNReal_eq_zero, not_le]; positivity
  rw [gaussianReal_of_var_ne_zero _ hv]
  congr 1
  ext x
  rw [gaussianPDF, gaussianPDFReal, gaussConst]
  congr 3
  rw [Real.coe_toNNReal _ (by positivity), sub_zero]
  field_simp
  ring

theorem gaussian_faithful {σ s lb q : ℝ} {adj : Adj} {m : AdditiveNoise ℝ} (h : mkGaussian σ s lb q adj = .ok m) :
    Faithful m volume (fun x => gaussConst σ * Real.exp (-0.5 * x ^ 2 / σ ^ 2)) ∧ m.sensitivity = s ∧ m.samplingProb = q ∧
      m.adj = adj ∧ 0 < s ∧ 0 < σ := by
  unfold mkGaussian at h
  by_cases hb : σ ≤ 0
  · rw [if_pos hb] at h; exact absurd h (by simp)
  rw [if_neg hb] at h
  by_cases hl : lb > 0
  · rw [if_pos hl] at h; exact absurd h (by simp)
  rw [if_neg hl] at h
  obtain ⟨⟨s0, q0, q1⟩, rfl⟩ := map_checkBase h
  have hb := not_le.1 hb
  have hc : 0 < gaussConst σ := by
    unfold gaussConst
    rw [Real.coe_toNNReal _ (by positivity)]
    positivity
  refine ⟨?_, rfl, rfl, rfl, s0, hb⟩
  refine faithful_of_exp (gaussConst σ) (fun x => -0.5 * x ^ 2 / σ ^ 2) hc q0 q1 measurable_id (by fun_prop) ?_ ?_ ?_ ?_ ?_
  · rw [← gaussian_law hb]; infer_instance
  · intro x; rw [← gaussian_law hb]; rfl
  · intro x; rw [← gaussian_law hb]; rfl
  · intro x
    show Except.ok ((gaussianLossNo σ s adj x : ℝ) : EReal) = _
    congr 2
    unfold gaussianLossNo expLoss
    cases adj <;> simp only [] <;> ring
  · intro x l
    have hs2 : 0 < σ ^ 2 := by positivity
    cases adj with
    | add =>
      show ((x : ℝ) : EReal) ≤ ((0.5 * s - l * σ ^ 2 / s : ℝ) : EReal) ↔ l ≤ -0.5 * x ^ 2 / σ ^ 2 - -0.5 * (x - s) ^ 2 / σ ^ 2
      rw [EReal.coe_le_coe_iff, ← sub_div, le_div_iff₀ hs2, le_sub_comm, div_le_iff₀ s0]
      constructor <;> intro h <;> nlinarith
    | remove =>
      show ((x : ℝ) : EReal) ≤ ((-0.5 * s - l * σ ^ 2 / s : ℝ) : EReal) ↔ l ≤ -0.5 * (x + s) ^ 2 / σ ^ 2 - -0.5 * x ^ 2 / σ ^ 2
      rw [EReal.coe_le_coe_iff, ← sub_div, le_div_iff₀ hs2, le_sub_comm, div_le_iff₀ s0]
      constructor <;> intro h <;> nlinarith

/-! ### Discrete Laplace -/

lemma discreteLaplace_prob {a : ℝ} (ha : 0 < a) : IsProbabilityMeasure (discreteLaplace a) := by
  constructor
  unfold discreteLaplace
  rw [withDensity_apply _ MeasurableSet.univ, Measure.restrict_univ, lintegral_count]
  have h1 : 1 < Real.exp a := Real.one_lt_exp_iff.2 ha
  have hr : Real.exp (-a) < 1 := by rw [← Real.exp_zero]; exact Real.exp_lt_exp.2 (by linarith)
  have hr0 : 0 < Real.exp (-a) := Real.exp_pos _
  have g : HasSum (fun n : ℕ => Real.exp (-a) ^ n) (1 - Real.exp (-a))⁻¹ := hasSum_geometric_of_lt_one hr0.le hr
  have e1 : (fun n : ℕ => Real.exp (-a * |((n : ℤ) : ℝ)|)) = fun n : ℕ => Real.exp (-a) ^ n := by
    ext n
    rw [← Real.exp_nat_mul]
    congr 1
    rw [Int.cast_natCast, abs_of_nonneg (Nat.cast_nonneg n)]; ring
  have e2 : (fun n : ℕ => Real.exp (-a * |((-((n : ℤ) + 1) : ℤ) : ℝ)|)) = fun n : ℕ => Real.exp (-a) * Real.exp (-a) ^ n := by
    ext n
    rw [← Real.exp_nat_mul, ← Real.exp_add]
    congr 1
    push_cast
    rw [abs_neg, abs_of_nonneg (by positivity)]; ring
  have g1 : HasSum (fun n : ℕ => Real.exp (-a * |((n : ℤ) : ℝ)|)) (1 - Real.exp (-a))⁻¹ := by rw [e1]; exact g
  have g2 : HasSum (fun n : ℕ => Real.exp (-a * |((-((n : ℤ) + 1) : ℤ) : ℝ)|)) (Real.exp (-a) * (1 - Real.exp (-a))⁻¹) := by
    rw [e2]; exact g.mul_left _
  have g3 : HasSum (fun k : ℤ => (Real.exp a - 1) / (Real.exp a + 1) * Real.exp (-a * |(k : ℝ)|))
      ((Real.exp a - 1) / (Real.exp a + 1) * ((1 - Real.exp (-a))⁻¹ + Real.exp (-a) * (1 - Real.exp (-a))⁻¹)) :=
    (HasSum.of_nat_of_neg_add_one (f := fun k : ℤ => Real.exp (-a * |(k : ℝ)|)) g1 g2).mul_left _
  have e3 : (Real.exp a - 1) / (Real.exp a + 1) * ((1 - Real.exp (-a))⁻¹ + Real.exp (-a) * (1 - Real.exp (-a))⁻¹) = 1 := by
    rw [Real.exp_neg]
    generalize Real.exp a = t at h1
    have h2 : t - 1 ≠ 0 := by linarith
    have h3 : 1 - t⁻¹ = (t - 1) / t := by field_simp
    rw [h3]
    field_simp
  rw [e3] at g3
  rw [← ENNReal.ofReal_tsum_of_nonneg (fun k => mul_nonneg (div_nonneg (by linarith) (by linarith)) (Real.exp_pos _).le) g3.summable,
    g3.tsum_eq, ENNReal.ofReal_one]

theorem discreteLaplace_faithful {a q : ℝ} {s : ℤ} {adj : Adj} {m : AdditiveNoise ℤ} (h : mkDiscreteLaplace a s q adj = .ok m) :
    Faithful m Measure.count (fun k => (Real.exp a - 1) / (Real.exp a + 1) * Real.exp (-a * |(k : ℝ)|)) ∧ m.sensitivity = s ∧
      m.samplingProb = q ∧ m.adj = adj ∧ 0 < s ∧ 0 < a := by
  unfold mkDiscreteLaplace at h
  by_cases hb : a ≤ 0
  · rw [if_pos hb] at h; exact absurd h (by simp)
  rw [if_neg hb] at h
  obtain ⟨⟨s0, q0, q1⟩, rfl⟩ := map_checkBase h
  have hb := not_le.1 hb
  have s0' : 0 < s := by exact_mod_cast s0
  have h1 : 1 < Real.exp a := Real.one_lt_exp_iff.2 hb
  refine ⟨?_, rfl, rfl, rfl, s0', hb⟩
  refine faithful_of_exp ((Real.exp a - 1) / (Real.exp a + 1)) (fun k : ℤ => -a * |(k : ℝ)|) (div_pos (by linarith) (by linarith)) q0 q1
    (measurable_of_countable _) (measurable_of_countable _) ?_ ?_ ?_ ?_ ?_
  · exact discreteLaplace_prob hb
  · intro x; rfl
  · intro x; rfl
  · intro x
    show Except.ok ((dLaplaceLossNo a s adj x : ℝ) : EReal) = _
    congr 2
    unfold dLaplaceLossNo expLoss
    cases adj <;> simp only [] <;> push_cast <;> ring
  · intro x l
    show (((x : ℝ) : ℝ) : EReal) ≤ dLaplaceInvNo a s adj (l : EReal) ↔ _
    rw [dLaplaceInvNo_coe]
    unfold expLoss
    have key : l ≤ -a * |(x : ℝ)| - -a * |((x - s : ℤ) : ℝ)| ↔ l / a ≤ |(x : ℝ) - s| - |(x : ℝ)| := by
      rw [div_le_iff₀ hb, Int.cast_sub]
      constructor <;> intro h <;> linarith
    have key2 : l ≤ -a * |((x + s : ℤ) : ℝ)| - -a * |(x : ℝ)| ↔ l / a ≤ |(x : ℝ)| - |(x : ℝ) + s| := by
      rw [div_le_iff₀ hb, Int.cast_add]
      constructor <;> intro h <;> linarith
    cases adj with
    | add =>
      simp only []
      rw [key]
      split_ifs with h1 h2
      · simp only [le_bot_iff, EReal.coe_ne_bot, false_iff, not_le]
        have := abs_sub_abs_le_abs_sub ((x : ℝ) - s) x
        rw [show (x : ℝ) - s - x = -s by ring, abs_neg, abs_of_pos s0] at this
        linarith
      · simp only [le_top, true_iff]
        have := abs_sub_abs_le_abs_sub (x : ℝ) (x - s)
        rw [show (x : ℝ) - (x - s) = s by ring, abs_of_pos s0] at this
        linarith
      · rw [EReal.coe_le_coe_iff, Int.cast_le, Int.le_floor]
        generalize l / a = t at *
        constructor
        · intro h
          rcases abs_cases (x : ℝ) with ⟨a1, a2⟩ | ⟨a1, a2⟩ <;> rcases abs_cases ((x : ℝ) - s) with ⟨a3, a4⟩ | ⟨a3, a4⟩ <;> rw [a1, a3] <;> linarith
        · intro h
          rcases abs_cases (x : ℝ) with ⟨a1, a2⟩ | ⟨a1, a2⟩ <;> rcases abs_cases ((x : ℝ) - s) with ⟨a3, a4⟩ | ⟨a3, a4⟩ <;> rw [a1, a3] at h <;> linarith
    | remove =>
      simp only []
      rw [key2]
      split_ifs with h1 h2
      · simp only [le_bot_iff, EReal.coe_ne_bot, false_iff, not_le]
        have := abs_sub_abs_le_abs_sub (x : ℝ) (x + s)
        rw [show (x : ℝ) - (x + s) = -s by ring, abs_neg, abs_of_pos s0] at this
        linarith
      · simp only [le_top, true_iff]
        have := abs_sub_abs_le_abs_sub ((x : ℝ) + s) x
        rw [show (x : ℝ) + s - x = s by ring, abs_of_pos s0] at this
        linarith
      · rw [EReal.coe_le_coe_iff, Int.cast_le, Int.le_floor]
        generalize l / a = t at *
        constructor
        · intro h
          rcases abs_cases (x : ℝ) with ⟨a1, a2⟩ | ⟨a1, a2⟩ <;> rcases abs_cases ((x : ℝ) + s) with ⟨a3, a4⟩ | ⟨a3, a4⟩ <;> rw [a1, a3] <;> linarith
        · intro h
          rcases abs_cases (x : ℝ) with ⟨a1, a2⟩ | ⟨a1, a2⟩ <;> rcases abs_cases ((x : ℝ) + s) with ⟨a3, a4⟩ | ⟨a3, a4⟩ <;> rw [a1, a3] at h <;> linarith

end Verif.Mech
