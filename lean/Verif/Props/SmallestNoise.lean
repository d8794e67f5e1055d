import Verif.Proofs.SmallestNoiseSample
import Verif.Props.PldEndToEnd

/-!
# C28: the searches for the smallest noise return private noise

`RepeatedPrivate C n ε δ`: any `n` mechanisms satisfying `C`, run one after the other and each chosen depending on the earlier outputs, are
together `(ε, δ)`-differentially private. `nfl` stands for `scipy.fft.next_fast_len`, which returns at least its argument. Numbers of queries
go up to `10^21` (beyond that the truncation of the tails could cost as much as the mass that the library takes to be infinite).
-/

namespace Verif.Props
open Verif Spec SmallestNoise InverseMonotone Mech MeasureTheory ProbabilityTheory

/-! ### `get_smallest_parameter` -/

/-- **C28, `get_smallest_parameter`.** A parameter that is returned is in the range, and the `n`-fold composition of its PLD has a delta of
at most the target. -/
theorem C28_parameter_feasible {fuel : ℕ} {nfl : ℕ → ℕ} {eps delta : ℝ} {n : ℤ} {ctor : ℝ → Except Err Pld} {p : SearchParams} {x : ℝ}
    (h : smallestParameter fuel nfl eps delta n ctor p = .ok (.found x)) (hp : GoodParams p) (hd : p.discrete = false) :
    InRange p x ∧ ∃ pld r, ctor x = .ok pld ∧ pld.selfCompose nfl n 1e-15 = .ok r ∧ r.getDeltaForEpsilon eps ≤ delta := by
  obtain ⟨v, h1, h2⟩ := inverseE_feasible h
  obtain ⟨pld, r, h3, h4, rfl⟩ := deltaFor_ok h1
  exact ⟨inverseE_range hp hd h, pld, r, h3, h4, h2⟩

/-- It cannot be improved by more than the tolerance: just below, or at the lower end of the range, there is a parameter with a delta above
the target. -/
theorem C28_parameter_tight {fuel : ℕ} {nfl : ℕ → ℕ} {eps delta : ℝ} {n : ℤ} {ctor : ℝ → Except Err Pld} {p : SearchParams} {x : ℝ}
    (h : smallestParameter fuel nfl eps delta n ctor p = .ok (.found x)) (hp : GoodParams p) (hd : p.discrete = false) :
    ∃ y : ℝ, InRange p y ∧ y ≤ x ∧ x - p.tolerance ≤ y ∧ ((y : EReal) = p.lowerBound ∨
      ∃ pld r, ctor y = .ok pld ∧ pld.selfCompose nfl n 1e-15 = .ok r ∧ delta < r.getDeltaForEpsilon eps) := by
  obtain ⟨y, h1, h2, h3, h4⟩ := inverseE_boundary hp hd h
  refine ⟨y, h1, h2, h3, h4.imp id ?_⟩
  rintro ⟨v, h5, h6⟩
  obtain ⟨pld, r, h7, h8, rfl⟩ := deltaFor_ok h5
  exact ⟨pld, r, h7, h8, h6⟩

/-- `None` means that the upper end of the range has a delta above the target. -/
theorem C28_parameter_none {fuel : ℕ} {nfl : ℕ → ℕ} {eps delta : ℝ} {n : ℤ} {ctor : ℝ → Except Err Pld} {p : SearchParams}
    (h : smallestParameter fuel nfl eps delta n ctor p = .ok .notFound) :
    ∃ u : ℝ, p.upperBound = u ∧ ∃ pld r, ctor u = .ok pld ∧ pld.selfCompose nfl n 1e-15 = .ok r ∧ delta < r.getDeltaForEpsilon eps := by
  obtain ⟨u, h1, v, h2, h3⟩ := inverseE_none h
  obtain ⟨pld, r, h4, h5, rfl⟩ := deltaFor_ok h2
  exact ⟨u, h1, pld, r, h4, h5, h3⟩

/-- If the PLD made from the parameter dominates the mechanism with that parameter, the mechanism with the parameter that is returned is
`(eps, delta)`-differentially private when run `n` times. -/
theorem C28_parameter_private {fuel : ℕ} {nfl : ℕ → ℕ} (hnfl : ∀ k, k ≤ nfl k) {eps delta : ℝ} {n : ℤ} (hn : n ≤ 10 ^ 21)
    {ctor : ℝ → Except Err Pld} {p : SearchParams} {x : ℝ} (h : smallestParameter fuel nfl eps delta n ctor p = .ok (.found x))
    {C : ℝ → PairProp} (hC : ∀ y pld, ctor y = .ok pld → ProperPld pld ∧ DominatesAll pld (C y) ∧
      pld.remove.infinityMass ≤ 1e-22 ∧ pld.add.infinityMass ≤ 1e-22) : RepeatedPrivate (C x) n.toNat eps delta := by
  obtain ⟨v, h1, h2⟩ := inverseE_feasible h
  obtain ⟨pld, r, h3, h4, rfl⟩ := deltaFor_ok h1
  obtain ⟨k1, k2, k3, k4⟩ := hC x pld h3
  exact repeated_of_pld k1 k2 k3 k4 hnfl hn h4 h2

/-! ### Laplace -/

lemma laplaceCtor_spec {eps : ℝ} {n : ℤ} {s x : ℝ} {p : Pld} (h : laplaceCtor eps n s x = .ok p) (he : 0 < eps) (hn : 1 ≤ n) :
    0 < x ∧ 0 < s ∧ ProperPld p ∧ DominatesAll p (SampledLaplace x s 1) ∧ p.remove.infinityMass ≤ 1e-22 ∧ p.add.infinityMass ≤ 1e-22 := by
  unfold laplaceCtor at h
  rw [if_neg (by omega)] at h
  have h := total_ok h
  have hn0 : (0 : ℝ) < n := by exact_mod_cast hn
  have hd : 0 < 0.1 * eps / n := by positivity
  obtain ⟨hb, hs, -, -⟩ := laplace_params h
  obtain ⟨h1, -, h3⟩ := C32_laplace_partial h hd (offGrid_one _)
  obtain ⟨i1, i2⟩ := fromLaplace_inf h hd
  exact ⟨hb, hs, h1, h3, by norm_num at i1 ⊢; linarith, by norm_num at i2 ⊢; linarith⟩

/-- **C28, `get_smallest_laplace_noise`.** With Laplace noise of the scale that is returned, `n` queries of `ℓ₁` sensitivity `s`, asked one after
the other, are `(eps, delta)`-differentially private. The scale is at most that of basic composition, `n s / eps`. -/
theorem C28_laplace {fuel : ℕ} {nfl : ℕ → ℕ} (hnfl : ∀ k, k ≤ nfl k) {eps delta : ℝ} (he : 0 ≤ eps) (hδ : 0 ≤ delta) {n : ℤ} (hn : 1 ≤ n)
    (hn' : n ≤ 10 ^ 21) {s b : ℝ} (h : smallestLaplace fuel nfl eps delta n s = .ok (some b)) :
    0 < b ∧ b ≤ n * s / eps ∧ RepeatedPrivate (LaplaceQuery b s) n.toNat eps delta := by
  unfold smallestLaplace at h
  by_cases h0 : eps = 0
  · rw [if_pos h0] at h; simp at h
  rw [if_neg h0] at h
  have he : 0 < eps := lt_of_le_of_ne he (Ne.symm h0)
  have hn0 : (0 : ℝ) < n := by exact_mod_cast hn
  cases hr : smallestParameter fuel nfl eps delta n (laplaceCtor eps n s) (zeroTo (n * s / eps)) with
  | error e => rw [hr] at h; simp [Except.map] at h
  | ok r =>
    rw [hr] at h
    simp only [Except.map, Except.ok.injEq] at h
    cases r with
    | infiniteInterval => simp [InvRes.orElse] at h
    | outOfFuel => simp [InvRes.orElse] at h
    | found x =>
      simp only [InvRes.orElse, Option.some.injEq] at h
      subst h
      obtain ⟨v, h1, -⟩ := inverseE_feasible hr
      obtain ⟨p, r, h2, -, -⟩ := deltaFor_ok h1
      obtain ⟨k1, k2, -⟩ := laplaceCtor_spec h2 he hn
      have hp : GoodParams (zeroTo (n * s / eps)) :=
        ⟨EReal.coe_le_coe_iff.2 (by positivity), fun g h => by simp [zeroTo] at h⟩
      refine ⟨k1, EReal.coe_le_coe_iff.1 (C28_parameter_feasible hr hp rfl).1.2, ?_⟩
      refine (C28_parameter_private hnfl hn' hr (C := fun y => SampledLaplace y s 1) fun y pld hy => ?_).mono fun Ω _ P Q hC =>
        laplaceQuery_sampled hC
      exact (laplaceCtor_spec hy he hn).2.2
    | notFound =>
      simp only [InvRes.orElse, Option.some.injEq] at h
      subst h
      obtain ⟨u, hu, p, r, h2, -, -⟩ := C28_parameter_none hr
      obtain ⟨-, k2, -⟩ := laplaceCtor_spec h2 he hn
      have hb : 0 < n * s / eps := by positivity
      refine ⟨hb, le_rfl, repeated_of_pure (fun Ω _ P Q hC => laplaceQuery_pure hb k2 hC) _ ?_ hδ⟩
      have : ((n.toNat : ℕ) : ℝ) = n := by
        have : ((n.toNat : ℕ) : ℤ) = n := Int.toNat_of_nonneg (by omega)
        exact_mod_cast congrArg (Int.cast : ℤ → ℝ) this
      rw [this]
      apply le_of_eq
      field_simp

/-- The search for the Laplace scale stops and does not raise. -/
theorem C28_laplace_returns (nfl : ℕ → ℕ) {eps : ℝ} (delta : ℝ) (he : 0 < eps) {n : ℤ} (hn : 1 ≤ n) (hn' : n ≤ 10 ^ 21) {s : ℝ} (hs : 0 < s) :
    ∃ b N, ∀ fuel ≥ N, smallestLaplace fuel nfl eps delta n s = .ok (some b) := by
  have hn0 : (0 : ℝ) < n := by exact_mod_cast hn
  have hd : 0 < 0.1 * eps / n := by positivity
  obtain ⟨r, N, hr, hN⟩ := zeroTo_stops (func := deltaForParameter nfl (laplaceCtor eps n s) eps n) (value := delta) (u := n * s / eps) (by positivity)
    (fun x hx => by
      obtain ⟨N, hN⟩ := C32_laplace_accepts (b := x) (s := s) (q := 1) true true hx hs one_pos le_rfl hd (offGrid_one _)
      obtain ⟨p, hp⟩ := hN (N + 1) (by omega)
      rw [fromLaplace_fuel] at hp
      have hc : laplaceCtor eps n s x = .ok p := by
        unfold laplaceCtor
        rw [if_neg (by omega), hp]
        rfl
      obtain ⟨-, -, k1, -, k2, k3⟩ := laplaceCtor_spec hc he hn
      exact deltaFor_total (by omega) hn' hc k1 k2 k3)
  unfold smallestLaplace smallestParameter
  rcases hr with rfl | ⟨x, rfl⟩
  · exact ⟨_, N, fun fuel hf => by rw [if_neg he.ne', hN fuel hf]; rfl⟩
  · exact ⟨_, N, fun fuel hf => by rw [if_neg he.ne', hN fuel hf]; rfl⟩

/-- Non-vacuity: a scale is returned for 10 queries of sensitivity 2 and the target `(1, 1e-5)`, and it is private. -/
example : ∃ fuel b, smallestLaplace fuel id 1 1e-5 10 2 = .ok (some b) ∧ 0 < b ∧ b ≤ 20 ∧ RepeatedPrivate (LaplaceQuery b 2) 10 1 1e-5 := by
  obtain ⟨b, N, hN⟩ := C28_laplace_returns id (eps := 1) 1e-5 one_pos (n := 10) (by norm_num) (by norm_num) (s := 2) (by norm_num)
  have hb := hN N le_rfl
  obtain ⟨h1, h2, h3⟩ := C28_laplace (fun k => le_rfl) zero_le_one (by norm_num) (by norm_num) (by norm_num) hb
  exact ⟨N, b, hb, h1, by norm_num at h2; exact h2, h3⟩

/-! ### Discrete Laplace -/

lemma discreteLaplaceCtor_spec {s : ℤ} {x : ℝ} {p : Pld} (h : discreteLaplaceCtor s x = .ok p) :
    0 < x ∧ 0 < s ∧ ProperPld p ∧ DominatesAll p (SampledInteger (discreteLaplace (1 / x)) s 1) ∧
      p.remove.infinityMass ≤ 1e-22 ∧ p.add.infinityMass ≤ 1e-22 := by
  unfold discreteLaplaceCtor at h
  by_cases hx : x = 0
  · rw [if_pos hx] at h; simp at h
  rw [if_neg hx] at h
  have h := total_ok h
  obtain ⟨ha, -, -⟩ := discreteLaplace_params h
  have hs : 0 < s := by
    have h' := h
    unfold fromDiscreteLaplace subsampledPld at h'
    cases hm : mkDiscreteLaplace (1 / x) s 1 .remove with
    | error e => simp only [hm] at h'; cases h'
    | ok m => exact (discreteLaplace_faithful hm).2.2.2.2.1
  obtain ⟨h1, -, h3⟩ := C32_discrete_laplace_partial h ha (offGrid_one _)
  obtain ⟨i1, i2⟩ := fromDiscreteLaplace_inf h ha
  refine ⟨by simpa using ha, hs, h1, h3, by norm_num at i1 ⊢; linarith, by norm_num at i2 ⊢; linarith⟩

/-- **C28, `get_smallest_discrete_laplace_noise`.** With discrete Laplace noise of the parameter that is returned (a larger parameter means
less noise), `n` integer queries of sensitivity `s`, asked one after the other, are `(eps, delta)`-differentially private. -/
theorem C28_discrete_laplace {fuel : ℕ} {nfl : ℕ → ℕ} (hnfl : ∀ k, k ≤ nfl k) {eps delta : ℝ} (he : 0 ≤ eps) (hδ : 0 ≤ delta) {n : ℤ}
    (hn : 1 ≤ n) (hn' : n ≤ 10 ^ 21) {s : ℤ} {a : ℝ} (h : smallestDiscreteLaplace fuel nfl eps delta n s = .ok (some a)) :
    0 < a ∧ eps / (n * s) ≤ a ∧ RepeatedPrivate (IntegerQuery (discreteLaplace a) s) n.toNat eps delta := by
  unfold smallestDiscreteLaplace at h
  by_cases h0 : eps = 0
  · rw [if_pos h0] at h; simp at h
  rw [if_neg h0] at h
  have he : 0 < eps := lt_of_le_of_ne he (Ne.symm h0)
  have hn0 : (0 : ℝ) < n := by exact_mod_cast hn
  cases hr : smallestParameter fuel nfl eps delta n (discreteLaplaceCtor s) (zeroTo (n * s / eps)) with
  | error e => rw [hr] at h; simp at h
  | ok r =>
    rw [hr] at h
    cases r with
    | infiniteInterval => simp at h
    | outOfFuel => simp at h
    | found x =>
      simp only [Except.ok.injEq, Option.some.injEq] at h
      subst h
      obtain ⟨v, h1, -⟩ := inverseE_feasible hr
      obtain ⟨p, r, h2, -, -⟩ := deltaFor_ok h1
      obtain ⟨k1, k2, -⟩ := discreteLaplaceCtor_spec h2
      have hs0 : (0 : ℝ) < s := by exact_mod_cast k2
      have hp : GoodParams (zeroTo (n * s / eps)) :=
        ⟨EReal.coe_le_coe_iff.2 (by positivity), fun g h => by simp [zeroTo] at h⟩
      have hle : x ≤ n * s / eps := EReal.coe_le_coe_iff.1 (C28_parameter_feasible hr hp rfl).1.2
      refine ⟨by positivity, ?_, ?_⟩
      · rw [div_le_div_iff₀ (by positivity) k1]
        rw [le_div_iff₀ he] at hle
        linarith
      refine (C28_parameter_private hnfl hn' hr (C := fun y => SampledInteger (discreteLaplace (1 / y)) s 1) fun y pld hy => ?_).mono
        fun Ω _ P Q hC => integerQuery_sampled hC
      exact (discreteLaplaceCtor_spec hy).2.2
    | notFound =>
      obtain ⟨u, hu, p, r, h2, -, -⟩ := C28_parameter_none hr
      obtain ⟨-, k2, -⟩ := discreteLaplaceCtor_spec h2
      have hs0 : (0 : ℝ) < s := by exact_mod_cast k2
      have hne : n * s ≠ 0 := (mul_pos (by omega) k2).ne'
      simp only [if_neg hne, Except.ok.injEq, Option.some.injEq] at h
      subst h
      have ha : 0 < eps / (n * s) := by positivity
      refine ⟨ha, le_rfl, repeated_of_pure (fun Ω _ P Q hC => integerQuery_pure ha k2 hC) _ ?_ hδ⟩
      have : ((n.toNat : ℕ) : ℝ) = n := by
        have : ((n.toNat : ℕ) : ℤ) = n := Int.toNat_of_nonneg (by omega)
        exact_mod_cast congrArg (Int.cast : ℤ → ℝ) this
      rw [this]
      apply le_of_eq
      field_simp

/-- The search for the discrete Laplace parameter stops and does not raise. -/
theorem C28_discrete_laplace_returns (nfl : ℕ → ℕ) {eps : ℝ} (delta : ℝ) (he : 0 < eps) {n : ℤ} (hn : 1 ≤ n) (hn' : n ≤ 10 ^ 21) {s : ℤ}
    (hs : 0 < s) : ∃ a N, ∀ fuel ≥ N, smallestDiscreteLaplace fuel nfl eps delta n s = .ok (some a) := by
  have hn0 : (0 : ℝ) < n := by exact_mod_cast hn
  have hs0 : (0 : ℝ) < s := by exact_mod_cast hs
  obtain ⟨r, N, hr, hN⟩ := zeroTo_stops (func := deltaForParameter nfl (discreteLaplaceCtor s) eps n) (value := delta) (u := n * s / eps) (by positivity)
    (fun x hx => by
      obtain ⟨p, hp⟩ := C32_discrete_laplace_accepts (a := 1 / x) (s := s) (q := 1) true true (by positivity) hs one_pos le_rfl
        (disc := 1 / x) (by positivity) (offGrid_one _)
      have hc : discreteLaplaceCtor s x = .ok p := by
        unfold discreteLaplaceCtor
        rw [if_neg hx.ne', hp]
        rfl
      obtain ⟨-, -, k1, -, k2, k3⟩ := discreteLaplaceCtor_spec hc
      exact deltaFor_total (by omega) hn' hc k1 k2 k3)
  unfold smallestDiscreteLaplace smallestParameter
  rcases hr with rfl | ⟨x, rfl⟩
  · refine ⟨eps / (n * s), N, fun fuel hf => ?_⟩
    rw [if_neg he.ne', hN fuel hf]
    simp only
    rw [if_neg (mul_pos (by omega : 0 < n) hs).ne']
  · exact ⟨_, N, fun fuel hf => by rw [if_neg he.ne', hN fuel hf]⟩

example : ∃ fuel a, smallestDiscreteLaplace fuel id 1 1e-5 10 2 = .ok (some a) ∧ RepeatedPrivate (IntegerQuery (discreteLaplace a) 2) 10 1 1e-5 := by
  obtain ⟨a, N, hN⟩ := C28_discrete_laplace_returns id (eps := 1) 1e-5 one_pos (n := 10) (by norm_num) (by norm_num) (s := 2) (by norm_num)
  have ha := hN N le_rfl
  exact ⟨N, a, ha, (C28_discrete_laplace (fun k => le_rfl) zero_le_one (by norm_num) (by norm_num) (by norm_num) ha).2.2⟩

/-! ### Gaussian -/

lemma gaussianGuarantee_found {fuel : ℕ} {eps delta s q σ : ℝ} (h : gaussianGuarantee fuel eps delta s q = .ok (some σ)) :
    delta ≠ 0 ∧ eps ≠ 0 ∧ inverseE fuel (gaussianDelta eps s q) delta (gaussianRange eps delta s) false = .ok (.found σ) := by
  unfold gaussianGuarantee at h
  by_cases hd : delta = 0
  · rw [if_pos hd] at h; simp at h
  rw [if_neg hd] at h
  by_cases he : eps = 0
  · rw [if_pos he] at h; simp at h
  rw [if_neg he] at h
  refine ⟨hd, he, ?_⟩
  cases hr : inverseE fuel (gaussianDelta eps s q) delta (gaussianRange eps delta s) false with
  | error e => rw [hr] at h; simp at h
  | ok r => rw [hr] at h; cases r <;> simp at h; rw [h]

lemma guess_pos {eps delta s : ℝ} (he : 0 < eps) (hd0 : 0 < delta) (hd1 : delta ≤ 1) (hs : 0 < s) :
    0 < Real.sqrt (2 * Real.log (1.5 / delta)) * s / eps := by
  have : 0 < Real.log (1.5 / delta) := Real.log_pos (by rw [lt_div_iff₀ hd0]; linarith)
  have := Real.sqrt_pos.2 (mul_pos two_pos this)
  positivity

lemma gaussianRange_good {eps delta s : ℝ} (he : 0 < eps) (hd0 : 0 < delta) (hd1 : delta ≤ 1) (hs : 0 < s) :
    GoodParams (gaussianRange eps delta s) := by
  refine ⟨le_top, fun g hg => ?_⟩
  simp only [gaussianRange, Option.some.injEq] at hg
  subst hg
  have := guess_pos he hd0 hd1 hs
  exact ⟨this, EReal.coe_le_coe_iff.2 this.le⟩

/-- **C28, `get_smallest_gaussian_noise`.** With Gaussian noise of the standard deviation that is returned, `n` vector queries of `ℓ₂`
sensitivity `s`, asked one after the other, are `(eps, delta)`-differentially private. -/
theorem C28_gaussian {fuel : ℕ} {eps delta : ℝ} {n : ℤ} {s σ : ℝ} (h : smallestGaussian fuel eps delta n s = .ok (some σ)) :
    0 < σ ∧ RepeatedPrivate (GaussianQuery σ s) n.toNat eps delta := by
  unfold smallestGaussian at h
  by_cases hn : n < 0
  · rw [if_pos hn] at h; simp at h
  rw [if_neg hn] at h
  obtain ⟨v, h1, h2⟩ := inverseE_feasible (gaussianGuarantee_found h).2.2
  obtain ⟨hσ, hs, -, -⟩ := gaussianDelta_params h1
  have e : ((n.toNat : ℕ) : ℝ) = n := by
    have : ((n.toNat : ℕ) : ℤ) = n := Int.toNat_of_nonneg (by omega)
    exact_mod_cast congrArg (Int.cast : ℤ → ℝ) this
  have hq : 0 < Real.sqrt n := by
    rcases (Real.sqrt_nonneg (n : ℝ)).lt_or_eq with h | h
    · exact h
    · rw [← h, mul_zero] at hs; exact absurd hs (lt_irrefl _)
  have hs' : 0 < s := pos_of_mul_pos_left hs hq.le
  have hn0 : 0 < n.toNat := by
    rw [Real.sqrt_pos] at hq
    have : 0 < n := by exact_mod_cast hq
    omega
  rw [gaussianDelta_ok hσ hs, Except.ok.injEq] at h1
  refine ⟨hσ, gaussian_sufficient hσ hs' hn0 ?_⟩
  rw [e, h1]
  exact h2

/-- It is the smallest such standard deviation up to the tolerance `1e-7` of the search. -/
theorem C28_gaussian_smallest {fuel : ℕ} {eps delta : ℝ} (he : 0 ≤ eps) (hd0 : 0 ≤ delta) (hd1 : delta ≤ 1) {n : ℤ} {s σ : ℝ}
    (h : smallestGaussian fuel eps delta n s = .ok (some σ)) {σ' : ℝ} (h0 : 0 < σ') (hlt : σ' < σ - 1e-7) :
    ¬ RepeatedPrivate (GaussianQuery σ' s) n.toNat eps delta := by
  unfold smallestGaussian at h
  by_cases hn : n < 0
  · rw [if_pos hn] at h; simp at h
  rw [if_neg hn] at h
  obtain ⟨d0, e0, hr⟩ := gaussianGuarantee_found h
  have he : 0 < eps := lt_of_le_of_ne he (Ne.symm e0)
  have hd0 : 0 < delta := lt_of_le_of_ne hd0 (Ne.symm d0)
  obtain ⟨v, h1, h2⟩ := inverseE_feasible hr
  obtain ⟨hσ, hs, -, -⟩ := gaussianDelta_params h1
  have e : ((n.toNat : ℕ) : ℝ) = n := by
    have : ((n.toNat : ℕ) : ℤ) = n := Int.toNat_of_nonneg (by omega)
    exact_mod_cast congrArg (Int.cast : ℤ → ℝ) this
  have hq : 0 < Real.sqrt n := by
    rcases (Real.sqrt_nonneg (n : ℝ)).lt_or_eq with h | h
    · exact h
    · rw [← h, mul_zero] at hs; exact absurd hs (lt_irrefl _)
  have hs' : 0 < s := pos_of_mul_pos_left hs hq.le
  have hn0 : 0 < n.toNat := by
    rw [Real.sqrt_pos] at hq
    have : 0 < n := by exact_mod_cast hq
    omega
  obtain ⟨y, -, -, h3, h4⟩ := inverseE_boundary (gaussianRange_good he hd0 hd1 hs) rfl hr
  intro hc
  have h5 := gaussian_necessary h0 hs' hn0 hc
  rw [e] at h5
  have h3' : σ - 1e-7 ≤ y := h3
  have hy : σ' < y := hlt.trans_le h3'
  rcases h4 with h4 | ⟨w, h6, h7⟩
  · have : y = 0 := EReal.coe_eq_coe_iff.1 h4
    linarith
  · rw [gaussianDelta_ok (h0.trans hy) hs, Except.ok.injEq] at h6
    have := gaussLaw_hs_anti (z := σ' / (s * Real.sqrt n)) (z' := y / (s * Real.sqrt n)) (by positivity) (by gcongr) eps
    linarith

lemma gaussLaw_hs_small {eps delta z : ℝ} (he : 0 < eps) (hd : 0 < delta) (hz : max 1 (1 / (2 * eps * delta)) ≤ z) : (gaussLaw z).hs eps ≤ delta := by
  have h1 : 1 ≤ z := (le_max_left _ _).trans hz
  have h2 : 1 / (2 * eps * delta) ≤ z := (le_max_right _ _).trans hz
  have hz0 : 0 < z := by linarith
  refine (gaussLaw_hs_le hz0 he).trans ?_
  rw [div_le_iff₀ (by positivity)] at h2
  rw [div_le_iff₀ (by positivity)]
  have e : (1 / (2 * z ^ 2)) ^ 2 ≤ 1 / z ^ 2 := by
    rw [div_pow, one_pow, div_le_div_iff₀ (by positivity) (by positivity)]
    nlinarith [sq_nonneg z, one_le_pow₀ h1 (n := 2)]
  have e2 : 1 / z ^ 2 ≤ 1 / z := by
    rw [div_le_div_iff₀ (by positivity) hz0]
    nlinarith
  have e3 : 1 / z ≤ 2 * eps * delta := by
    rw [div_le_iff₀ hz0]
    linarith
  linarith

/-- The search for the Gaussian standard deviation stops, does not raise and finds a standard deviation. -/
theorem C28_gaussian_finds {eps delta : ℝ} (he : 0 < eps) (hd0 : 0 < delta) (hd1 : delta ≤ 1) {n : ℤ} (hn : 1 ≤ n) {s : ℝ} (hs : 0 < s) :
    ∃ σ N, ∀ fuel ≥ N, smallestGaussian fuel eps delta n s = .ok (some σ) := by
  have hn0 : (0 : ℝ) < n := by exact_mod_cast hn
  have hs' : 0 < s * Real.sqrt n := mul_pos hs (Real.sqrt_pos.2 hn0)
  obtain ⟨x, N, hN⟩ := upFrom_stops (func := gaussianDelta eps (s * Real.sqrt n) 1) (value := delta) (tol := 1e-7)
    (B := s * Real.sqrt n * max 1 (1 / (2 * eps * delta))) (guess_pos he hd0 hd1 hs') (by norm_num)
    (fun x hx => ⟨_, gaussianDelta_ok hx hs' eps⟩)
    (fun x v hx hv => by
      have hx0 : 0 < x := lt_of_lt_of_le (by positivity) hx
      rw [gaussianDelta_ok hx0 hs' eps, Except.ok.injEq] at hv
      rw [← hv]
      refine gaussLaw_hs_small he hd0 ?_
      rw [le_div_iff₀ hs']
      linarith)
  refine ⟨x, N, fun fuel hf => ?_⟩
  unfold smallestGaussian gaussianGuarantee
  rw [if_neg (by omega), if_neg hd0.ne', if_neg he.ne']
  unfold gaussianRange
  rw [hN fuel hf]

example : ∃ fuel σ, smallestGaussian fuel 1 1e-5 10 2 = .ok (some σ) ∧ 0 < σ ∧ RepeatedPrivate (GaussianQuery σ 2) 10 1 1e-5 ∧
    ∀ σ', 0 < σ' → σ' < σ - 1e-7 → ¬ RepeatedPrivate (GaussianQuery σ' 2) 10 1 1e-5 := by
  obtain ⟨σ, N, hN⟩ := C28_gaussian_finds (eps := 1) (delta := 1e-5) one_pos (by norm_num) (by norm_num) (n := 10) (by norm_num) (s := 2) (by norm_num)
  have hσ := hN N le_rfl
  obtain ⟨h1, h2⟩ := C28_gaussian hσ
  exact ⟨N, σ, hσ, h1, h2, fun σ' h0 hlt => C28_gaussian_smallest zero_le_one (by norm_num) (by norm_num) hσ h0 hlt⟩

/-! ### Subsampled Gaussian -/

lemma gaussianCtor_spec {ppf : ℝ → ℝ → ℝ} (hppf : NormalQuantile ppf) {eps : ℝ} {n : ℤ} {s q x : ℝ} {p : Pld} (he : 0 < eps) (hn : 1 ≤ n)
    (hg : OffGrid (min 1e-3 (0.1 * eps / n)) q) (h : gaussianCtor ppf eps n s q x = .ok p) :
    0 < x ∧ 0 < s ∧ 0 < q ∧ q ≤ 1 ∧ ProperPld p ∧ DominatesAll p (SampledGaussian x s q) ∧
      p.remove.infinityMass ≤ 1e-22 ∧ p.add.infinityMass ≤ 1e-22 := by
  unfold gaussianCtor at h
  rw [if_neg (by omega)] at h
  have h := total_ok h
  have hn0 : (0 : ℝ) < n := by exact_mod_cast hn
  have hd : 0 < min 1e-3 (0.1 * eps / n) := lt_min (by norm_num) (by positivity)
  obtain ⟨hσ, hs, q0, q1⟩ := gaussian_params h
  have hle : (0.5 : ℝ) * Real.exp (-50) < 1 / 2 := by
    have := exp_neg_fifty
    norm_num at this ⊢
  have hq : ppf x (0.5 * Real.exp (-50)) ≤ 0 := quantile_nonpos hppf hσ (by positivity) hle
  obtain ⟨h1, -, h3⟩ := C32_gaussian_partial h hq hd hg
  obtain ⟨i1, i2⟩ := fromGaussian_inf h hq (hppf x _ hσ (by positivity) (by linarith)).le hd
  exact ⟨hσ, hs, q0, q1, h1, h3, i1.trans exp_neg_fifty, i2.trans exp_neg_fifty⟩

lemma gaussianCtor_near {ppf : ℝ → ℝ → ℝ} (hppf : NormalQuantile ppf) {eps : ℝ} {n : ℤ} {s q x : ℝ} {p : Pld} (he : 0 < eps) (hn : 1 ≤ n)
    (h : gaussianCtor ppf eps n s q x = .ok p) :
    (0 < x ∧ 0 < q ∧ q ≤ 1) ∧ p.Valid ∧ BaseDir p.remove (closeSlack q) (SampledGaussian x s q) ∧
      BaseDir p.add (closeSlack q) (swapProp (SampledGaussian x s q)) := by
  unfold gaussianCtor at h
  rw [if_neg (by omega)] at h
  have h := total_ok h
  have hn0 : (0 : ℝ) < n := by exact_mod_cast hn
  have hd : 0 < min 1e-3 (0.1 * eps / n) := lt_min (by norm_num) (by positivity)
  obtain ⟨hσ, hs, q0, q1⟩ := gaussian_params h
  have hle : (0.5 : ℝ) * Real.exp (-50) < 1 / 2 := by
    have := exp_neg_fifty
    norm_num at this ⊢
  have hq : ppf x (0.5 * Real.exp (-50)) ≤ 0 := quantile_nonpos hppf hσ (by positivity) hle
  obtain ⟨i1, i2⟩ := fromGaussian_inf h hq (hppf x _ hσ (by positivity) (by linarith)).le hd
  exact ⟨⟨hσ, q0, q1⟩, (fromGaussian_near h hd).base (fun Ω _ P Q hC => ⟨P, Q, id, measurable_id, hC, by simp, by simp⟩)
    (fun Ω _ P Q hC ε δ => sampledGaussian_indist hσ hs q0.le q1 hC ε δ) (i1.trans exp_neg_fifty) (i2.trans exp_neg_fifty)⟩

lemma subsampled_of_base {fuel : ℕ} {nfl : ℕ → ℕ} (hnfl : ∀ k, k ≤ nfl k) {ppf : ℝ → ℝ → ℝ}
    {eps delta : ℝ} (he : 0 ≤ eps) {n : ℤ} (hn' : n ≤ 10 ^ 21) {s q σ τ : ℝ} (hτ : 0 ≤ τ)
    (hc : ∀ x p, 0 < eps → 1 ≤ n → gaussianCtor ppf eps n s q x = .ok p → (0 < x ∧ 0 < q ∧ q ≤ 1) ∧ p.Valid ∧
      BaseDir p.remove τ (SampledGaussian x s q) ∧ BaseDir p.add τ (swapProp (SampledGaussian x s q)))
    (h : smallestSubsampled fuel nfl ppf eps delta n s q = .ok (some σ)) :
    0 < σ ∧ RepeatedPrivate (SampledGaussian σ s q) n.toNat eps (delta + n * τ) ∧
      ∃ σ₁, smallestGaussian fuel eps delta n s = .ok (some σ₁) ∧ σ ≤ σ₁ := by
  unfold smallestSubsampled at h
  cases hu : smallestGaussian fuel eps delta n s with
  | error e => rw [hu] at h; simp at h
  | ok o =>
  cases o with
  | none => rw [hu] at h; simp at h
  | some u =>
  rw [hu] at h
  simp only at h
  obtain ⟨hu0, -⟩ := C28_gaussian hu
  unfold smallestGaussian at hu
  by_cases hn : n < 0
  · rw [if_pos hn] at hu; simp at hu
  rw [if_neg hn] at hu
  obtain ⟨-, e0, hi⟩ := gaussianGuarantee_found hu
  have he : 0 < eps := lt_of_le_of_ne he (Ne.symm e0)
  obtain ⟨v, h1, h2⟩ := inverseE_feasible hi
  obtain ⟨-, hs, -, -⟩ := gaussianDelta_params h1
  have e : ((n.toNat : ℕ) : ℝ) = n := by
    have : ((n.toNat : ℕ) : ℤ) = n := Int.toNat_of_nonneg (by omega)
    exact_mod_cast congrArg (Int.cast : ℤ → ℝ) this
  have hq : 0 < Real.sqrt n := by
    rcases (Real.sqrt_nonneg (n : ℝ)).lt_or_eq with h | h
    · exact h
    · rw [← h, mul_zero] at hs; exact absurd hs (lt_irrefl _)
  have hs' : 0 < s := pos_of_mul_pos_left hs hq.le
  have hn0 : 0 < n := by
    rw [Real.sqrt_pos] at hq
    exact_mod_cast hq
  rw [gaussianDelta_ok hu0 hs, Except.ok.injEq, ← e] at h1
  cases hr : smallestParameter fuel nfl eps delta n (gaussianCtor ppf eps n s q) (zeroTo u) with
  | error e => rw [hr] at h; simp [Except.map] at h
  | ok r =>
    rw [hr] at h
    simp only [Except.map, Except.ok.injEq] at h
    cases r with
    | infiniteInterval => simp [InvRes.orElse] at h
    | outOfFuel => simp [InvRes.orElse] at h
    | found x =>
      simp only [InvRes.orElse, Option.some.injEq] at h
      subst h
      obtain ⟨v, h3, -⟩ := inverseE_feasible hr
      obtain ⟨p, r, h4, -, -⟩ := deltaFor_ok h3
      obtain ⟨⟨k1, -, -⟩, -⟩ := hc _ _ he hn0 h4
      have hp : GoodParams (zeroTo u) := ⟨EReal.coe_le_coe_iff.2 hu0.le, fun g h => by simp [zeroTo] at h⟩
      refine ⟨k1, ?_, u, rfl, EReal.coe_le_coe_iff.1 (C28_parameter_feasible hr hp rfl).1.2⟩
      obtain ⟨v, h1, h2⟩ := inverseE_feasible hr
      obtain ⟨pld, r, h3, h4, rfl⟩ := deltaFor_ok h1
      obtain ⟨-, k2, k3, k4⟩ := hc _ _ he hn0 h3
      rw [← e]
      exact repeated_of_base hτ k2 k3 k4 hnfl hn' h4 h2
    | notFound =>
      simp only [InvRes.orElse, Option.some.injEq] at h
      subst h
      obtain ⟨w, hw, p, r, h4, -, -⟩ := C28_parameter_none hr
      obtain ⟨⟨-, q0, q1⟩, -⟩ := hc _ _ he hn0 h4
      have hnr : (0 : ℝ) < n := by exact_mod_cast hn0
      refine ⟨hu0, fun Ω _ P Q hA => ?_, u, rfl, le_rfl⟩
      have := sampledGaussian_sufficient hu0 hs' q0.le q1 (by omega) (h1 ▸ h2) Ω P Q hA
      exact ⟨Indist.mono this.1 (by nlinarith), Indist.mono this.2 (by nlinarith)⟩

/-- **C28, `get_smallest_subsampled_gaussian_noise`.** With Gaussian noise of the standard deviation that is returned, `n` vector queries of
`ℓ₂` sensitivity `s`, each asked of a Poisson sample of the records, are `(eps, delta)`-differentially private; and the standard deviation is
at most the one found without sampling. Missing from the full property: sampling probabilities whose `log(1 - q)` is `math.isclose` to a
multiple of the discretization interval. -/
theorem C28_subsampled_gaussian_partial {fuel : ℕ} {nfl : ℕ → ℕ} (hnfl : ∀ k, k ≤ nfl k) {ppf : ℝ → ℝ → ℝ} (hppf : NormalQuantile ppf)
    {eps delta : ℝ} (he : 0 ≤ eps) {n : ℤ} (hn' : n ≤ 10 ^ 21) {s q σ : ℝ} (hg : OffGrid (min 1e-3 (0.1 * eps / n)) q)
    (h : smallestSubsampled fuel nfl ppf eps delta n s q = .ok (some σ)) :
    0 < σ ∧ RepeatedPrivate (SampledGaussian σ s q) n.toNat eps delta ∧
      ∃ σ₁, smallestGaussian fuel eps delta n s = .ok (some σ₁) ∧ σ ≤ σ₁ := by
  have := subsampled_of_base hnfl he hn' le_rfl (fun x p he hn hx => by
    obtain ⟨k1, -, k3, k4, k5, k6, k7, k8⟩ := gaussianCtor_spec hppf he hn hg hx
    obtain ⟨d1, d2⟩ := k5.dirOk k6
    exact ⟨⟨k1, k3, k4⟩, k5.valid, d1.base le_rfl k7, d2.base le_rfl k8⟩) h
  rwa [mul_zero, add_zero] at this

/-- **C28, `get_smallest_subsampled_gaussian_noise`, every sampling probability**: the same with a delta that is larger by at most
`1e-9 |log(1 - q)|` per query. -/
theorem C28_subsampled_gaussian_near {fuel : ℕ} {nfl : ℕ → ℕ} (hnfl : ∀ k, k ≤ nfl k) {ppf : ℝ → ℝ → ℝ} (hppf : NormalQuantile ppf)
    {eps delta : ℝ} (he : 0 ≤ eps) {n : ℤ} (hn' : n ≤ 10 ^ 21) {s q σ : ℝ}
    (h : smallestSubsampled fuel nfl ppf eps delta n s q = .ok (some σ)) :
    0 < σ ∧ RepeatedPrivate (SampledGaussian σ s q) n.toNat eps (delta + n * closeSlack q) ∧
      ∃ σ₁, smallestGaussian fuel eps delta n s = .ok (some σ₁) ∧ σ ≤ σ₁ :=
  subsampled_of_base hnfl he hn' (closeSlack_nonneg q) (fun _ _ he hn hx => gaussianCtor_near hppf he hn hx) h

/-- The search for the standard deviation of subsampled queries stops and does not raise. -/
theorem C28_subsampled_gaussian_returns {ppf : ℝ → ℝ → ℝ} (hppf : NormalQuantile ppf) (nfl : ℕ → ℕ) {eps delta : ℝ} (he : 0 < eps) (hd0 : 0 < delta)
    (hd1 : delta ≤ 1) {n : ℤ} (hn : 1 ≤ n) (hn' : n ≤ 10 ^ 21) {s q : ℝ} (hs : 0 < s) (q0 : 0 < q) (q1 : q ≤ 1)
    (hg : OffGrid (min 1e-3 (0.1 * eps / n)) q) :
    ∃ σ N, ∀ fuel ≥ N, smallestSubsampled fuel nfl ppf eps delta n s q = .ok (some σ) := by
  obtain ⟨u, N, hN⟩ := C28_gaussian_finds he hd0 hd1 hn hs
  have hu : 0 < u := (C28_gaussian (hN N le_rfl)).1
  have hn0 : (0 : ℝ) < n := by exact_mod_cast hn
  have hd : 0 < min 1e-3 (0.1 * eps / n) := lt_min (by norm_num) (by positivity)
  have hle : (0.5 : ℝ) * Real.exp (-50) < 1 / 2 := by
    have := exp_neg_fifty
    norm_num at this ⊢
  obtain ⟨r, M, hr, hM⟩ := zeroTo_stops (func := deltaForParameter nfl (gaussianCtor ppf eps n s q) eps n) (value := delta) hu
    (fun x hx => by
      obtain ⟨N, hN⟩ := C32_gaussian_accepts (ppf := ppf x) (σ := x) (s := s) (q := q) (lb := -50) true true hx (by norm_num) hs q0 q1
        (quantile_nonpos hppf hx (by positivity) hle) hd hg
      obtain ⟨p, hp⟩ := hN (N + 1) (by omega)
      rw [fromGaussian_fuel] at hp
      have hc : gaussianCtor ppf eps n s q x = .ok p := by
        unfold gaussianCtor
        rw [if_neg (by omega), hp]
        rfl
      obtain ⟨-, -, -, -, k1, -, k2, k3⟩ := gaussianCtor_spec hppf he hn hg hc
      exact deltaFor_total (by omega) hn' hc k1 k2 k3)
  unfold smallestSubsampled smallestParameter
  rcases hr with rfl | ⟨x, rfl⟩
  · exact ⟨u, max N M, fun fuel hf => by
      rw [hN fuel ((le_max_left _ _).trans hf)]; simp only; rw [hM fuel ((le_max_right _ _).trans hf)]; rfl⟩
  · exact ⟨x, max N M, fun fuel hf => by
      rw [hN fuel ((le_max_left _ _).trans hf)]; simp only; rw [hM fuel ((le_max_right _ _).trans hf)]; rfl⟩

/-- Non-vacuity: 1000 queries, each of half of the records. -/
example : ∃ (ppf : ℝ → ℝ → ℝ) (fuel : ℕ) (σ : ℝ), smallestSubsampled fuel id ppf 1 1e-5 1000 2 (1 / 2) = .ok (some σ) ∧
    RepeatedPrivate (SampledGaussian σ 2 (1 / 2)) 1000 1 1e-5 ∧
    RepeatedPrivate (SampledGaussian σ 2 (1 / 2)) 1000 1 (1e-5 + (1000 : ℤ) * closeSlack (1 / 2)) := by
  obtain ⟨ppf, hppf⟩ := exists_normalQuantile
  have hg : OffGrid (min 1e-3 (0.1 * 1 / ((1000 : ℤ) : ℝ))) (1 / 2) := by
    have e : min 1e-3 (0.1 * 1 / ((1000 : ℤ) : ℝ)) = (1e-4 : ℝ) := by norm_num
    rw [e]
    exact offGrid_half
  obtain ⟨σ, N, hN⟩ := C28_subsampled_gaussian_returns hppf id (eps := 1) (delta := 1e-5) one_pos (by norm_num) (by norm_num) (n := 1000)
    (by norm_num) (by norm_num) (s := 2) (q := 1 / 2) (by norm_num) (by norm_num) (by norm_num) hg
  exact ⟨ppf, N, σ, hN N le_rfl,
    (C28_subsampled_gaussian_partial (fun k => le_rfl) hppf zero_le_one (by norm_num) hg (hN N le_rfl)).2.1,
    (C28_subsampled_gaussian_near (fun k => le_rfl) hppf zero_le_one (by norm_num) (hN N le_rfl)).2.1⟩

end Verif.Props
