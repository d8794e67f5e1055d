import Verif.Proofs.MixtureBucketsPmf

/-! # Mixtures of Gaussians: privacy buckets, facts for the concrete cases -/

namespace Verif.Mixture
open Verif Spec Pld PldPmf MeasureTheory ProbabilityTheory Mech

/-! ### The normal distribution -/

lemma gcdf_scale {σ : ℝ} (hσ : 0 < σ) (a : ℝ) : gcdf σ (σ * a) = gcdf 1 a := by
  unfold gcdf
  have e : gaussianReal 0 (Real.toNNReal (σ ^ 2)) = (gaussianReal 0 (Real.toNNReal (1 ^ 2))).map (σ * ·) := by
    rw [gaussianReal_map_const_mul, mul_zero]
    congr 1
    apply NNReal.eq
    rw [Real.coe_toNNReal _ (sq_nonneg σ), NNReal.coe_mul, Real.coe_toNNReal _ (sq_nonneg 1)]
    simp
  rw [e, map_measureReal_apply (measurable_const_mul σ) measurableSet_Iic]
  congr 1
  ext x
  simp only [Set.mem_preimage, Set.mem_Iic]
  exact mul_le_mul_iff_right₀ hσ

lemma gcdf_lower {a : ℝ} (ha : 0 ≤ a) : Real.exp (-((a + 1) ^ 2 / 2)) / 3 ≤ gcdf 1 (-a) := by
  unfold gcdf
  rw [gaussianReal_of_var_ne_zero _ (toNNReal_ne one_pos), measureReal_def, withDensity_apply _ measurableSet_Iic]
  have hv : ((Real.toNNReal (1 ^ 2) : NNReal) : ℝ) = 1 := by rw [Real.coe_toNNReal _ (sq_nonneg 1)]; norm_num
  have k : ∀ x ∈ Set.Ioc (-(a + 1)) (-a), ENNReal.ofReal (Real.exp (-((a + 1) ^ 2 / 2)) / 3) ≤ gaussianPDF 0 (Real.toNNReal (1 ^ 2)) x := by
    intro x hx
    rw [gaussianPDF, gaussianPDFReal]
    refine ENNReal.ofReal_le_ofReal ?_
    rw [hv]
    have h1 : (3 : ℝ)⁻¹ ≤ (√(2 * Real.pi * 1))⁻¹ := by
      refine inv_anti₀ (Real.sqrt_pos.2 (by positivity)) (Real.sqrt_le_iff.2 ⟨by norm_num, ?_⟩)
      have := Real.pi_le_four
      norm_num at this ⊢
      linarith
    have h2 : Real.exp (-((a + 1) ^ 2 / 2)) ≤ Real.exp (-(x - 0) ^ 2 / (2 * 1)) := by
      refine Real.exp_le_exp.2 ?_
      have : x ^ 2 ≤ (a + 1) ^ 2 := by nlinarith [hx.1, hx.2]
      rw [sub_zero, mul_one]
      linarith
    rw [div_eq_inv_mul]
    exact mul_le_mul h1 h2 (Real.exp_pos _).le (by positivity)
  have h2 : ENNReal.ofReal (Real.exp (-((a + 1) ^ 2 / 2)) / 3) ≤ ∫⁻ x in Set.Iic (-a), gaussianPDF 0 (Real.toNNReal (1 ^ 2)) x := by
    calc _ = ∫⁻ _ in Set.Ioc (-(a + 1)) (-a), ENNReal.ofReal (Real.exp (-((a + 1) ^ 2 / 2)) / 3) := by
          rw [setLIntegral_const, Real.volume_Ioc, show -a - -(a + 1) = 1 by ring, ENNReal.ofReal_one, mul_one]
      _ ≤ ∫⁻ x in Set.Ioc (-(a + 1)) (-a), gaussianPDF 0 (Real.toNNReal (1 ^ 2)) x := setLIntegral_mono (measurable_gaussianPDF _ _) k
      _ ≤ _ := lintegral_mono_set fun x hx => hx.2
  have hfin : ∫⁻ x in Set.Iic (-a), gaussianPDF 0 (Real.toNNReal (1 ^ 2)) x ≠ ⊤ := by
    have := measure_ne_top (gaussianReal 0 (Real.toNNReal (1 ^ 2))) (Set.Iic (-a))
    rwa [gaussianReal_of_var_ne_zero _ (toNNReal_ne one_pos), withDensity_apply _ measurableSet_Iic] at this
  have := ENNReal.toReal_mono hfin h2
  rwa [ENNReal.toReal_ofReal (by positivity)] at this

/-- Where the default truncation happens. -/
lemma quantile_bounds {z : ℝ} (hz : gcdf 1 z = 0.5 * Real.exp (-50)) : -10.2 ≤ z ∧ z ≤ -5 := by
  have g := gcdf_noise (σ := 1) one_pos
  constructor
  · by_contra hc
    rw [not_le] at hc
    have h1 := gcdf_tail (a := -z) (by linarith)
    rw [neg_neg, hz] at h1
    have h2 : Real.exp (-((-z) ^ 2 / 2)) ≤ Real.exp (-50) * Real.exp (-2) := by
      rw [← Real.exp_add]
      refine Real.exp_le_exp.2 ?_
      norm_num at hc
      nlinarith
    have h3 : Real.exp (-2) ≤ 1 / 3 := by
      rw [Real.exp_neg, ← one_div]
      refine one_div_le_one_div_of_le (by norm_num) ?_
      have := Real.add_one_le_exp 2
      linarith
    have h4 := Real.exp_pos (-50)
    nlinarith
  · by_contra hc
    rw [not_le] at hc
    have h1 := gcdf_lower (a := 5) (by norm_num)
    have h2 : gcdf 1 (-5) ≤ gcdf 1 z := g.mono hc.le
    rw [hz] at h2
    have h3 : Real.exp (-((5 + 1) ^ 2 / 2)) = Real.exp (-50) * Real.exp 32 := by
      rw [← Real.exp_add]; norm_num
    rw [h3] at h1
    have h4 := Real.add_one_le_exp 32
    have h5 := Real.exp_pos (-50)
    nlinarith

namespace Obj

/-! ### The loop -/

variable {cdf : EReal → ℝ} {inv : ℝ → Except Err EReal} {disc Lu ε : ℝ} {u : EReal}

lemma loop_cases {fuel : ℕ} {x : EReal} {rd : ℤ} {l : List (EReal × ℤ)}
    (hl : bucketLoop inv disc u (Lu : EReal) fuel x rd = some (.ok l)) :
    (u ≤ x ∧ l = []) ∨ (x < u ∧ ∃ x' l' fuel', l = (x', rd) :: l' ∧ bucketLoop inv disc u (Lu : EReal) fuel' x' (rd - 1) = some (.ok l') ∧
      ((disc * rd ≤ Lu ∧ x' = u) ∨ (Lu < disc * rd ∧ inv (disc * rd) = .ok x'))) := by
  cases fuel with
  | zero =>
    unfold bucketLoop at hl
    split_ifs at hl with hx
    cases (Except.ok.inj (Option.some.inj hl))
    exact .inl ⟨not_lt.1 hx, rfl⟩
  | succ fuel =>
    unfold bucketLoop at hl
    split_ifs at hl with hx hk
    · cases hrec : bucketLoop inv disc u (Lu : EReal) fuel u (rd - 1) with
      | none => simp [hrec] at hl
      | some r =>
        simp only [hrec, Option.map_some, Option.some.injEq] at hl
        cases r with
        | error e => exact absurd hl (by simp [Except.map])
        | ok l' =>
          cases (Except.ok.inj (show Except.ok ((u, rd) :: l') = Except.ok l from hl))
          exact .inr ⟨hx, u, l', fuel, rfl, hrec, .inl ⟨EReal.coe_le_coe_iff.1 hk, rfl⟩⟩
    · cases hnext : inv (disc * rd) with
      | error e => simp [hnext] at hl
      | ok x' =>
        simp only [hnext] at hl
        cases hrec : bucketLoop inv disc u (Lu : EReal) fuel x' (rd - 1) with
        | none => simp [hrec] at hl
        | some r =>
          simp only [hrec, Option.map_some, Option.some.injEq] at hl
          cases r with
          | error e => exact absurd hl (by simp [Except.map])
          | ok l' =>
            cases (Except.ok.inj (show Except.ok ((x', rd) :: l') = Except.ok l from hl))
            exact .inr ⟨hx, x', l', fuel, rfl, hrec, .inr ⟨EReal.coe_lt_coe_iff.1 (not_le.1 hk), rfl⟩⟩
    · cases (Except.ok.inj (Option.some.inj hl))
      exact .inl ⟨not_lt.1 hx, rfl⟩

/-- An upper bound on the estimate, if the distribution function is small where the losses above `ε` are said to end. -/
lemma addBuckets_le (hd : 0 < disc) (hu : Lu + disc ≤ ε) {M : ℝ}
    (hM : ∀ (k : ℤ) x', Lu < disc * k → ε < disc * (k + 1) → inv (disc * k) = .ok x' → cdf x' ≤ M) :
    ∀ (l : List (EReal × ℤ)) (fuel : ℕ) (x : EReal) (rd : ℤ) (d : PyDict),
    bucketLoop inv disc u (Lu : EReal) fuel x rd = some (.ok l) → (cdf x ≤ M ∨ hinge ε (((rd + 1 : ℤ) : ℝ) * disc) = 0) →
    expect (addBuckets cdf true x l d) (fun k => hinge ε (k * disc)) ≤
      expect d (fun k => hinge ε (k * disc)) + (M - cdf x) * hinge ε (((rd + 1 : ℤ) : ℝ) * disc) := by
  have zero : ∀ k : ℤ, disc * (k + 1) ≤ ε → hinge ε (((k + 1 : ℤ) : ℝ) * disc) = 0 := by
    intro k hk
    rw [hinge_coe]
    refine max_eq_left (sub_nonpos.2 (Real.one_le_exp (sub_nonneg.2 ?_)))
    push_cast
    linarith
  intro l
  induction l with
  | nil =>
    intro fuel x rd d _ hx
    rw [addBuckets]
    rcases hx with hx | hx
    · have := mul_nonneg (sub_nonneg.2 hx) (hinge_nonneg' ε (((rd + 1 : ℤ) : ℝ) * disc))
      linarith
    · rw [hx]; simp
  | cons a l ih =>
    intro fuel x rd d hl hx
    rcases loop_cases hl with ⟨_, h⟩ | ⟨_, x', l', fuel', h, hrec, hcase⟩
    · simp at h
    · cases h
      have hmon : hinge ε (((rd - 1 + 1 : ℤ) : ℝ) * disc) ≤ hinge ε (((rd + 1 : ℤ) : ℝ) * disc) := by
        refine hinge_mono' ε (mul_le_mul_of_nonneg_right ?_ hd.le)
        push_cast
        linarith
      have hn := hinge_nonneg' ε (((rd - 1 + 1 : ℤ) : ℝ) * disc)
      have hx' : cdf x' ≤ M ∨ hinge ε (((rd + 1 : ℤ) : ℝ) * disc) = 0 := by
        rcases hcase with ⟨h1, -⟩ | ⟨h1, h2⟩
        · exact .inr (zero rd (by linarith))
        · rcases lt_or_ge ε (disc * (rd + 1)) with h3 | h3
          · exact .inl (hM rd x' h1 h3 h2)
          · exact .inr (zero rd h3)
      have key := ih fuel' x' (rd - 1) (d.add (roundFn true ((rd : ℝ) + 0.5)) (cdf x' - cdf x)) hrec
        (hx'.imp_right fun h => le_antisymm (h ▸ hmon) hn)
      rw [addBuckets]
      refine key.trans ?_
      rw [PyDict.expect_addK, roundFn_half, if_pos rfl]
      rcases hx' with h | h
      · have := mul_le_mul_of_nonneg_left hmon (sub_nonneg.2 h)
        linarith
      · have h0 : hinge ε (((rd - 1 + 1 : ℤ) : ℝ) * disc) = 0 := le_antisymm (h ▸ hmon) hn
        rw [h, h0]
        simp

/-- The masses of increasing end points are nonnegative. -/
lemma addBuckets_ge (hmono : Monotone cdf)
    (hinv : ∀ (k k' : ℤ) x x', k' ≤ k → Lu < disc * k → Lu < disc * k' → inv (disc * k) = .ok x → inv (disc * k') = .ok x' → x ≤ x') :
    ∀ (l : List (EReal × ℤ)) (fuel : ℕ) (x : EReal) (rd : ℤ) (d : PyDict),
    bucketLoop inv disc u (Lu : EReal) fuel x rd = some (.ok l) →
    (∀ (k' : ℤ) x', k' ≤ rd → Lu < disc * k' → inv (disc * k') = .ok x' → x ≤ x') →
    expect d (fun k => hinge ε (k * disc)) ≤ expect (addBuckets cdf false x l d) (fun k => hinge ε (k * disc)) := by
  intro l
  induction l with
  | nil => intro fuel x rd d _ _; rw [addBuckets]
  | cons a l ih =>
    intro fuel x rd d hl hx
    rcases loop_cases hl with ⟨_, h⟩ | ⟨hxu, x', l', fuel', h, hrec, hcase⟩
    · simp at h
    · cases h
      have hxx : x ≤ x' := by
        rcases hcase with ⟨-, h2⟩ | ⟨h1, h2⟩
        · rw [h2]; exact hxu.le
        · exact hx rd x' le_rfl h1 h2
      rw [addBuckets]
      have hstep : expect d (fun k => hinge ε (k * disc)) ≤
          expect (d.add (roundFn false ((rd : ℝ) + 0.5)) (cdf x' - cdf x)) (fun k => hinge ε (k * disc)) := by
        rw [PyDict.expect_addK, roundFn_half, if_neg (by simp)]
        have := mul_nonneg (sub_nonneg.2 (hmono hxx)) (hinge_nonneg' ε ((rd : ℝ) * disc))
        linarith
      rcases hcase with ⟨-, h2⟩ | ⟨h1, h2⟩
      · have : l = [] := by
          rcases loop_cases hrec with ⟨_, h⟩ | ⟨h, -⟩
          · exact h
          · rw [h2] at h; exact absurd h (lt_irrefl u)
        rw [this, addBuckets]
        exact hstep
      · exact hstep.trans (ih fuel' x' (rd - 1) _ hrec fun k' y hk hk' hy => hinv rd k' x' y (by omega) h1 hk' h2 hy)

/-- The loop stops at a loss that cannot be inverted. -/
lemma loop_raises {e : Err} {k0 : ℤ} (hk0 : Lu < disc * k0) (he : inv (disc * k0) = .error e) (hd : 0 < disc)
    (hinv : ∀ k : ℤ, k0 < k → ∃ x, inv (disc * k) = .ok x ∧ x < u) :
    ∀ (n : ℕ) (fuel : ℕ) (x : EReal) (rd : ℤ), n < fuel → x < u → rd = k0 + n →
      bucketLoop inv disc u (Lu : EReal) fuel x rd = some (.error e) := by
  intro n
  induction n with
  | zero =>
    intro fuel x rd hf hx hrd
    obtain ⟨fuel, rfl⟩ : ∃ f, fuel = f + 1 := ⟨fuel - 1, by omega⟩
    obtain rfl : rd = k0 := by simpa using hrd
    unfold bucketLoop
    rw [if_pos hx]
    have : ¬ ((disc * (rd : ℝ) : ℝ) : EReal) ≤ (Lu : EReal) := not_le.2 (EReal.coe_lt_coe_iff.2 hk0)
    simp only [if_neg this, he]
  | succ n ih =>
    intro fuel x rd hf hx hrd
    obtain ⟨fuel, rfl⟩ : ∃ f, fuel = f + 1 := ⟨fuel - 1, by omega⟩
    have hlt : k0 < rd := by push_cast at hrd; omega
    obtain ⟨x', h1, h2⟩ := hinv rd hlt
    have h3 := ih fuel x' (rd - 1) (by omega) h2 (by push_cast at hrd; omega)
    unfold bucketLoop
    rw [if_pos hx]
    have : ¬ ((disc * (rd : ℝ) : ℝ) : EReal) ≤ (Lu : EReal) := not_le.2 (EReal.coe_lt_coe_iff.2 (hk0.trans_le
      (mul_le_mul_of_nonneg_left (by exact_mod_cast hlt.le) hd.le)))
    simp only [if_neg this, h1, h3]
    rfl

lemma truncation_add {m : Obj} (hadj : m.adj = .add) (fuel : ℕ) (ppf : ℝ → ℝ) : m.truncation fuel ppf =
    some (.ok (ppf (0.5 * Real.exp m.logBound), -ppf (0.5 * Real.exp m.logBound))) := by
  unfold truncation
  simp only [hadj]

end Obj
end Verif.Mixture
