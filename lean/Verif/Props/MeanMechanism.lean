import Verif.Proofs.MeanMechanism

/-!
# The mean mechanism (C71)
-/

namespace Verif.Props
open MeasureTheory ProbabilityTheory Verif.Spec Verif.MeanMech

/-- C71: with both counts noised and a range that contains zero, adding or removing a record is hidden with the configured `epsilon` and
`delta`, except for the probability `e^(-epsilon n / 2) / 2` that the noisy count of the first data set, of `n` records, is not positive.
The Gaussian version needs `epsilon ≤ 2`. Missing: the probability of a noisy count that is not positive should not be there; see
`C71_negative_count_violated`. -/
theorem C71_add_remove_partial {c : MeanConfig} (h1 : c.noisedMean = true) (h2 : c.noisedScale = true) (he : 0 < c.epsilon)
    (hd : c.delta = 0 ∨ 0 < c.delta ∧ c.delta < 1 ∧ c.epsilon ≤ 2) (hlo : c.minValue ≤ 0) (hhi : 0 ≤ c.maxValue)
    {a b : List ℝ} (hab : OneMore a b) {n : ℕ} (s : Fin n) {S : Set ℝ} (hS : MeasurableSet S) :
    meanProb c a n s S ≤ Real.exp c.epsilon * meanProb c b n s S + (c.delta + 0.5 * Real.exp (-(c.epsilon * a.length / 2))) ∧
    meanProb c b n s S ≤ Real.exp c.epsilon * meanProb c a n s S + (c.delta + 0.5 * Real.exp (-(c.epsilon * b.length / 2))) := by
  have hh : Hides c := by
    rcases hd with hd | ⟨hd, hd1, he2⟩
    · exact hides_laplace hd
    · exact hides_gaussian he he2 hd hd1
  have hd0 : 0 ≤ c.delta := by rcases hd with hd | hd <;> linarith
  have hd1 : c.delta < 1 := by rcases hd with hd | hd <;> linarith
  obtain ⟨l, r, x⟩ := hab
  have e1 : ((1 : ℝ) + 1) / 2 * c.epsilon = c.epsilon := by ring
  have hl : |((l ++ r).length : ℝ) - (l ++ x :: r).length| ≤ 1 := by
    simp only [List.length_append, List.length_cons]
    push_cast
    rw [show (l.length : ℝ) + r.length - (l.length + (r.length + 1)) = -1 by ring]
    norm_num
  have hs : |clipSum c (l ++ r) - clipSum c (l ++ x :: r)| ≤ |c.maxValue - c.minValue| := by
    rw [clipSum_insert, sub_add_cancel_left, abs_neg]
    exact clip_abs hlo hhi x
  constructor
  · have := close_le h1 h2 hh he hd0 hd1 hl hs s hS
    rwa [e1] at this
  · rw [abs_sub_comm] at hl hs
    have := close_le h1 h2 hh he hd0 hd1 hl hs s hS
    rwa [e1] at this

/-- C71: with both counts noised, replacing a record is hidden with half the configured `epsilon`, with the configured `delta` and the
probability that the noisy count is not positive, whatever the range. Missing: see `C71_add_remove_partial`. -/
theorem C71_replace_partial {c : MeanConfig} (h1 : c.noisedMean = true) (h2 : c.noisedScale = true) (he : 0 < c.epsilon)
    (hd : c.delta = 0 ∨ 0 < c.delta ∧ c.delta < 1 ∧ c.epsilon ≤ 2) (hlo : c.minValue ≤ c.maxValue)
    (l r : List ℝ) (x y : ℝ) {n : ℕ} (s : Fin n) {S : Set ℝ} (hS : MeasurableSet S) :
    meanProb c (l ++ x :: r) n s S ≤ Real.exp (c.epsilon / 2) * meanProb c (l ++ y :: r) n s S +
      (c.delta + 0.5 * Real.exp (-(c.epsilon * (l ++ x :: r).length / 2))) := by
  have hh : Hides c := by
    rcases hd with hd | ⟨hd, hd1, he2⟩
    · exact hides_laplace hd
    · exact hides_gaussian he he2 hd hd1
  have hd0 : 0 ≤ c.delta := by rcases hd with hd | hd <;> linarith
  have hd1 : c.delta < 1 := by rcases hd with hd | hd <;> linarith
  have hl : |((l ++ x :: r).length : ℝ) - (l ++ y :: r).length| ≤ 0 := by
    simp only [List.length_append, List.length_cons, sub_self, abs_zero, le_refl]
  have hs : |clipSum c (l ++ x :: r) - clipSum c (l ++ y :: r)| ≤ |c.maxValue - c.minValue| := by
    rw [clipSum_insert, clipSum_insert, add_sub_add_left_eq_sub]
    exact clip_sub hlo x y
  have := close_le h1 h2 hh he hd0 hd1 hl hs s hS
  rwa [show ((0 : ℝ) + 1) / 2 * c.epsilon = c.epsilon / 2 by ring] at this

/-- A hundred records, `epsilon` one: the default private configuration hides an additional record up to a `delta` of about `10^(-22)`. -/
example (data : List ℝ) (hlen : data.length = 100) (x : ℝ) (S : Set ℝ) (hS : MeasurableSet S) :
    ∃ c, defaultConfig "private_mean" 1 = some c ∧
      meanProb c data 1 0 S ≤ Real.exp 1 * meanProb c (x :: data) 1 0 S + 0.5 * Real.exp (-50) := by
  refine ⟨_, rfl, ?_⟩
  have h := (C71_add_remove_partial (c := ⟨1, 0.0, true, true, 1.0, 0.0⟩) rfl rfl one_pos (Or.inl (by norm_num)) (by norm_num) (by norm_num)
    (OneMore.mk [] data x) (n := 1) 0 hS).1
  simp only [List.nil_append, hlen] at h
  norm_num at h ⊢
  exact h

/-- C71, negation: the default private configuration with `epsilon` one is not `(1, 0.3)`-private, and not `1`-private, when a record
one is added to the data set with a single record zero: a negative noisy count makes the noise of the mean vanish. -/
theorem C71_negative_count_violated {n : ℕ} (s : Fin n) : ∃ c S, defaultConfig "private_mean" 1 = some c ∧ MeasurableSet S ∧
    Real.exp 1 * meanProb c [0, 1] n s S + 0.3 < meanProb c [0] n s S := by
  refine ⟨_, Set.Icc (-1e-11) 1e-11, rfl, measurableSet_Icc, ?_⟩
  have hpl := laplace_prob 0 one_pos
  have hν : meanNoise 0.0 = laplace 0 1 := by unfold meanNoise; rw [if_pos (by norm_num)]
  rw [meanProb_eq (by norm_num) _ s measurableSet_Icc, meanProb_eq (by norm_num) _ s measurableSet_Icc]
  set c : MeanConfig := ⟨1, 0.0, true, true, 1.0, 0.0⟩ with hc
  have hF : noiseFactor c = 1 := by unfold noiseFactor; rw [if_pos (by norm_num [hc])]; norm_num
  have hrel : ∀ a k v, release c a k v = a / k + max 1e-12 (2 / k) * v := by
    intro a k v
    unfold release
    rw [hF]
    norm_num [zeroTolerance, hc]
  have hs0 : clipSum c [0] = 0 := by norm_num [clipSum, hc]
  have hs1 : clipSum c [0, 1] = 1 := by norm_num [clipSum, hc]
  change Real.exp 1 * ((laplace 0 1).prod (meanNoise 0.0)).real _ + 0.3 < ((laplace 0 1).prod (meanNoise 0.0)).real _
  rw [hν]
  -- the additional record
  have hup : ((laplace 0 1).prod (laplace 0 1)).real ((fun d : ℝ × ℝ => sample c [0, 1] d.1 d.2) ⁻¹' Set.Icc (-1e-11) 1e-11) ≤ 1e-4 := by
    have hsub : (fun d : ℝ × ℝ => sample c [0, 1] d.1 d.2) ⁻¹' Set.Icc (-1e-11) 1e-11 ⊆
        (({d | d.1 ∈ Set.Iic (-20)} ∪ {d | d.1 ∈ Set.Icc (-1) (-1)}) ∪ {d | d.1 ∈ Set.Ioi 18}) ∪ ({d | d.2 ∈ Set.Ioi 18} ∪ {d | d.2 ∈ Set.Icc (-1 / 2 - 1e-9) (-1 / 2 + 1e-9)}) := by
      rintro ⟨u, v⟩ hd
      rw [Set.mem_preimage, sample_noised rfl rfl, hs1, hrel] at hd
      simp only [List.length_cons, List.length_nil, hc] at hd
      norm_num only at hd
      by_contra hcon
      simp only [Set.mem_union, Set.mem_ofPred_eq, Set.mem_Iic, Set.mem_Ioi, Set.mem_Icc, not_or, not_le, not_lt, not_and_or] at hcon
      obtain ⟨⟨⟨h1, h0⟩, h2⟩, h3, h4⟩ := hcon
      have hk : ∀ k : ℝ, k = 2 + 2 * u → k ≠ 0 → |k| ≤ 38 → False := by
        intro k hk hk0 hk1
        rw [← hk, Set.mem_Icc] at hd
        obtain ⟨hd1, hd2⟩ := hd
        rw [abs_le] at hk1
        rcases lt_or_gt_of_ne hk0 with hneg | hpos
        · have h5 : max (1 / 1000000000000) (2 / k) = 1 / 1000000000000 := max_eq_left (by
            have : 2 / k < 0 := div_neg_of_pos_of_neg two_pos hneg
            linarith)
          have h6 : 1 / k ≤ -1 / 38 := by
            rw [div_le_iff_of_neg hneg]
            linarith
          rw [h5] at hd1
          linarith
        · have h5 : max (1 / 1000000000000) (2 / k) = 2 / k := max_eq_right (by
            rw [div_le_div_iff₀ (by norm_num) hpos]
            linarith)
          rw [h5] at hd1 hd2
          have h6 : 1 / k + 2 / k * v = (1 + 2 * v) / k := by field_simp
          rw [h6] at hd1 hd2
          rw [div_le_iff₀ hpos] at hd2
          rw [le_div_iff₀ hpos] at hd1
          rcases h4 with h4 | h4 <;> linarith
      refine hk _ rfl (fun h => ?_) (abs_le.2 ⟨by linarith, by linarith⟩)
      rcases h0 with h0 | h0 <;> linarith
    have h12 := (measureReal_mono hsub (measure_ne_top ((laplace 0 1).prod (laplace 0 1)) _)).trans ((measureReal_union_le _ _).trans
      (add_le_add ((measureReal_union_le _ _).trans (add_le_add_left (measureReal_union_le _ _) _)) (measureReal_union_le _ _)))
    rw [prod_fst, prod_fst, prod_fst, prod_snd, prod_snd, Mech.laplace_Iic one_pos (by norm_num), laplace_Ioi (by norm_num)] at h12
    have h3 := laplace_Icc_le (a := -1 / 2 - 1e-9) (b := -1 / 2 + 1e-9) (by norm_num)
    have h4 : Real.exp (-18) ≤ 1e-5 := by
      rw [Real.exp_neg, inv_le_comm₀ (Real.exp_pos _) (by norm_num)]
      have : Real.exp 18 = Real.exp 1 ^ 18 := by rw [← Real.exp_nat_mul]; norm_num
      rw [this]
      refine le_trans ?_ (pow_le_pow_left₀ (by norm_num) Real.exp_one_gt_d9.le 18)
      norm_num
    have h5 : Real.exp (-20 / 1) ≤ Real.exp (-18) := Real.exp_le_exp.2 (by norm_num)
    have h6 := laplace_Icc_le (a := -1) (b := -1) le_rfl
    have h7 : 0.5 * Real.exp (-20 / 1) ≤ 0.5 * Real.exp (-18) := by linarith
    refine h12.trans (le_trans (add_le_add (add_le_add (add_le_add h7 h6) le_rfl) (add_le_add le_rfl h3)) ?_)
    norm_num at h4 ⊢
    linarith
  have hlow : 0.302 ≤ ((laplace 0 1).prod (laplace 0 1)).real ((fun d : ℝ × ℝ => sample c [0] d.1 d.2) ⁻¹' Set.Icc (-1e-11) 1e-11) := by
    have hsub : Set.Iic (-1 / 2) ×ˢ Set.Icc (-10) 10 ⊆ (fun d : ℝ × ℝ => sample c [0] d.1 d.2) ⁻¹' Set.Icc (-1e-11) 1e-11 := by
      rintro ⟨u, v⟩ ⟨hu, hv⟩
      simp only [Set.mem_Iic, Set.mem_Icc] at hu hv
      rw [Set.mem_preimage, sample_noised rfl rfl, hs0, hrel, zero_div, zero_add]
      have h5 : max 1e-12 (2 / (([0] : List ℝ).length + 2 / c.epsilon * u)) = 1e-12 := max_eq_left (by
        have : 2 / (([0] : List ℝ).length + 2 / c.epsilon * u) ≤ 0 := div_nonpos_of_nonneg_of_nonpos two_pos.le (by
          simp only [List.length_cons, List.length_nil, hc]
          norm_num
          linarith)
        norm_num at this ⊢
        linarith)
      rw [h5, Set.mem_Icc]
      norm_num
      constructor <;> linarith
    refine le_trans ?_ (measureReal_mono hsub)
    rw [measureReal_prod_prod, Mech.laplace_Iic one_pos (by norm_num), div_one]
    have h1 : 0.9999 ≤ (laplace 0 1).real (Set.Icc (-10) 10) := by
      have h2 := probReal_compl_eq_one_sub (μ := laplace 0 1) (measurableSet_Icc (a := -10) (b := 10))
      have h3 : (Set.Icc (-10 : ℝ) 10)ᶜ ⊆ Set.Iic (-10) ∪ Set.Ioi 10 := by
        intro x hx
        rw [Set.mem_compl_iff, Set.mem_Icc, not_and_or, not_le, not_le] at hx
        exact hx.imp (fun h => h.le) id
      have h4 := (measureReal_mono h3 (measure_ne_top (laplace 0 1) _)).trans (measureReal_union_le _ _)
      rw [Mech.laplace_Iic one_pos (by norm_num), laplace_Ioi (by norm_num), h2, div_one] at h4
      have h5 : Real.exp (-10) ≤ 1e-4 := by
        rw [Real.exp_neg, inv_le_comm₀ (Real.exp_pos _) (by norm_num)]
        have : Real.exp 10 = Real.exp 1 ^ 10 := by rw [← Real.exp_nat_mul]; norm_num
        rw [this]
        refine le_trans ?_ (pow_le_pow_left₀ (by norm_num) Real.exp_one_gt_d9.le 10)
        norm_num
      norm_num at h4 h5 ⊢
      linarith
    have h2 : 0.606 ≤ Real.exp (-1 / 2) := by
      refine le_of_sq_le_sq ?_ (Real.exp_pos _).le
      rw [← Real.exp_nat_mul, show ((2 : ℕ) : ℝ) * (-1 / 2) = -1 by norm_num, Real.exp_neg, le_inv_comm₀ (by norm_num) (Real.exp_pos _)]
      refine Real.exp_one_lt_d9.le.trans ?_
      norm_num
    have h3 := mul_le_mul (mul_le_mul_of_nonneg_left h2 (by norm_num : (0 : ℝ) ≤ 0.5)) h1 (by norm_num) (by positivity)
    refine le_trans ?_ h3
    norm_num
  have he := Real.exp_one_lt_d9
  have h1 := mul_le_mul he.le hup measureReal_nonneg (by norm_num)
  refine lt_of_lt_of_le (lt_of_le_of_lt (add_le_add_left h1 _) ?_) hlow
  norm_num

/-- C71, negation: the Gaussian version is not private for a large `epsilon`. With `epsilon` ten thousand and `delta` `10^(-5)`, a record
one among eleven is detected with a probability above 0.4. -/
theorem C71_large_epsilon_violated {n : ℕ} (s : Fin n) : ∃ c S, defaultConfig "private_mean" 10000 0.00001 = some c ∧ MeasurableSet S ∧
    Real.exp c.epsilon * meanProb c (List.replicate 10 0) n s S + 0.4 < meanProb c (1 :: List.replicate 10 0) n s S := by
  refine ⟨_, Set.Ioi (1 / 22), rfl, measurableSet_Ioi, ?_⟩
  have hpl := laplace_prob 0 one_pos
  rw [meanProb_eq (by norm_num) _ s measurableSet_Ioi, meanProb_eq (by norm_num) _ s measurableSet_Ioi]
  set c : MeanConfig := ⟨10000, 0.00001, true, true, 1.0, 0.0⟩ with hc
  have hν : meanNoise c.delta = gaussianReal 0 1 := by unfold meanNoise; rw [if_neg (by norm_num [hc])]
  have hF : noiseFactor c ≤ 5 := by
    unfold noiseFactor
    rw [if_neg (by norm_num [hc]), Real.sqrt_le_left (by norm_num)]
    have h1 : Real.log (1.25 / c.delta) ≤ 12 := by
      rw [Real.log_le_iff_le_exp (by norm_num [hc])]
      have : Real.exp 12 = Real.exp 1 ^ 12 := by rw [← Real.exp_nat_mul]; norm_num
      rw [this]
      refine le_trans ?_ (pow_le_pow_left₀ (by norm_num) Real.exp_one_gt_d9.le 12)
      norm_num [hc]
    norm_num at h1 ⊢
    linarith
  have ha : |c.maxValue - c.minValue| = 1 := by norm_num [hc]
  have hε : c.epsilon = 10000 := rfl
  have hs0 : clipSum c (List.replicate 10 0) = 0 := by norm_num [clipSum, hc]
  have hs1 : clipSum c (1 :: List.replicate 10 0) = 1 := by norm_num [clipSum, hc]
  rw [hν]
  have hlen0 : ∀ u : ℝ, ((List.replicate 10 (0 : ℝ)).length : ℝ) + 2 / c.epsilon * u = 10 + u / 5000 := by
    intro u
    rw [List.length_replicate]
    norm_num [hc]
    ring
  have hlen1 : ∀ u : ℝ, ((1 :: List.replicate 10 (0 : ℝ)).length : ℝ) + 2 / c.epsilon * u = 11 + u / 5000 := by
    intro u
    rw [List.length_cons, List.length_replicate]
    norm_num [hc]
    ring
  have hup : ((laplace 0 1).prod (gaussianReal 0 1)).real ((fun d : ℝ × ℝ => sample c (List.replicate 10 0) d.1 d.2) ⁻¹' Set.Ioi (1 / 22)) ≤
      Real.exp (-20000) := by
    have hsub : (fun d : ℝ × ℝ => sample c (List.replicate 10 0) d.1 d.2) ⁻¹' Set.Ioi (1 / 22) ⊆
        {d | d.1 ∈ Set.Iic (-25000)} ∪ {d | d.2 ∈ Set.Ioi 220} := by
      rintro ⟨u, v⟩ hd
      rw [Set.mem_preimage, sample_noised rfl rfl, hs0, hlen0, Set.mem_Ioi] at hd
      by_contra hcon
      simp only [Set.mem_union, Set.mem_ofPred_eq, Set.mem_Iic, Set.mem_Ioi, not_or, not_le, not_lt] at hcon
      obtain ⟨h1, h2⟩ := hcon
      have hk : 5 < 10 + u / 5000 := by linarith
      unfold release at hd
      rw [zero_div, zero_add] at hd
      have hσ : max zeroTolerance (noiseFactor c * |c.maxValue - c.minValue| / 0.5 / c.epsilon / (10 + u / 5000)) ≤ 2e-4 := by
        refine max_le (by norm_num [zeroTolerance]) ?_
        rw [ha, hε, div_le_iff₀ (by linarith)]
        norm_num
        linarith
      have h3 : 0 ≤ max zeroTolerance (noiseFactor c * |c.maxValue - c.minValue| / 0.5 / c.epsilon / (10 + u / 5000)) :=
        le_trans (by norm_num [zeroTolerance]) (le_max_left _ _)
      simp only at hd
      rcases le_total v 0 with hv | hv
      · have := mul_nonpos_of_nonneg_of_nonpos h3 hv
        linarith
      · have h5 := hd.trans_le (mul_le_mul hσ h2 hv (by norm_num))
        norm_num at h5
    have h12 := (measureReal_mono hsub (measure_ne_top ((laplace 0 1).prod (gaussianReal 0 1)) _)).trans (measureReal_union_le _ _)
    rw [prod_fst, prod_snd, Mech.laplace_Iic one_pos (by norm_num)] at h12
    have h3 := ClassicalGaussian.tail (t := 220) (by norm_num)
    have h4 : Real.exp (-25000 / 1) ≤ Real.exp (-20000) := Real.exp_le_exp.2 (by norm_num)
    have h5 : Real.exp (-(220 ^ 2 / 2)) ≤ Real.exp (-20000) := Real.exp_le_exp.2 (by norm_num)
    refine h12.trans ?_
    have h6 : 0.5 * Real.exp (-25000 / 1) ≤ 0.5 * Real.exp (-20000) := mul_le_mul_of_nonneg_left h4 (by norm_num)
    refine (add_le_add h6 (h3.trans (mul_le_mul_of_nonneg_left h5 (by norm_num)))).trans (le_of_eq ?_)
    ring
  have hlow : 0.45 ≤ ((laplace 0 1).prod (gaussianReal 0 1)).real
      ((fun d : ℝ × ℝ => sample c (1 :: List.replicate 10 0) d.1 d.2) ⁻¹' Set.Ioi (1 / 22)) := by
    have hsub : Set.Ioo (-10) 10 ×ˢ (Set.Iic 0)ᶜ ⊆ (fun d : ℝ × ℝ => sample c (1 :: List.replicate 10 0) d.1 d.2) ⁻¹' Set.Ioi (1 / 22) := by
      rintro ⟨u, v⟩ ⟨hu, hv⟩
      simp only [Set.mem_Ioo, Set.mem_compl_iff, Set.mem_Iic, not_le] at hu hv
      rw [Set.mem_preimage, sample_noised rfl rfl, hs1, hlen1, Set.mem_Ioi]
      unfold release
      have h1 : 1 / 22 < 1 / (11 + u / 5000) := one_div_lt_one_div_of_lt (by linarith) (by linarith)
      have h3 : 0 ≤ max zeroTolerance (noiseFactor c * |c.maxValue - c.minValue| / 0.5 / c.epsilon / (11 + u / 5000)) :=
        le_trans (by norm_num [zeroTolerance]) (le_max_left _ _)
      have := mul_nonneg h3 hv.le
      linarith
    refine le_trans ?_ (measureReal_mono hsub)
    rw [measureReal_prod_prod]
    have h1 : 0.99 ≤ (laplace 0 1).real (Set.Ioo (-10) 10) := by
      have h2 := probReal_compl_eq_one_sub (μ := laplace 0 1) (measurableSet_Ioo (a := -10) (b := 10))
      have h3 : (Set.Ioo (-10 : ℝ) 10)ᶜ ⊆ Set.Iic (-10) ∪ Set.Ioi 9 := by
        intro x hx
        rw [Set.mem_compl_iff, Set.mem_Ioo, not_and_or, not_lt, not_lt] at hx
        exact hx.imp id (fun h => lt_of_lt_of_le (by norm_num) h)
      have h4 := (measureReal_mono h3 (measure_ne_top (laplace 0 1) _)).trans (measureReal_union_le _ _)
      rw [Mech.laplace_Iic one_pos (by norm_num), laplace_Ioi (by norm_num), h2, div_one] at h4
      have h5 : Real.exp (-9) ≤ 1e-3 := by
        rw [Real.exp_neg, inv_le_comm₀ (Real.exp_pos _) (by norm_num)]
        have : Real.exp 9 = Real.exp 1 ^ 9 := by rw [← Real.exp_nat_mul]; norm_num
        rw [this]
        refine le_trans ?_ (pow_le_pow_left₀ (by norm_num) Real.exp_one_gt_d9.le 9)
        norm_num
      have h6 : Real.exp (-10) ≤ Real.exp (-9) := Real.exp_le_exp.2 (by norm_num)
      have h7 : (0.5 : ℝ) * Real.exp (-10) ≤ 0.5 * Real.exp (-9) := mul_le_mul_of_nonneg_left h6 (by norm_num)
      have h8 := h4.trans (add_le_add_left h7 _)
      norm_num at h5 h8 ⊢
      linarith
    have h2 : 1 / 2 ≤ (gaussianReal 0 1).real (Set.Iic 0)ᶜ := ClassicalGaussian.compl_Iic_zero
    have h3 := mul_le_mul h1 h2 (by norm_num) (by positivity)
    refine le_trans ?_ h3
    norm_num
  have h1 : Real.exp c.epsilon * Real.exp (-20000) ≤ 0.01 := by
    rw [← Real.exp_add, show c.epsilon + -20000 = -10000 by norm_num [hc]]
    rw [Real.exp_neg, inv_le_comm₀ (Real.exp_pos _) (by norm_num)]
    refine le_trans ?_ (Real.add_one_le_exp _)
    norm_num
  have h2 := (mul_le_mul_of_nonneg_left hup (Real.exp_pos c.epsilon).le).trans h1
  refine lt_of_lt_of_le (lt_of_le_of_lt (add_le_add_left h2 _) ?_) hlow
  norm_num

/-- C71: the documented need for noised counts is real: with exact counts, no `epsilon'` bounds what the removal of a record reveals. -/
theorem C71_exact_counts {e : ℝ} (he : 0 < e) (he1 : e ≤ 1e11) (e' : ℝ) {n : ℕ} (s : Fin n) : ∃ c S,
    defaultConfig "non_private_mean_v1" e = some c ∧ MeasurableSet S ∧ Real.exp e' * meanProb c [1, 0] n s S < meanProb c [1] n s S := by
  have hT : 0 ≤ (|e'| + 1) / e := by positivity
  refine ⟨_, Set.Ioi (1 + (|e'| + 1) / e), rfl, measurableSet_Ioi, ?_⟩
  have hpl := laplace_prob 0 one_pos
  rw [meanProb_eq he _ s measurableSet_Ioi, meanProb_eq he _ s measurableSet_Ioi]
  set c : MeanConfig := ⟨e, 0.0, false, false, 1.0, 0.0⟩ with hc
  have hν : meanNoise c.delta = laplace 0 1 := by unfold meanNoise; rw [if_pos (by norm_num [hc])]
  have hF : noiseFactor c = 1 := by unfold noiseFactor; rw [if_pos (by norm_num [hc])]; norm_num
  have hε : c.epsilon = e := rfl
  have hs1 : clipSum c [1] = 1 := by norm_num [clipSum, hc]
  have hs2 : clipSum c [1, 0] = 1 := by norm_num [clipSum, hc]
  have ha : |c.maxValue - c.minValue| = 1 := by norm_num [hc]
  have h1 : ∀ u v, sample c [1] u v = 1 + 1 / e * v := by
    intro u v
    have hm : max zeroTolerance (1 / e) = 1 / e := max_eq_right (by
      unfold zeroTolerance
      rw [le_div_iff₀ he]
      norm_num at he1 ⊢
      linarith)
    rw [sample_exact rfl rfl, hs1, hF, ha, hε, ← hm]
    norm_num
  have h2 : ∀ u v, sample c [1, 0] u v = 1 / 2 + 1 / (2 * e) * v := by
    intro u v
    have hm : max zeroTolerance (1 / (2 * e)) = 1 / (2 * e) := max_eq_right (by
      unfold zeroTolerance
      rw [le_div_iff₀ (by linarith)]
      norm_num at he1 ⊢
      linarith)
    rw [sample_exact rfl rfl, hs2, hF, ha, hε, ← hm, show (1 : ℝ) / (2 * e) = 1 * 1 / e / 2 by field_simp]
    norm_num
  have e1 : (fun d : ℝ × ℝ => sample c [1] d.1 d.2) ⁻¹' Set.Ioi (1 + (|e'| + 1) / e) = {d | d.2 ∈ Set.Ioi (|e'| + 1)} := by
    ext d
    simp only [Set.mem_preimage, h1, Set.mem_Ioi, Set.mem_ofPred_eq, add_lt_add_iff_left]
    rw [one_div, ← div_eq_inv_mul, div_lt_div_iff_of_pos_right he]
  have e2 : (fun d : ℝ × ℝ => sample c [1, 0] d.1 d.2) ⁻¹' Set.Ioi (1 + (|e'| + 1) / e) = {d | d.2 ∈ Set.Ioi (e + 2 * (|e'| + 1))} := by
    ext d
    simp only [Set.mem_preimage, h2, Set.mem_Ioi, Set.mem_ofPred_eq]
    have h3 : 1 + (|e'| + 1) / e = 1 / 2 + 1 / (2 * e) * (e + 2 * (|e'| + 1)) := by field_simp; ring
    rw [h3, add_lt_add_iff_left]
    exact mul_lt_mul_iff_right₀ (by positivity)
  rw [e1, e2, hν, prod_snd, prod_snd, laplace_Ioi (by positivity), laplace_Ioi (by positivity), mul_left_comm, ← Real.exp_add]
  refine mul_lt_mul_of_pos_left (Real.exp_lt_exp.2 ?_) (by norm_num)
  have := le_abs_self e'
  linarith

/-- C71: a call fails exactly when `epsilon` is not positive. -/
theorem C71_call (c : MeanConfig) (data : List ℝ) (n : ℕ) (draws : Fin n → ℝ × ℝ) :
    (∃ out, MeanMech.call c data n draws = .ok out) ↔ 0 < c.epsilon := by
  constructor
  · rintro ⟨out, h⟩
    unfold MeanMech.call at h
    by_contra hc
    split_ifs at h with h1 h2
    refine h2 (div_neg_of_pos_of_neg (div_pos (by norm_num) (budgetScale_pos c)) (lt_of_le_of_ne (not_lt.1 hc) h1))
  · intro h
    exact ⟨_, call_eq h data n draws⟩

/-- C71: a record outside of the range counts as the nearest end of the range. -/
theorem C71_clipped {c : MeanConfig} (hc : c.minValue ≤ c.maxValue) (l r : List ℝ) {x : ℝ} (n : ℕ) (draws : Fin n → ℝ × ℝ) :
    (c.maxValue ≤ x → MeanMech.call c (l ++ x :: r) n draws = MeanMech.call c (l ++ c.maxValue :: r) n draws) ∧
    (x ≤ c.minValue → MeanMech.call c (l ++ x :: r) n draws = MeanMech.call c (l ++ c.minValue :: r) n draws) := by
  have key : ∀ y, min (max x c.minValue) c.maxValue = min (max y c.minValue) c.maxValue →
      MeanMech.call c (l ++ x :: r) n draws = MeanMech.call c (l ++ y :: r) n draws := by
    intro y hy
    unfold MeanMech.call sample
    simp only [List.map_append, List.map_cons, hy]
  constructor
  · intro h
    refine key _ ?_
    rw [max_eq_left (hc.trans h), min_eq_right h, max_eq_left hc, min_self]
  · intro h
    refine key _ ?_
    rw [max_eq_right h, max_self]

/-- Two samples of a configuration with a range from zero to ten: the record twenty counts as ten. -/
example (draws : Fin 2 → ℝ × ℝ) : (∃ out, MeanMech.call ⟨1, 0, true, true, 10, 0⟩ [3, 20] 2 draws = .ok out) ∧
    MeanMech.call ⟨1, 0, true, true, 10, 0⟩ [3, 20] 2 draws = MeanMech.call ⟨1, 0, true, true, 10, 0⟩ [3, 10] 2 draws :=
  ⟨(C71_call _ _ _ _).2 one_pos, (C71_clipped (c := ⟨1, 0, true, true, 10, 0⟩) (by norm_num) [3] [] 2 draws).1 (by norm_num)⟩

end Verif.Props
