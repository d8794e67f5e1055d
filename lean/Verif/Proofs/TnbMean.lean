import Verif.Proofs.GammaSearch
import Mathlib.Analysis.Convex.Deriv
import Mathlib.Analysis.Convex.SpecificFunctions.Basic

/-! # Proofs: the mean of the truncated negative binomial distribution as a function of its parameter -/

namespace Verif.Spec

/-- `(exp x - 1) / x`. -/
noncomputable def ea (x : ℝ) : ℝ := if x = 0 then 1 else (Real.exp x - 1) / x

/-- `log g / (g - 1)`. -/
noncomputable def lb (g : ℝ) : ℝ := if g = 1 then 1 else Real.log g / (g - 1)

/-- `s / sinh s`. -/
noncomputable def ss (s : ℝ) : ℝ := if s = 0 then 1 else s / Real.sinh s

lemma ea_mono {x y : ℝ} (hxy : x ≤ y) (hy : y ≤ 0) : ea x ≤ ea y := by
  unfold ea
  by_cases hy0 : y = 0
  · by_cases hx0 : x = 0
    · rw [if_pos hx0, if_pos hy0]
    · have hx : x < 0 := lt_of_le_of_ne (hy0 ▸ hxy) hx0
      rw [if_neg hx0, if_pos hy0, div_le_one_of_neg hx]
      linarith [Real.add_one_le_exp x]
  · have hx0 : x ≠ 0 := fun h => hy0 (le_antisymm hy (h ▸ hxy))
    rw [if_neg hx0, if_neg hy0]
    have := convexOn_exp.secant_mono (a := 0) (x := x) (y := y) (Set.mem_univ _) (Set.mem_univ _) (Set.mem_univ _) hx0 hy0 hxy
    simpa using this

lemma ea_pos (x : ℝ) : 0 < ea x := by
  unfold ea
  split_ifs with h
  · norm_num
  · rcases lt_or_gt_of_ne h with h | h
    · exact div_pos_of_neg_of_neg (by linarith [Real.exp_lt_one_iff.2 h]) h
    · exact div_pos (by linarith [Real.one_lt_exp_iff.2 h]) h

lemma ea_le_one {x : ℝ} (hx : x ≤ 0) : ea x ≤ 1 := by
  have := ea_mono hx le_rfl
  simpa [ea] using this

lemma convexOn_sinh : ConvexOn ℝ (Set.Ici 0) Real.sinh := by
  refine convexOn_of_deriv2_nonneg (convex_Ici 0) Real.continuous_sinh.continuousOn Real.differentiable_sinh.differentiableOn ?_ ?_
  · rw [Real.deriv_sinh]; exact Real.differentiable_cosh.differentiableOn
  · intro x hx
    rw [interior_Ici] at hx
    simp only [Function.iterate_succ, Function.iterate_zero, Function.comp_apply, Real.deriv_sinh, Real.deriv_cosh, id]
    exact (Real.sinh_pos_iff.2 hx).le

lemma ss_anti {s t : ℝ} (hs : 0 ≤ s) (hst : s ≤ t) : ss t ≤ ss s := by
  unfold ss
  by_cases hs0 : s = 0
  · rw [if_pos hs0]
    split_ifs with h
    · exact le_rfl
    · have ht : 0 < t := lt_of_le_of_ne (hs.trans hst) (Ne.symm h)
      rw [div_le_one (Real.sinh_pos_iff.2 ht)]
      exact Real.self_le_sinh_iff.2 ht.le
  · have hs' : 0 < s := lt_of_le_of_ne hs (Ne.symm hs0)
    have ht : 0 < t := lt_of_lt_of_le hs' hst
    rw [if_neg hs0, if_neg ht.ne']
    have := convexOn_sinh.secant_mono (a := 0) (x := s) (y := t) Set.self_mem_Ici hs ht.le hs0 ht.ne' hst
    simp only [Real.sinh_zero, sub_zero] at this
    have h1 := Real.sinh_pos_iff.2 hs'
    have h2 := Real.sinh_pos_iff.2 ht
    rw [div_le_div_iff₀ hs' ht] at this
    rw [div_le_div_iff₀ h2 h1]
    linarith

lemma ss_pos {s : ℝ} (hs : 0 ≤ s) : 0 < ss s := by
  unfold ss
  split_ifs with h
  · norm_num
  · have : 0 < s := lt_of_le_of_ne hs (Ne.symm h)
    exact div_pos this (Real.sinh_pos_iff.2 this)

lemma lb_eq {g : ℝ} (h0 : 0 < g) : Real.sqrt g * lb g = ss (-Real.log g / 2) := by
  unfold lb ss
  by_cases h : g = 1
  · simp [h]
  · have hl : Real.log g ≠ 0 := Real.log_ne_zero_of_pos_of_ne_one h0 h
    rw [if_neg h, if_neg (by intro hc; apply hl; linarith)]
    have hw : 0 < Real.sqrt g := Real.sqrt_pos.2 h0
    have hw2 : Real.sqrt g ^ 2 = g := Real.sq_sqrt h0.le
    have e1 : Real.exp (-Real.log g / 2) = (Real.sqrt g)⁻¹ := by
      rw [Real.sqrt_eq_rpow, ← Real.rpow_neg h0.le, Real.rpow_def_of_pos h0]
      congr 1
      ring
    have e2 : Real.exp (-(-Real.log g / 2)) = Real.sqrt g := by
      rw [Real.exp_neg, e1, inv_inv]
    rw [Real.sinh_eq, e1, e2]
    set w := Real.sqrt g with hw'
    rw [← hw2] at h ⊢
    have h3 : w ^ 2 - 1 ≠ 0 := sub_ne_zero.2 h
    have h4 : 1 - w ^ 2 ≠ 0 := fun hc => h3 (by linarith)
    have h5 : w⁻¹ - w ≠ 0 := by
      intro hc
      apply h4
      have := congrArg (· * w) hc
      simp only [sub_mul, inv_mul_cancel₀ hw.ne', zero_mul] at this
      linarith
    generalize Real.log (w ^ 2) = L
    have : w⁻¹ - w = (1 - w ^ 2) / w := by field_simp
    rw [this]
    field_simp
    ring

lemma lb_pos {g : ℝ} (h0 : 0 < g) : 0 < lb g := by
  unfold lb
  split_ifs with h
  · norm_num
  · rcases lt_or_gt_of_ne h with h | h
    · exact div_pos_of_neg_of_neg (Real.log_neg h0 h) (by linarith)
    · exact div_pos (Real.log_pos h) (by linarith)

/-- Closed form of the mean. -/
lemma tnbMean_closed {η γ : ℝ} (hη : 0 ≤ η) (h0 : 0 < γ) (h1 : γ ≤ 1) : tnbMean η γ = 1 / (γ * ea (η * Real.log γ) * lb γ) := by
  rw [tnbMean_eq hη h0 h1]
  unfold tnbC ea lb
  by_cases h : γ = 1
  · simp [h]
  have hg : γ < 1 := lt_of_le_of_ne h1 h
  have hl : Real.log γ < 0 := Real.log_neg h0 hg
  rw [if_neg h, if_neg h]
  by_cases h' : η = 0
  · subst h'
    have : γ - 1 ≠ 0 := by linarith
    rw [if_pos rfl, zero_mul, if_pos rfl, one_div, Real.log_inv, zero_add, Real.rpow_neg_one]
    have := hl.ne
    field_simp
    ring
  · have hη' : 0 < η := lt_of_le_of_ne hη (Ne.symm h')
    have hx : η * Real.log γ ≠ 0 := mul_ne_zero h' hl.ne
    rw [if_neg h', if_neg hx]
    have e : Real.exp (η * Real.log γ) = γ ^ η := by rw [Real.rpow_def_of_pos h0, mul_comm]
    rw [e, Real.rpow_neg h0.le, Real.rpow_neg h0.le, Real.rpow_add h0, Real.rpow_one]
    have hp : 0 < γ ^ η := Real.rpow_pos_of_pos h0 _
    have hp1 : γ ^ η < 1 := Real.rpow_lt_one h0.le hg hη'
    have hl' := hl.ne
    generalize γ ^ η = p at *
    have i1 : p⁻¹ - 1 = (1 - p) / p := by field_simp
    have i2 : 1 - p ≠ 0 := by linarith
    have i3 : p - 1 ≠ 0 := by linarith
    have i4 : γ - 1 ≠ 0 := by linarith
    rw [i1]
    field_simp
    ring

/-- The mean times the square root of the parameter decreases. -/
lemma sqrt_mean_anti {η γ γ' : ℝ} (hη : 0 ≤ η) (h0 : 0 < γ') (h1 : γ ≤ 1) (h : γ' ≤ γ) :
    Real.sqrt γ * tnbMean η γ ≤ Real.sqrt γ' * tnbMean η γ' := by
  have hγ : 0 < γ := lt_of_lt_of_le h0 h
  have key : ∀ g : ℝ, 0 < g → g ≤ 1 → Real.sqrt g * tnbMean η g = 1 / (ea (η * Real.log g) * ss (-Real.log g / 2)) := by
    intro g hg hg1
    rw [tnbMean_closed hη hg hg1, ← lb_eq hg]
    have hw : 0 < Real.sqrt g := Real.sqrt_pos.2 hg
    have hw2 : g = Real.sqrt g * Real.sqrt g := (Real.mul_self_sqrt hg.le).symm
    have h1 := ea_pos (η * Real.log g)
    have h2 := lb_pos hg
    have : g * ea (η * Real.log g) * lb g = Real.sqrt g * (ea (η * Real.log g) * (Real.sqrt g * lb g)) := by
      calc g * ea (η * Real.log g) * lb g = Real.sqrt g * Real.sqrt g * ea (η * Real.log g) * lb g := by rw [← hw2]
        _ = _ := by ring
    rw [this, one_div, one_div, mul_inv, ← mul_assoc, mul_inv_cancel₀ hw.ne', one_mul]
  have hlog : Real.log γ' ≤ Real.log γ := Real.log_le_log h0 h
  have hl1 : Real.log γ ≤ 0 := Real.log_nonpos hγ.le h1
  rw [key γ hγ h1, key γ' h0 (h.trans h1)]
  refine one_div_le_one_div_of_le (mul_pos (ea_pos _) (ss_pos (by linarith))) ?_
  refine mul_le_mul (ea_mono (mul_le_mul_of_nonneg_left hlog hη) ?_) (ss_anti (by linarith) (by linarith)) (ss_pos (by linarith)).le (ea_pos _).le
  exact mul_nonpos_of_nonneg_of_nonpos hη hl1

lemma tnbMean_pos {η γ : ℝ} (hη : 0 ≤ η) (h0 : 0 < γ) (h1 : γ ≤ 1) : 0 < tnbMean η γ := by
  rw [tnbMean_eq hη h0 h1]
  exact mul_pos (tnbC_pos hη h0 h1) (Real.rpow_pos_of_pos h0 _)

/-- A parameter whose mean is not much smaller is not much larger. -/
lemma gamma_le {η γ γ' d : ℝ} (hη : 0 ≤ η) (h0 : 0 < γ) (h1 : γ ≤ 1) (h0' : 0 < γ') (hd : 0 ≤ d)
    (h : tnbMean η γ' ≤ tnbMean η γ * (1 + d)) : Real.log γ ≤ Real.log γ' + 2 * d := by
  rcases le_or_gt γ γ' with hle | hlt
  · have := Real.log_le_log h0 hle
    linarith
  · have hs := sqrt_mean_anti hη h0' h1 hlt.le
    have hm := tnbMean_pos hη h0 h1
    have hw := Real.sqrt_pos.2 h0
    have hw' := Real.sqrt_pos.2 h0'
    have h3 : Real.sqrt γ * tnbMean η γ ≤ Real.sqrt γ' * (1 + d) * tnbMean η γ := by
      calc Real.sqrt γ * tnbMean η γ ≤ Real.sqrt γ' * tnbMean η γ' := hs
        _ ≤ Real.sqrt γ' * (tnbMean η γ * (1 + d)) := by gcongr
        _ = _ := by ring
    have h4 := le_of_mul_le_mul_right h3 hm
    have h5 := Real.log_le_log hw h4
    rw [Real.log_mul hw'.ne' (by linarith), Real.log_sqrt h0.le, Real.log_sqrt h0'.le] at h5
    have := Real.log_le_sub_one_of_pos (by linarith : 0 < 1 + d)
    linarith

end Verif.Spec
