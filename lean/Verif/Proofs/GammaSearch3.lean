import Verif.Proofs.GammaSearch2
import Mathlib.Analysis.Convex.SpecificFunctions.Basic
import Mathlib.Analysis.Calculus.DSlope
import Mathlib.Topology.Order.IntermediateValue

/-! # Proofs: the bisection of `_gamma_truncated_negative_binomial` ends, and its answer -/

namespace Verif.RepeatSelect
open Verif Verif.Spec

lemma val_real {z : PyNum} {x : ℝ} (h : z.real? = some x) : z.val = (x : EReal) := by
  cases z with
  | int n => simp only [PyNum.real?, Option.some.injEq] at h; subst h; rfl
  | float y => simp only [PyNum.real?, Option.some.injEq] at h; subst h; rfl
  | inf => simp [PyNum.real?] at h

/-- There is exactly one parameter with a given mean. -/
lemma gamma_unique {s m : ℝ} (hs : 0 ≤ s) (hm : 1 ≤ m) : ∃! γ, 0 < γ ∧ γ ≤ 1 ∧ Spec.tnbMean s γ = m := by
  have hea : ea = dslope Real.exp 0 := by
    funext x
    unfold ea
    split_ifs with h
    · rw [h, dslope_same]; simp
    · rw [dslope_of_ne _ h, slope_def_field]; simp
  have hlb : lb = dslope Real.log 1 := by
    funext x
    unfold lb
    split_ifs with h
    · rw [h, dslope_same]; simp
    · rw [dslope_of_ne _ h, slope_def_field]; simp
  have hcea : Continuous ea := by
    rw [hea, ← continuousOn_univ, continuousOn_dslope Filter.univ_mem]
    exact ⟨Real.continuous_exp.continuousOn, Real.differentiableAt_exp⟩
  have hclb : ContinuousOn lb (Set.Ioi 0) := by
    rw [hlb, continuousOn_dslope (Ioi_mem_nhds one_pos)]
    exact ⟨Real.continuousOn_log.mono fun x hx => ne_of_gt hx, Real.differentiableAt_log one_ne_zero⟩
  set c := 1 / m ^ 2 with hc
  have hc0 : 0 < c := by positivity
  have hc1 : c ≤ 1 := by rw [hc, div_le_one (by positivity)]; nlinarith
  have e1 : Spec.tnbMean s 1 = 1 := by rw [tnbMean_closed hs one_pos le_rfl]; simp [ea, lb]
  have hcont : ContinuousOn (Spec.tnbMean s) (Set.Icc c 1) := by
    have h : ContinuousOn (fun γ => 1 / (γ * ea (s * Real.log γ) * lb γ)) (Set.Icc c 1) := by
      have hl : ContinuousOn Real.log (Set.Icc c 1) := Real.continuousOn_log.mono fun x hx => ne_of_gt (lt_of_lt_of_le hc0 hx.1)
      refine continuousOn_const.div ((continuousOn_id.mul (hcea.comp_continuousOn (continuousOn_const.mul hl))).mul
        (hclb.mono fun x hx => lt_of_lt_of_le hc0 hx.1)) fun x hx => ?_
      have hx0 : 0 < x := lt_of_lt_of_le hc0 hx.1
      have := ea_pos (s * Real.log x)
      have := lb_pos hx0
      positivity
    exact h.congr fun x hx => tnbMean_closed hs (lt_of_lt_of_le hc0 hx.1) hx.2
  have hlow : m ≤ Spec.tnbMean s c := by
    have hq := sqrt_mean_anti hs hc0 le_rfl hc1
    rw [e1, Real.sqrt_one, one_mul] at hq
    have e : Real.sqrt c = 1 / m := by
      rw [hc, Real.sqrt_div zero_le_one, Real.sqrt_one, Real.sqrt_sq (by linarith)]
    rw [e, one_div, inv_mul_eq_div, le_div_iff₀ (by linarith)] at hq
    linarith
  obtain ⟨γ, hγ, he⟩ := intermediate_value_Icc' hc1 hcont ⟨by rw [e1]; exact hm, hlow⟩
  have hγ0 : 0 < γ := lt_of_lt_of_le hc0 hγ.1
  refine ⟨γ, ⟨hγ0, hγ.2, he⟩, ?_⟩
  rintro γ' ⟨h0, h1, he'⟩
  have a := gamma_le hs hγ0 hγ.2 h0 le_rfl (by rw [he, he']; simp)
  have b := gamma_le hs h0 h1 hγ0 le_rfl (by rw [he, he']; simp)
  exact Real.log_injOn_pos h0 hγ0 (by linarith)

lemma tnbMean_ok {shape gamma : ℝ} (hs : 0 ≤ shape) (h0 : 0 < gamma) (h1 : gamma ≤ 1) : ∃ m, RepeatSelect.tnbMean gamma shape = .ok m := by
  unfold RepeatSelect.tnbMean
  rw [if_neg (not_lt.2 hs), if_neg (by push Not; exact ⟨h0, h1⟩)]
  split_ifs <;> exact ⟨_, rfl⟩

lemma mean_large {shape gamma m mean : ℝ} (hm : 1 ≤ mean) (h : RepeatSelect.tnbMean gamma shape = .ok m) (hg : gamma ≤ 1 / (4 * mean ^ 2)) :
    mean ≤ m := by
  obtain ⟨hs, h0, h1, ha⟩ := tnbMean_acc h
  have hq := sqrt_mean_anti hs h0 le_rfl h1
  have e1 : Spec.tnbMean shape 1 = 1 := by rw [tnbMean_closed hs one_pos le_rfl]; simp [ea, lb]
  rw [e1, Real.sqrt_one, one_mul] at hq
  have hs2 : Real.sqrt gamma ≤ 1 / (2 * mean) := by
    refine Real.sqrt_le_iff.2 ⟨by positivity, hg.trans (le_of_eq ?_)⟩
    field_simp
    ring
  have hpos := tnbMean_pos hs h0 h1
  have h2 : 2 * mean ≤ Spec.tnbMean shape gamma := by
    have : 1 ≤ 1 / (2 * mean) * Spec.tnbMean shape gamma := hq.trans (by gcongr)
    rw [one_div, inv_mul_eq_div, le_div_iff₀ (by linarith)] at this
    linarith
  rw [abs_le] at ha
  have := ha.1
  norm_num at this
  linarith

/-- What holds after `k` executions of the body. -/
structure GInv (shape mean : ℝ) (k : ℕ) (s : ℝ × ℝ) : Prop where
  lo : 0 ≤ s.1
  hi : s.2 ≤ 1
  gap : s.2 - s.1 = min 1 (2 * (shape + 1) / mean) / 2 ^ k
  floor : min (min 1 (2 * (shape + 1) / mean)) (1 / (4 * mean ^ 2)) ≤ s.2
  mean_lo : s.1 = 0 ∨ ∃ m, RepeatSelect.tnbMean s.1 shape = .ok m ∧ mean ≤ m
  mean_hi : s.2 = min 1 (2 * (shape + 1) / mean) ∨ ∃ m, RepeatSelect.tnbMean s.2 shape = .ok m ∧ m < mean
  le_start : s.2 ≤ min 1 (2 * (shape + 1) / mean)

lemma gammaIter_inv {shape mean : ℝ} (hs : 0 ≤ shape) (hm : 1 ≤ mean) : ∀ k, ∃ s, gammaIter shape mean k = .ok s ∧ GInv shape mean k s
  | 0 => ⟨_, rfl, le_rfl, min_le_left _ _, by simp, min_le_left _ _, Or.inl rfl, Or.inl rfl, le_rfl⟩
  | k + 1 => by
    obtain ⟨⟨lo, hi⟩, he, hi1⟩ := gammaIter_inv hs hm k
    have hG : 0 < min 1 (2 * (shape + 1) / mean) := lt_min one_pos (by positivity)
    have hgap := hi1.gap
    have h0 := hi1.lo
    have h1 := hi1.hi
    simp only at hgap h0 h1
    have hlt : lo < hi := by
      have : 0 < min 1 (2 * (shape + 1) / mean) / 2 ^ k := by positivity
      linarith
    obtain ⟨m, hmid⟩ := tnbMean_ok (gamma := (lo + hi) / 2) hs (by linarith) (by linarith)
    have hst : gammaIter shape mean (k + 1) = if m < mean then .ok (lo, (lo + hi) / 2) else .ok ((lo + hi) / 2, hi) := by
      rw [gammaIter, he]
      simp only [gammaStep, hmid]
    rw [hst]
    split_ifs with hc
    · refine ⟨_, rfl, h0, by simp only; linarith, ?_, ?_, hi1.mean_lo, Or.inr ⟨m, hmid, hc⟩, le_trans (by simp only; linarith) hi1.le_start⟩
      · simp only [pow_succ]
        rw [← div_div, ← hgap]; ring
      · refine (min_le_right _ _).trans (le_of_lt ?_)
        by_contra hcon
        exact absurd (mean_large hm hmid (not_lt.1 hcon)) (not_le.2 hc)
    · refine ⟨_, rfl, by simp only; linarith, h1, ?_, hi1.floor, Or.inr ⟨m, hmid, not_lt.1 hc⟩, hi1.mean_hi, hi1.le_start⟩
      simp only [pow_succ]
      rw [← div_div, ← hgap]; ring

open Classical in
theorem gamma_done {shape mean : ℝ} (hs : 0 ≤ shape) (hm : 1 ≤ mean) : ∃ k, GammaDone (gammaIter shape mean k) := by
  set G := min 1 (2 * (shape + 1) / mean) with hGd
  have hG : 0 < G := lt_min one_pos (by positivity)
  set c := min G (1 / (4 * mean ^ 2)) with hcd
  have hc : 0 < c := lt_min hG (by positivity)
  obtain ⟨k, hk⟩ := exists_pow_lt_of_lt_one (show 0 < c * 1e-10 / G by positivity) (show (1 / 2 : ℝ) < 1 by norm_num)
  obtain ⟨s, he, hi⟩ := gammaIter_inv hs hm k
  refine ⟨k, ?_⟩
  rw [he]
  have h1 := hi.gap
  have h2 := hi.floor
  rw [← hGd] at h1 h2
  have h3 : G / 2 ^ k < c * 1e-10 := by
    rw [lt_div_iff₀ hG, one_div, inv_pow] at hk
    rw [div_eq_inv_mul]
    exact hk
  show ¬ s.2 > s.1 * (1 + 1e-9)
  rw [not_lt]
  norm_num at h3 ⊢
  linarith

open Classical in
/-- The answer of the search. -/
theorem gammaTnb_spec {shape m g : ℝ} {mean : PyNum} (hmr : mean.real? = some m) (hmv : mean.val = m) (h : gammaTnb shape mean = .ok g) :
    0 ≤ shape ∧ 1 ≤ m ∧ 0 < g ∧ g ≤ 1 ∧ (∃ gm, RepeatSelect.tnbMean g shape = .ok gm ∧ m ≤ gm) ∧
      (shape = 1 ∧ g = 1 / m ∨ g ≤ 2 * (shape + 1) / m ∧ ∃ hi, hi ≤ g * (1 + 1e-9) ∧ 0 < hi ∧ hi ≤ 1 ∧
        (hi = min 1 (2 * (shape + 1) / m) ∨ ∃ gm, RepeatSelect.tnbMean hi shape = .ok gm ∧ gm < m)) := by
  unfold gammaTnb at h
  by_cases hs : shape < 0
  · rw [if_pos hs] at h; cases h
  rw [if_neg hs, hmv] at h
  by_cases hm : (m : EReal) < 1
  · rw [if_pos hm] at h; cases h
  rw [if_neg hm, hmr] at h
  simp only at h
  have hs0 := not_lt.1 hs
  have hm1 : 1 ≤ m := by
    have := not_lt.1 hm
    exact_mod_cast this
  refine ⟨hs0, hm1, ?_⟩
  by_cases h1 : shape = 1
  · rw [if_pos h1] at h
    cases h
    have hm0 : 0 < m := by linarith
    have hle : 1 / m ≤ 1 := by rw [div_le_one hm0]; exact hm1
    refine ⟨by positivity, hle, ⟨1 / (1 / m), ?_, by simp⟩, Or.inl ⟨h1, rfl⟩⟩
    unfold RepeatSelect.tnbMean
    rw [if_neg hs, if_neg (by push Not; exact ⟨by positivity, hle⟩), if_pos h1]
  rw [if_neg h1, dif_pos (gamma_done hs0 hm1)] at h
  set k := Nat.find (gamma_done hs0 hm1) with hk
  obtain ⟨s, he, hi⟩ := gammaIter_inv hs0 hm1 k
  have hd : GammaDone (gammaIter shape m k) := Nat.find_spec (gamma_done hs0 hm1)
  rw [he] at h hd
  simp only at h
  cases h
  have hG : 0 < min 1 (2 * (shape + 1) / m) / 2 ^ k := by
    have : 0 < min 1 (2 * (shape + 1) / m) := lt_min one_pos (by positivity)
    positivity
  have hgap := hi.gap
  have hlo := hi.lo
  have hpos : 0 < s.1 := by
    rcases lt_or_eq_of_le hlo with h | h
    · exact h
    · exfalso
      have hd' : ¬ s.2 > s.1 * (1 + 1e-9) := hd
      rw [← h] at hd' hgap
      simp only [zero_mul, sub_zero, gt_iff_lt, not_lt] at hd' hgap
      linarith
  refine ⟨hpos, by linarith [hi.hi], ?_, Or.inr ⟨?_, s.2, not_lt.1 hd, by linarith, hi.hi, hi.mean_hi⟩⟩
  swap
  · exact le_trans (by linarith) (hi.le_start.trans (min_le_right _ _))
  rcases hi.mean_lo with h | h
  · exact absurd h hpos.ne'
  · exact h

/-- The bound of the comment at lines 736-737. -/
lemma tnbMean_le {η γ : ℝ} (hη : 0 ≤ η) (h0 : 0 < γ) (h1 : γ ≤ 1) : Spec.tnbMean η γ ≤ (η + 1) / γ := by
  rw [tnbMean_closed hη h0 h1]
  have ha := ea_pos (η * Real.log γ)
  have hb := lb_pos h0
  suffices h : 1 ≤ (η + 1) * (ea (η * Real.log γ) * lb γ) by
    rw [div_le_div_iff₀ (by positivity) h0]
    nlinarith
  by_cases hg : γ = 1
  · subst hg; simp [ea, lb]; linarith
  have hg1 : γ < 1 := lt_of_le_of_ne h1 hg
  have hl : Real.log γ < 0 := Real.log_neg h0 hg1
  rcases hη.eq_or_lt with rfl | hη
  · have := lb_ge_one h0 h1
    simpa [ea] using this
  have hx : η * Real.log γ ≠ 0 := (mul_neg_of_pos_of_neg hη hl).ne
  have e : ea (η * Real.log γ) * lb γ = (1 - Real.exp (η * Real.log γ)) / (η * (1 - γ)) := by
    unfold ea lb
    rw [if_neg hx, if_neg hg]
    have h2 : γ - 1 ≠ 0 := by linarith
    have h3 : 1 - γ ≠ 0 := by linarith
    have h4 := hl.ne
    field_simp
    ring
  rw [e, ← mul_div_assoc, le_div_iff₀ (by nlinarith)]
  rcases le_or_gt η 1 with h | h
  · have hb : Real.exp (η * Real.log γ) ≤ 1 - η * (1 - γ) := by
      have := rpow_one_add_le_one_add_mul_self (s := γ - 1) (by linarith) hη.le h
      rw [add_sub_cancel, Real.rpow_def_of_pos h0, mul_comm] at this
      linarith
    have h5 : 0 ≤ η * (1 - γ) := mul_nonneg hη.le (by linarith)
    have h6 : η * (1 - γ) ≤ 1 - Real.exp (η * Real.log γ) := by linarith
    nlinarith
  · have hb : Real.exp (η * Real.log γ) ≤ γ := by
      conv_rhs => rw [← Real.exp_log h0]
      exact Real.exp_le_exp.2 (by nlinarith)
    nlinarith

/-- The answer is close to the true parameter. -/
theorem gammaTnb_close {shape m g γ : ℝ} {mean : PyNum} (hmr : mean.real? = some m) (hmv : mean.val = m) (h : gammaTnb shape mean = .ok g)
    (h0 : 0 < γ) (h1 : γ ≤ 1) (hγ : Spec.tnbMean shape γ = m) :
    Real.log g ≤ Real.log γ + 2e-97 ∧ Real.log γ ≤ Real.log g + 2e-9 := by
  obtain ⟨hs, hm, hg0, hg1, ⟨gm, hgm, hle⟩, hor⟩ := gammaTnb_spec hmr hmv h
  constructor
  · obtain ⟨-, -, -, hacc⟩ := tnbMean_acc hgm
    have := gamma_le hs hg0 hg1 h0 (d := 1e-97) (by norm_num) (by
      rw [hγ, mul_add, mul_one]
      have := (abs_le.1 hacc).2
      linarith)
    linarith
  · rcases hor with ⟨rfl, rfl⟩ | ⟨-, hi, hh, hh0, hh1, hor⟩
    · have e : Spec.tnbMean 1 γ = 1 / γ := by
        have h2 := tnbMean_exact (shape := 1) h0 h1 (Or.inl rfl)
        unfold RepeatSelect.tnbMean at h2
        rw [if_neg (by norm_num), if_neg (by push Not; exact ⟨h0, h1⟩), if_pos rfl] at h2
        exact (Except.ok.inj h2).symm
      rw [← hγ, e, one_div_one_div]
      norm_num
    · have hlog : Real.log hi ≤ Real.log g + 1e-9 := by
        have := Real.log_le_log hh0 hh
        rw [Real.log_mul hg0.ne' (by norm_num)] at this
        have h2 := Real.log_le_sub_one_of_pos (show (0 : ℝ) < 1 + 1e-9 by norm_num)
        linarith
      rcases hor with rfl | ⟨gm', hgm', hlt⟩
      · have hb := tnbMean_le hs h0 h1
        have : γ ≤ min 1 (2 * (shape + 1) / m) := by
          refine le_min h1 ?_
          rw [hγ, le_div_iff₀ h0] at hb
          rw [le_div_iff₀ (by linarith)]
          nlinarith
        have := Real.log_le_log h0 this
        norm_num at hlog ⊢
        linarith
      · obtain ⟨-, -, -, hacc⟩ := tnbMean_acc hgm'
        have hp := tnbMean_pos hs hh0 hh1
        have := gamma_le hs h0 h1 hh0 (d := 1e-10) (by norm_num) (by
          rw [hγ]
          have := (abs_le.1 hacc).1
          norm_num at this ⊢
          linarith)
        norm_num at hlog this ⊢
        linarith

open Classical in
theorem gammaTnb_total {shape m : ℝ} {mean : PyNum} (hmr : mean.real? = some m) (hmv : mean.val = m) (hs : 0 ≤ shape) (hm : 1 ≤ m) :
    ∃ g, gammaTnb shape mean = .ok g := by
  unfold gammaTnb
  rw [if_neg (not_lt.2 hs), hmv, if_neg (by rw [not_lt]; exact_mod_cast hm), hmr]
  simp only
  by_cases h1 : shape = 1
  · rw [if_pos h1]; exact ⟨_, rfl⟩
  rw [if_neg h1, dif_pos (gamma_done hs hm)]
  obtain ⟨s, he, -⟩ := gammaIter_inv hs hm (Nat.find (gamma_done hs hm))
  rw [he]
  exact ⟨_, rfl⟩

/-! ## Monotonisation -/

section
variable {n : ℕ} (orders : Fin n → ℝ)
open Classical

/-- The simultaneous version: the smallest entry among those of larger or equal order. -/
noncomputable def monoAll (out : Arr n) (i : Fin n) : EReal := (Finset.univ.filter fun j => orders i ≤ orders j).inf out

/-- In place, after the entries in `S` have been treated. -/
noncomputable def monoPart (out : Arr n) (S : Finset (Fin n)) (i : Fin n) : EReal := if i ∈ S then monoAll orders out i else out i

lemma monoStep_part (out : Arr n) (S : Finset (Fin n)) (i : Fin n) :
    monoStep orders (monoPart orders out S) i = monoPart orders out (insert i S) := by
  funext j
  unfold monoStep
  by_cases hj : j = i
  · subst hj
    rw [Function.update_self]
    unfold monoPart
    rw [if_pos (Finset.mem_insert_self _ _)]
    refine le_antisymm ?_ ?_
    · refine Finset.le_inf fun l hl => (Finset.inf_le hl).trans ?_
      split_ifs
      · exact Finset.inf_le (by simp)
      · exact le_rfl
    · refine Finset.le_inf fun l hl => ?_
      split_ifs
      · refine Finset.le_inf fun q hq => Finset.inf_le ?_
        simp only [Finset.mem_filter, Finset.mem_univ, true_and] at hl hq ⊢
        exact hl.trans hq
      · exact Finset.inf_le hl
  · rw [Function.update_of_ne hj]
    unfold monoPart
    simp [hj]

lemma foldl_monoStep (out : Arr n) : ∀ (l : List (Fin n)) (S : Finset (Fin n)),
    l.foldl (monoStep orders) (monoPart orders out S) = monoPart orders out (S ∪ l.toFinset)
  | [], S => by simp
  | i :: l, S => by
    rw [List.foldl_cons, monoStep_part, foldl_monoStep out l]
    congr 1
    ext j
    simp

/-- In place and simultaneous agree. -/
lemma monotonise_eq (out : Arr n) : monotonise orders out = monoAll orders out := by
  have h := foldl_monoStep orders out (List.finRange n) ∅
  have e : monoPart orders out ∅ = out := by funext i; simp [monoPart]
  rw [e] at h
  unfold monotonise
  rw [h]
  funext i
  simp [monoPart]

end
end Verif.RepeatSelect
