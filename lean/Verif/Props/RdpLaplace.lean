import Verif.Proofs.RenyiLaplace
import Verif.Proofs.RdpFns
import Mathlib.Analysis.SpecialFunctions.Log.Deriv

/-!
# C40: RDP of the Laplace mechanism

`laplaceRdp eps order` is the model of `_laplace_rdp`; the accountant calls it with `eps = 1 / noise_multiplier`.
`laplace μ s` is the Laplace distribution, `LaplacePair z` the Laplace mechanism on vectors (`Verif/Spec/Mechanisms.lean`).
-/

namespace Verif.Props
open Verif Verif.Spec Verif.Rdp MeasureTheory

/-- The moment written as in the code. -/
lemma lapMoment_code {a : ℝ} (ha : 1 ≤ a) (e : ℝ) :
    lapMoment a e = Real.exp ((a - 1) * e) * (1 + (a - 1) * (Real.exp (e * (1 - 2 * a)) - 1) / (2 * a - 1)) := by
  have h21 : 0 < 2 * a - 1 := by linarith
  unfold lapMoment
  rw [show -(a * e) = (a - 1) * e + e * (1 - 2 * a) by ring, Real.exp_add]
  have h : a / (2 * a - 1) = 1 - (a - 1) / (2 * a - 1) := by rw [eq_sub_iff_add_eq, ← add_div, div_eq_one_iff_eq h21.ne']; ring
  rw [h]
  ring

lemma laplaceRdp_arg {e a : ℝ} (he : 0 ≤ e) (ha : 1 ≤ a) {T : Type*} (x y z : T) :
    (if e < 0 then x else if (a : EReal) = ⊤ ∨ (a : EReal) < 1 then y else z) = z := by
  rw [if_neg (not_lt.2 he), if_neg]
  push Not
  exact ⟨EReal.coe_ne_top a, by exact_mod_cast ha⟩

lemma pow99_le {v : ℝ} (h0 : 0 ≤ v) (h : v ≤ 1 / 12) : v ^ 99 ≤ (1 / 12) ^ 99 := by gcongr

lemma tail_le {v a : ℝ} (ha : 0 < a) (h0 : 0 ≤ v) (h : v ≤ 1 / 12) (hva : v ≤ a) : v ^ 100 / (1 - v) / a ≤ 10 ^ (-100 : ℤ) := by
  have h5 := pow99_le h0 h
  have h1 : 0 < 1 - v := by linarith
  have h6 : v ^ 100 / (1 - v) / a = v / a * (v ^ 99 / (1 - v)) := by rw [pow_succ v 99]; field_simp
  have h9 : v / a ≤ 1 := by rw [div_le_one ha]; exact hva
  have h8 : 0 ≤ v ^ 99 := pow_nonneg h0 _
  have hnum : ((1 / 12 : ℝ)) ^ 99 ≤ 10 ^ (-100 : ℤ) * (11 / 12) := by norm_num
  rw [h6]
  generalize v ^ 99 = V at h5 h8 ⊢
  generalize ((1 / 12 : ℝ)) ^ 99 = N at h5 hnum
  generalize ((10 : ℝ)) ^ (-100 : ℤ) = T at hnum ⊢
  have hT : 0 ≤ T := by linarith
  calc v / a * (V / (1 - v)) ≤ 1 * (V / (1 - v)) := mul_le_mul_of_nonneg_right h9 (div_nonneg h8 h1.le)
    _ ≤ T := by rw [one_mul, div_le_iff₀ h1]; nlinarith

lemma log_lapMoment {a : ℝ} (ha : 1 < a) {e : ℝ} :
    Real.log (lapMoment a e) / (a - 1) = e + Real.log (1 + (a - 1) * (Real.exp (e * (1 - 2 * a)) - 1) / (2 * a - 1)) / (a - 1) := by
  have hp := lapMoment_pos ha.le e
  rw [lapMoment_code ha.le] at hp ⊢
  have h1 : 0 < 1 + (a - 1) * (Real.exp (e * (1 - 2 * a)) - 1) / (2 * a - 1) := (mul_pos_iff_of_pos_left (Real.exp_pos _)).1 hp
  rw [Real.log_mul (Real.exp_pos _).ne' h1.ne', Real.log_exp]
  have : a - 1 ≠ 0 := by linarith
  field_simp

/-- **C40 (exact).** At order 1 and at orders `≥ 1.1` the value is the Rényi divergence of two Laplace distributions of scale
`s` whose means are `m = eps * s` apart. -/
theorem C40_exact (m s : ℝ) (hs : 0 < s) (hm : 0 ≤ m) (α : ℝ) (hα : α = 1 ∨ 1.1 ≤ α) :
    laplaceRdp (m / s) (α : EReal) = .ok (renyiDiv α (laplace m s) (laplace 0 s)) := by
  have h1 : 1 ≤ α := by rcases hα with h | h <;> linarith
  rw [renyi_laplace' h1 hs hm, lapDiv]
  unfold laplaceRdp
  rw [laplaceRdp_arg (by positivity) h1]
  dsimp only
  rw [EReal.toReal_coe]
  rcases hα with rfl | h
  · rw [if_pos rfl, if_pos rfl]
  · have h1' : 1 < α := by linarith
    rw [if_neg h1'.ne', if_neg h1'.ne', if_neg (not_lt.2 h), log_lapMoment h1']

/-- **C40 (orders between 1 and 1.1).** There the code sums 99 terms of a series; the value is at least the Rényi divergence
(so the guarantee is sound), and exceeds it by less than `10^-100`. -/
theorem C40_near_one (m s : ℝ) (hs : 0 < s) (hm : 0 ≤ m) (α : ℝ) (h1 : 1 < α) (h2 : α < 1.1) :
    ∃ r d : ℝ, laplaceRdp (m / s) (α : EReal) = .ok (r : EReal) ∧ renyiDiv α (laplace m s) (laplace 0 s) = (d : EReal) ∧
      d ≤ r ∧ r ≤ d + 10 ^ (-100 : ℤ) := by
  refine ⟨m / s + (Real.exp (m / s * (1 - 2 * α)) - 1) / (2 * α - 1) *
    laplaceSeries (-((Real.exp (m / s * (1 - 2 * α)) - 1) / (2 * α - 1)) * (α - 1)), _, ?_, renyi_laplace' h1.le hs hm, ?_⟩
  · unfold laplaceRdp
    rw [laplaceRdp_arg (by positivity) h1.le]
    dsimp only
    rw [EReal.toReal_coe, if_neg h1.ne', if_pos h2]
  rw [lapDiv, if_neg h1.ne', log_lapMoment h1]
  have he : 0 ≤ m / s := by positivity
  generalize m / s = e at he
  set c := (Real.exp (e * (1 - 2 * α)) - 1) / (2 * α - 1) with hc
  have h21 : 0 < 2 * α - 1 := by linarith
  have hexp : Real.exp (e * (1 - 2 * α)) ≤ 1 := by rw [Real.exp_le_one_iff]; nlinarith
  have hexp0 := Real.exp_pos (e * (1 - 2 * α))
  have hc0 : c ≤ 0 := div_nonpos_of_nonpos_of_nonneg (by linarith) h21.le
  have hc1 : -1 ≤ c := by rw [hc, le_div_iff₀ h21]; linarith
  have ha : 0 < α - 1 := by linarith
  set v := -c * (α - 1) with hv
  have hv0 : 0 ≤ v := mul_nonneg (by linarith) ha.le
  have hv1 : v ≤ 1 / 10 := by nlinarith
  have hcv : c = -v / (α - 1) := by rw [hv]; field_simp
  have hcv' : c * (2 * α - 1) * (α - 1) = -v * (2 * α - 1) := by rw [hv]; ring
  have hv2 : v ≤ 1 / 12 := by
    have : v * (2 * α - 1) ≤ α - 1 := by
      have : c * (2 * α - 1) = Real.exp (e * (1 - 2 * α)) - 1 := by rw [hc]; field_simp
      nlinarith
    have h5 : (α - 1) * 12 ≤ 2 * α - 1 := by linarith
    by_contra hcon
    push Not at hcon
    nlinarith
  have harg : 1 + (α - 1) * (Real.exp (e * (1 - 2 * α)) - 1) / (2 * α - 1) = 1 - v := by rw [hv, hc]; ring
  rw [harg]
  have hser : c * laplaceSeries v = -(∑ i ∈ Finset.range 99, v ^ (i + 1) / ((i : ℝ) + 1)) / (α - 1) := by
    rw [laplaceSeries, hcv, div_mul_eq_mul_div, neg_mul, Finset.mul_sum]
    congr 2
    refine Finset.sum_congr rfl fun i _ => ?_
    rw [pow_succ]; ring
  rw [hser]
  have habs : |v| < 1 := by rw [abs_of_nonneg hv0]; linarith
  have hlow : ∑ i ∈ Finset.range 99, v ^ (i + 1) / ((i : ℝ) + 1) ≤ -Real.log (1 - v) :=
    sum_le_hasSum _ (fun i _ => by positivity) (Real.hasSum_pow_div_log_of_abs_lt_one habs)
  have hup := (abs_le.1 (Real.abs_log_sub_add_sum_range_le habs 99)).1
  rw [abs_of_nonneg hv0, show 99 + 1 = 100 by norm_num] at hup
  generalize (∑ i ∈ Finset.range 99, v ^ (i + 1) / ((i : ℝ) + 1)) = S at hlow hup ⊢
  constructor
  · have : Real.log (1 - v) / (α - 1) ≤ -S / (α - 1) :=
      div_le_div_of_nonneg_right (by linarith) ha.le
    linarith
  · have h3 : -S / (α - 1) ≤
        (Real.log (1 - v) + v ^ 100 / (1 - v)) / (α - 1) := by
      generalize v ^ 100 / (1 - v) = W at hup ⊢
      exact div_le_div_of_nonneg_right (by linarith) ha.le
    have h4 := tail_le ha hv0 hv2 (by nlinarith)
    rw [add_div] at h3
    generalize v ^ 100 / (1 - v) / (α - 1) = W at h3 h4
    generalize ((10 : ℝ)) ^ (-100 : ℤ) = T at h4 ⊢
    linarith

/-- **C40 (mechanism).** For any vector-valued query of `ℓ₁` sensitivity `Δ` with Laplace noise `z Δ`, on any two neighbouring
data sets, the Rényi divergence is at most the value computed for the `LaplaceDpEvent`, at every order. -/
theorem C40_mechanism (z : ℝ) (hz : 0 < z) (α : ℝ) {Ω : Type} [MeasurableSpace Ω] (P Q : Measure Ω) (h : LaplacePair z Ω P Q)
    (r : EReal) (hr : laplaceRdp (1 / z) (α : EReal) = .ok r) : renyiDiv α P Q ≤ r := by
  have h1 : 1 ≤ α := by
    by_contra hc
    have : (α : EReal) < 1 := by exact_mod_cast not_le.1 hc
    unfold laplaceRdp at hr
    rw [if_neg (not_lt.2 (by positivity)), if_pos (Or.inr this)] at hr
    simp at hr
  refine (renyi_laplacePair h1 hz P Q h).trans ?_
  have hd := renyi_laplace' h1 hz (zero_le_one)
  by_cases hα : α = 1 ∨ 1.1 ≤ α
  · rw [C40_exact 1 z hz zero_le_one α hα, Except.ok.injEq] at hr
    rw [← hr, hd]
  · push Not at hα
    obtain ⟨r', d, e1, e2, e3, -⟩ := C40_near_one 1 z hz zero_le_one α (lt_of_le_of_ne h1 (Ne.symm hα.1)) hα.2
    rw [e1, Except.ok.injEq] at hr
    rw [e2] at hd
    rw [← hr, ← hd]
    exact_mod_cast e3

/-- A concrete pair: a query answer in `ℝ²` that moves by `(1/2, -1/2)`, with noise multiplier 3. -/
example : LaplacePair 3 (Fin 2 → ℝ) (laplaceVec ![1 / 2, 0] (3 * 1)) (laplaceVec ![0, 1 / 2] (3 * 1)) :=
  .mk _ _ 1 one_pos (by norm_num [Fin.sum_univ_two])

/-- The value is positive as soon as there is a loss: the bound is not trivially zero or infinite. -/
example : laplaceRdp (1 / 3) ((1 : ℝ) : EReal) = .ok ((1 / 3 + (Real.exp (-(1 / 3)) - 1) : ℝ) : EReal) := by
  rw [C40_exact 1 3 (by norm_num) (by norm_num) 1 (Or.inl rfl), renyi_laplace' le_rfl (by norm_num) (by norm_num), lapDiv, if_pos rfl]

end Verif.Props
