import Verif.Model.RenyiTester
import Verif.Spec.RenyiValue
import Verif.Spec.Testers
import Verif.Proofs.Renyi
import Verif.Proofs.RelativeChernoff
import Verif.Proofs.HockeyStickTester

/-!
# The Rényi tester
-/

namespace Verif.Testers.RenyiTester

open MeasureTheory Real Spec
open HockeyStickTester (preserving_split preserving_middle real_prod_le)

variable {S : Type} [MeasurableSpace S]

/-! ### The variational lower bound -/

theorem value_le {P Q : Measure S} [IsProbabilityMeasure P] [IsProbabilityMeasure Q] {α r : ℝ} (hα : 1 < α)
    (hr : renyiDiv α P Q ≤ (r : EReal)) {g : S → ℝ} (hg : Measurable g) {C : ℝ} (hC : 0 < C) (hb : ∀ x, |g x| ≤ C) :
    renyiValue α g P Q ≤ r := by
  obtain ⟨hac, hmom⟩ := (renyi_le_iff hα P Q r).1 hr
  have h0 : 0 < α - 1 := by linarith
  have hα0 : 0 < α := by linarith
  have hm : ∀ c : ℝ, Measurable fun x => c * g x := fun c => by fun_prop
  have hbc : ∀ c : ℝ, 0 < c → ∀ x, |c * g x| ≤ c * C := fun c hc x => by
    rw [abs_mul, abs_of_pos hc]
    exact mul_le_mul_of_nonneg_left (hb x) hc.le
  have i1 := RelativeChernoff.integrable_exp P (hm (α - 1)) (by positivity) (hbc _ h0)
  have i2 := RelativeChernoff.integrable_exp Q (hm α) (by positivity) (hbc _ hα0)
  have p1 := (exp_pos _).trans_le (RelativeChernoff.mean_bounds P (hm (α - 1)) (by positivity) (hbc _ h0)).1
  have p2 := (exp_pos _).trans_le (RelativeChernoff.mean_bounds Q (hm α) (by positivity) (hbc _ hα0)).1
  have hh := holder_of_moment hα hac (fun x => ENNReal.ofReal (exp ((α - 1) * g x))) (by fun_prop)
  have e2 : ∀ x, ENNReal.ofReal (exp ((α - 1) * g x)) ^ (α / (α - 1)) = ENNReal.ofReal (exp (α * g x)) := fun x => by
    rw [ENNReal.ofReal_rpow_of_pos (exp_pos _), ← exp_mul]
    congr 2
    field_simp
  simp_rw [e2] at hh
  rw [← ofReal_integral_eq_lintegral_ofReal i1 (Filter.Eventually.of_forall fun x => (exp_pos _).le),
    ← ofReal_integral_eq_lintegral_ofReal i2 (Filter.Eventually.of_forall fun x => (exp_pos _).le)] at hh
  unfold renyiValue
  set E1 := ∫ x, exp ((α - 1) * g x) ∂P
  set E2 := ∫ x, exp (α * g x) ∂Q
  have h3 : ENNReal.ofReal E1 ≤ ENNReal.ofReal (exp ((α - 1) * r) ^ (1 / α) * E2 ^ ((α - 1) / α)) := by
    refine hh.trans ?_
    rw [ENNReal.ofReal_mul (by positivity), ← ENNReal.ofReal_rpow_of_pos p2, ← ENNReal.ofReal_rpow_of_pos (exp_pos _)]
    gcongr
  rw [ENNReal.ofReal_le_ofReal_iff (by positivity)] at h3
  have h4 := log_le_log p1 h3
  rw [log_mul (by positivity) (by positivity), log_rpow (exp_pos _), log_exp, log_rpow p2] at h4
  have h5 := mul_le_mul_of_nonneg_left h4 (by positivity : 0 ≤ α / (α - 1))
  have e : α / (α - 1) * (1 / α * ((α - 1) * r) + (α - 1) / α * log E2) = r + log E2 := by
    field_simp
  rw [e] at h5
  linarith

/-! ### The tail bounds for a fixed function -/

section Fixed

/-- The mean of `exp (c g)` over a sample. -/
noncomputable def mean (c : ℝ) (g : S → ℝ) {N : ℕ} (x : Fin N → S) : ℝ := (∑ i, exp (c * g (x i))) / N

omit [MeasurableSpace S] in
theorem meanExp_ofFn (c : ℝ) (g : S → ℝ) {N : ℕ} (x : Fin N → S) : meanExp c g (List.ofFn x) = mean c g x := by
  unfold meanExp mean
  rw [List.map_ofFn, List.sum_ofFn, List.length_ofFn]
  rfl

omit [MeasurableSpace S] in
theorem mean_pos (c : ℝ) (g : S → ℝ) {N : ℕ} (hN : 0 < N) (x : Fin N → S) : 0 < mean c g x := by
  haveI : Nonempty (Fin N) := ⟨⟨0, hN⟩⟩
  exact div_pos (Finset.sum_pos (fun i _ => exp_pos _) Finset.univ_nonempty) (by exact_mod_cast hN)

/-- `√(2 log (2 / fp) / n)`. -/
noncomputable def width (n : ℕ) (fp : ℝ) : ℝ := √(2 * log (2 / fp) / n)

theorem width_nonneg (n : ℕ) (fp : ℝ) : 0 ≤ width n fp := Real.sqrt_nonneg _

theorem exp_width {n N : ℕ} (hn : 0 < n) (hN : n ≤ N) {fp : ℝ} (hf0 : 0 < fp) (hf1 : fp ≤ 1) :
    exp (-(N * (width n fp ^ 2 / 2))) ≤ fp / 2 := by
  have hL : 0 ≤ log (2 / fp) := log_nonneg (by rw [le_div_iff₀ hf0]; linarith)
  have hn' : (0 : ℝ) < n := by exact_mod_cast hn
  have hN' : (n : ℝ) ≤ N := by exact_mod_cast hN
  have h1 : log (2 / fp) ≤ N * (width n fp ^ 2 / 2) := by
    unfold width
    rw [Real.sq_sqrt (by positivity)]
    have e : (N : ℝ) * (2 * log (2 / fp) / n / 2) = N / n * log (2 / fp) := by field_simp
    rw [e]
    exact le_mul_of_one_le_left hL (by rw [le_div_iff₀ hn']; linarith)
  refine (exp_le_exp.2 (neg_le_neg h1)).trans (le_of_eq ?_)
  rw [exp_neg, exp_log (by positivity), inv_div]

theorem exp_mul_width_le {n : ℕ} {fp C α : ℝ} (hf0 : 0 < fp) (hf1 : fp ≤ 1) : exp (α * C) * width n fp ≤ gamma n fp C α := by
  refine le_trans (le_of_eq ?_) (le_max_right _ _)
  have hL : 0 ≤ log (2 / fp) := log_nonneg (by rw [le_div_iff₀ hf0]; linarith)
  have e : 2 * log (2 / fp) * exp (2 * α * C) / n = exp (α * C) ^ 2 * (2 * log (2 / fp) / n) := by
    rw [← exp_nat_mul]
    push_cast
    rw [show 2 * α * C = 2 * (α * C) by ring]
    ring
  rw [e, Real.sqrt_mul (sq_nonneg _), Real.sqrt_sq (exp_pos _).le]
  rfl

variable (P : Measure S) [IsProbabilityMeasure P] {g : S → ℝ} (hg : Measurable g) {C : ℝ} (hC : 0 < C) (hb : ∀ x, |g x| ≤ C)

include hg hC hb

/-- The mean of `exp (c g)` exceeds `(1 + γ) ^ θ` times its expectation with probability at most `fp / 2`, if `c = θ α`. -/
theorem upper_tail {α θ : ℝ} (hα : 0 < α) (hθ0 : 0 < θ) (hθ1 : θ ≤ 1) {n N : ℕ} (hn : 0 < n) (hN : n ≤ N) {fp : ℝ} (hf0 : 0 < fp)
    (hf1 : fp ≤ 1) {γ : ℝ} (hγ : exp (α * C) * width n fp ≤ γ) (hγ1 : γ ≤ 1) :
    (Measure.pi fun _ : Fin N => P).real {z | (∫ x, exp (θ * α * g x) ∂P) * (1 + γ) ^ θ ≤ mean (θ * α) g z} ≤ fp / 2 := by
  have hN' : (0 : ℝ) < N := by exact_mod_cast hn.trans_le hN
  have hc : 0 < θ * α := by positivity
  have hbc : ∀ x, |θ * α * g x| ≤ θ * (α * C) := fun x => by
    rw [abs_mul, abs_of_pos hc, ← mul_assoc]
    exact mul_le_mul_of_nonneg_left (hb x) hc.le
  have hp : 0 < ∫ x, exp (θ * α * g x) ∂P :=
    (exp_pos _).trans_le (RelativeChernoff.mean_bounds P (h := fun x => θ * α * g x) (by fun_prop) (by positivity) hbc).1
  refine le_trans (measureReal_mono fun z hz => ?_)
    ((RelativeChernoff.upper P (h := fun x => θ * α * g x) (by fun_prop) (by positivity) hbc N (width_nonneg n fp)).trans
      (exp_width hn hN hf0 hf1))
  simp only [Set.mem_ofPred_eq] at hz ⊢
  unfold mean at hz
  rw [le_div_iff₀ hN'] at hz
  refine le_trans ?_ hz
  rw [mul_comm]
  refine mul_le_mul_of_nonneg_right (mul_le_mul_of_nonneg_left ?_ hp.le) hN'.le
  exact RelativeChernoff.deviation_le hθ0.le hθ1 (by positivity) (width_nonneg n fp) hγ hγ1

/-- The mean of `exp (c g)` falls below `1 - γ` times its expectation with probability at most `fp / 2`. -/
theorem lower_tail {α c : ℝ} (hc : 0 < c) (hcα : c ≤ α) {n N : ℕ} (hn : 0 < n) (hN : n ≤ N) {fp : ℝ} (hf0 : 0 < fp)
    (hf1 : fp ≤ 1) {γ : ℝ} (hγ : exp (α * C) * width n fp ≤ γ) :
    (Measure.pi fun _ : Fin N => P).real {z | mean c g z ≤ (∫ x, exp (c * g x) ∂P) * (1 - γ)} ≤ fp / 2 := by
  have hN' : (0 : ℝ) < N := by exact_mod_cast hn.trans_le hN
  have hbc : ∀ x, |c * g x| ≤ c * C := fun x => by
    rw [abs_mul, abs_of_pos hc]
    exact mul_le_mul_of_nonneg_left (hb x) hc.le
  have hw := width_nonneg n fp
  have hγ' : exp (c * C) * width n fp ≤ γ :=
    (mul_le_mul_of_nonneg_right (exp_le_exp.2 (mul_le_mul_of_nonneg_right hcα hC.le)) hw).trans hγ
  have hγ0 : 0 ≤ γ := le_trans (by positivity) hγ'
  refine le_trans (measureReal_mono fun z hz => ?_)
    ((RelativeChernoff.lower P (h := fun x => c * g x) (by fun_prop) (by positivity) hbc N hγ0).trans
      (le_trans (exp_le_exp.2 (neg_le_neg ?_)) (exp_width hn hN hf0 hf1)))
  · simp only [Set.mem_ofPred_eq] at hz ⊢
    unfold mean at hz
    rw [div_le_iff₀ hN'] at hz
    linarith
  · refine mul_le_mul_of_nonneg_left ?_ hN'.le
    have h1 : width n fp ≤ γ * exp (-(c * C)) := by
      rw [exp_neg, ← div_eq_mul_inv, le_div_iff₀ (exp_pos _)]
      linarith
    have h2 := pow_le_pow_left₀ hw h1 2
    have e : exp (-(2 * (c * C))) = exp (-(c * C)) ^ 2 := by rw [← exp_nat_mul]; congr 1; push_cast; ring
    rw [e]
    nlinarith

end Fixed

section Joint

variable (P Q : Measure S) [IsProbabilityMeasure P] [IsProbabilityMeasure Q] {g : S → ℝ} (hg : Measurable g) {C : ℝ} (hC : 0 < C)
  (hb : ∀ x, |g x| ≤ C)

/-- The estimate of the divergence from test samples. -/
noncomputable def estimate (α : ℝ) (g : S → ℝ) {N M : ℕ} (z : (Fin N → S) × (Fin M → S)) : ℝ :=
  α / (α - 1) * log (mean (α - 1) g z.1) - log (mean α g z.2)

theorem measurable_mean (c : ℝ) {X : Type*} [MeasurableSpace X] {G : X → S → ℝ} (hG : Measurable fun z : X × S => G z.1 z.2) (N : ℕ) :
    Measurable fun z : X × (Fin N → S) => mean c (G z.1) z.2 := by
  unfold mean
  refine (Finset.measurable_fun_sum _ fun i _ => measurable_exp.comp (measurable_const.mul ?_)).div_const _
  exact hG.comp (measurable_fst.prodMk ((measurable_pi_apply i).comp measurable_snd))

theorem real_fst_le {X Y : Type*} [MeasurableSpace X] [MeasurableSpace Y] {μ : Measure X} {ν : Measure Y} [IsProbabilityMeasure μ]
    [IsProbabilityMeasure ν] {A : Set X} (hA : MeasurableSet A) : (μ.prod ν).real {z | z.1 ∈ A} = μ.real A :=
  (measurePreserving_fst (μ := μ) (ν := ν)).measureReal_preimage hA.nullMeasurableSet

theorem real_snd_le {X Y : Type*} [MeasurableSpace X] [MeasurableSpace Y] {μ : Measure X} {ν : Measure Y} [IsProbabilityMeasure μ]
    [IsProbabilityMeasure ν] {A : Set Y} (hA : MeasurableSet A) : (μ.prod ν).real {z | z.2 ∈ A} = ν.real A :=
  (measurePreserving_snd (μ := μ) (ν := ν)).measureReal_preimage hA.nullMeasurableSet

include hg in
theorem measurable_mean' (c : ℝ) (N : ℕ) : Measurable fun x : Fin N → S => mean c g x := by
  unfold mean
  fun_prop

include hg hC hb in
theorem estimate_upper {α : ℝ} (hα : 1 < α) {N M : ℕ} (hn : 0 < min N M) {fp : ℝ} (hf0 : 0 < fp) (hf1 : fp ≤ 1)
    (hγ1 : gamma (min N M) fp C α < 1) :
    ((Measure.pi fun _ : Fin N => P).prod (Measure.pi fun _ : Fin M => Q)).real
      {z | renyiValue α g P Q + log ((1 + gamma (min N M) fp C α) / (1 - gamma (min N M) fp C α)) ≤ estimate α g z} ≤ fp := by
  have hα0 : 0 < α := by linarith
  have h0 : 0 < α - 1 := by linarith
  set n := min N M
  set γ := gamma n fp C α with hγdef
  have hγw : exp (α * C) * width n fp ≤ γ := exp_mul_width_le hf0 hf1
  have hγ0 : 0 ≤ γ := le_trans (mul_nonneg (exp_pos _).le (width_nonneg _ _)) hγw
  set θ := (α - 1) / α with hθ
  have hθ0 : 0 < θ := by positivity
  have hθ1 : θ ≤ 1 := by rw [hθ, div_le_one hα0]; linarith
  have hθα : θ * α = α - 1 := by rw [hθ]; field_simp
  have u := upper_tail P hg hC hb hα0 hθ0 hθ1 hn (min_le_left N M) hf0 hf1 hγw hγ1.le
  rw [hθα] at u
  have l := lower_tail Q hg hC hb hα0 le_rfl hn (min_le_right N M) hf0 hf1 hγw
  have m1 := measurable_mean' hg (α - 1) N
  have m2 := measurable_mean' hg α M
  have h12 := (measureReal_union_le (μ := (Measure.pi fun _ : Fin N => P).prod (Measure.pi fun _ : Fin M => Q)) _ _).trans (add_le_add
    ((real_fst_le (μ := Measure.pi fun _ : Fin N => P) (ν := Measure.pi fun _ : Fin M => Q) (measurableSet_le measurable_const m1)).trans_le u)
    ((real_snd_le (μ := Measure.pi fun _ : Fin N => P) (ν := Measure.pi fun _ : Fin M => Q) (measurableSet_le m2 measurable_const)).trans_le l))
  refine (measureReal_mono fun z hz => ?_).trans (h12.trans (by linarith))
  by_contra hcon
  rw [Set.mem_union, not_or] at hcon
  simp only [Set.mem_ofPred_eq, not_le] at hcon hz
  obtain ⟨c1, c2⟩ := hcon
  have hbc : ∀ c : ℝ, 0 < c → ∀ x, |c * g x| ≤ c * C := fun c hc x => by
    rw [abs_mul, abs_of_pos hc]
    exact mul_le_mul_of_nonneg_left (hb x) hc.le
  have p1 := (exp_pos _).trans_le (RelativeChernoff.mean_bounds P (h := fun x => (α - 1) * g x) (by fun_prop) (by positivity) (hbc _ h0)).1
  have p2 := (exp_pos _).trans_le (RelativeChernoff.mean_bounds Q (h := fun x => α * g x) (by fun_prop) (by positivity) (hbc _ hα0)).1
  have q1 := mean_pos (α - 1) g (hn.trans_le (min_le_left N M)) z.1
  have q2 := mean_pos α g (hn.trans_le (min_le_right N M)) z.2
  have l1 := log_lt_log q1 c1
  have l2 := log_lt_log (mul_pos p2 (by linarith)) c2
  rw [log_mul p1.ne' (by positivity), log_rpow (by linarith)] at l1
  rw [log_mul p2.ne' (by linarith)] at l2
  have l3 := mul_lt_mul_of_pos_left l1 (by positivity : 0 < α / (α - 1))
  have e : α / (α - 1) * (log (∫ x, exp ((α - 1) * g x) ∂P) + θ * log (1 + γ)) =
      α / (α - 1) * log (∫ x, exp ((α - 1) * g x) ∂P) + log (1 + γ) := by
    rw [hθ]; field_simp
  rw [e] at l3
  rw [log_div (by linarith) (by linarith)] at hz
  unfold estimate renyiValue at hz
  linarith

include hg hC hb in
theorem estimate_lower {α : ℝ} (hα : 1 < α) {N M : ℕ} (hn : 0 < min N M) {fp : ℝ} (hf0 : 0 < fp) (hf1 : fp ≤ 1)
    (hγ1 : gamma (min N M) fp C α < 1) :
    ((Measure.pi fun _ : Fin N => P).prod (Measure.pi fun _ : Fin M => Q)).real
      {z | estimate α g z ≤ renyiValue α g P Q + α / (α - 1) * log (1 - gamma (min N M) fp C α) - log (1 + gamma (min N M) fp C α)} ≤ fp := by
  have hα0 : 0 < α := by linarith
  have h0 : 0 < α - 1 := by linarith
  set n := min N M
  set γ := gamma n fp C α with hγdef
  have hγw : exp (α * C) * width n fp ≤ γ := exp_mul_width_le hf0 hf1
  have hγ0 : 0 ≤ γ := le_trans (mul_nonneg (exp_pos _).le (width_nonneg _ _)) hγw
  have u := upper_tail Q hg hC hb hα0 one_pos le_rfl hn (min_le_right N M) hf0 hf1 hγw hγ1.le
  rw [one_mul, rpow_one] at u
  have l := lower_tail P hg hC hb h0 (by linarith : α - 1 ≤ α) hn (min_le_left N M) hf0 hf1 hγw
  have m1 := measurable_mean' hg (α - 1) N
  have m2 := measurable_mean' hg α M
  have h12 := (measureReal_union_le (μ := (Measure.pi fun _ : Fin N => P).prod (Measure.pi fun _ : Fin M => Q)) _ _).trans (add_le_add
    ((real_fst_le (μ := Measure.pi fun _ : Fin N => P) (ν := Measure.pi fun _ : Fin M => Q) (measurableSet_le m1 measurable_const)).trans_le l)
    ((real_snd_le (μ := Measure.pi fun _ : Fin N => P) (ν := Measure.pi fun _ : Fin M => Q) (measurableSet_le measurable_const m2)).trans_le u))
  refine (measureReal_mono fun z hz => ?_).trans (h12.trans (by linarith))
  by_contra hcon
  rw [Set.mem_union, not_or] at hcon
  simp only [Set.mem_ofPred_eq, not_le] at hcon hz
  obtain ⟨c1, c2⟩ := hcon
  have hbc : ∀ c : ℝ, 0 < c → ∀ x, |c * g x| ≤ c * C := fun c hc x => by
    rw [abs_mul, abs_of_pos hc]
    exact mul_le_mul_of_nonneg_left (hb x) hc.le
  have p1 := (exp_pos _).trans_le (RelativeChernoff.mean_bounds P (h := fun x => (α - 1) * g x) (by fun_prop) (by positivity) (hbc _ h0)).1
  have p2 := (exp_pos _).trans_le (RelativeChernoff.mean_bounds Q (h := fun x => α * g x) (by fun_prop) (by positivity) (hbc _ hα0)).1
  have q1 := mean_pos (α - 1) g (hn.trans_le (min_le_left N M)) z.1
  have q2 := mean_pos α g (hn.trans_le (min_le_right N M)) z.2
  have l1 := log_lt_log (mul_pos p1 (by linarith)) c1
  have l2 := log_lt_log q2 c2
  rw [log_mul p1.ne' (by linarith)] at l1
  rw [log_mul p2.ne' (by linarith)] at l2
  have l3 := mul_lt_mul_of_pos_left l1 (by positivity : 0 < α / (α - 1))
  rw [mul_add] at l3
  unfold estimate renyiValue at hz
  linarith

end Joint

/-! ### The tester -/

section Tester

theorem measurable_section {X Y : Type*} [MeasurableSpace X] [MeasurableSpace Y] {G : X → Y → ℝ} (hG : Measurable fun z : X × Y => G z.1 z.2)
    (w : X) : Measurable (G w) := hG.comp measurable_prodMk_left

variable (t : RenyiTester S)

/-- The trained model depends measurably on the training samples and its argument. -/
def MeasurableTraining : Prop :=
  ∀ a b : ℕ, Measurable fun z : ((Fin a → S) × (Fin b → S)) × S => t.network (List.ofFn z.1.1) (List.ofFn z.1.2) z.2

variable {t}

omit [MeasurableSpace S] in
theorem abs_output (hC : 0 < t.bound) (l1 l2 : List S) (x : S) : |t.output l1 l2 x| ≤ t.bound := by
  unfold output
  rw [abs_mul, abs_of_pos hC]
  refine mul_le_of_le_one_right hC.le (abs_le.2 ⟨?_, ?_⟩)
  · exact (neg_one_lt_tanh _).le
  · exact (tanh_lt_one _).le

theorem measurable_output (ht : t.MeasurableTraining) (a b : ℕ) :
    Measurable fun z : ((Fin a → S) × (Fin b → S)) × S => t.output (List.ofFn z.1.1) (List.ofFn z.1.2) z.2 := by
  unfold output
  have h : Measurable Real.tanh := by
    have : Real.tanh = fun x => sinh x / cosh x := by
      funext x
      exact tanh_eq_sinh_div_cosh x
    rw [this]
    exact measurable_sinh.div measurable_cosh
  exact measurable_const.mul (h.comp (ht a b))

omit [MeasurableSpace S] in
theorem split_add {a N : ℕ} (ha : (a + N) / 2 = a) (h1 : a + N ≠ 1) (x : Fin (a + N) → S) : Testers.split (List.ofFn x) =
    .ok (List.ofFn fun i => x (Fin.castAdd N i), List.ofFn fun j => x (Fin.natAdd a j)) := by
  unfold Testers.split
  rw [List.length_ofFn]
  simp only []
  rw [if_neg h1, ha]
  have e : List.ofFn x = (List.ofFn fun i => x (Fin.castAdd N i)) ++ List.ofFn fun j => x (Fin.natAdd a j) := List.ofFn_add
  rw [e, List.take_left' (by simp), List.drop_left' (by simp)]

omit [MeasurableSpace S] in
theorem split_one {a N : ℕ} (h1 : a + N = 1) (x : Fin (a + N) → S) : Testers.split (List.ofFn x) = .error .valueError := by
  unfold Testers.split
  rw [List.length_ofFn]
  simp only []
  rw [if_pos h1]

/-- The training samples and the test samples. -/
def parts {a N b M : ℕ} (z : (Fin (a + N) → S) × (Fin (b + M) → S)) : ((Fin a → S) × (Fin b → S)) × ((Fin N → S) × (Fin M → S)) :=
  (((fun i => z.1 (Fin.castAdd N i)), fun i => z.2 (Fin.castAdd M i)), ((fun j => z.1 (Fin.natAdd a j)), fun j => z.2 (Fin.natAdd b j)))

theorem preserving_parts (P Q : Measure S) [IsProbabilityMeasure P] [IsProbabilityMeasure Q] (a N b M : ℕ) :
    MeasurePreserving (parts (S := S) (a := a) (N := N) (b := b) (M := M)) (independentSamples P Q (a + N) (b + M))
      (((Measure.pi fun _ => P).prod (Measure.pi fun _ => Q)).prod ((Measure.pi fun _ => P).prod (Measure.pi fun _ => Q))) :=
  (preserving_middle (Measure.pi fun _ : Fin a => P) (Measure.pi fun _ : Fin N => P) (Measure.pi fun _ : Fin b => Q)
    (Measure.pi fun _ : Fin M => Q)).comp ((preserving_split P a N).prod (preserving_split Q b M))

open Classical in
omit [MeasurableSpace S] in
theorem estimate_eq (t : RenyiTester S) {a N b M : ℕ} (ha : (a + N) / 2 = a) (hb : (b + M) / 2 = b)
    (z : (Fin (a + N) → S) × (Fin (b + M) → S)) {fp : ℝ} (hf0 : 0 < fp) (hf1 : fp ≤ 1) (hα : t.alpha ≠ 1) :
    t.estimateLowerBound (List.ofFn z.1) (List.ofFn z.2) fp =
      if a = b ∧ 0 < a then
        .ok (if gamma (min N M) fp t.bound t.alpha < 1 then
            .num ((estimate t.alpha (t.output (List.ofFn (parts z).1.1) (List.ofFn (parts z).1.2)) (parts z).2 -
              log ((1 + gamma (min N M) fp t.bound t.alpha) / (1 - gamma (min N M) fp t.bound t.alpha)) : ℝ))
          else if gamma (min N M) fp t.bound t.alpha = 1 then .num ⊥
          else .nan)
      else .error .valueError := by
  unfold estimateLowerBound
  by_cases h1 : a + N = 1
  · rw [split_one h1, if_neg (by omega)]
  by_cases h2 : b + M = 1
  · rw [split_add ha h1, split_one h2, if_neg (by omega)]
  rw [split_add ha h1, split_add hb h2]
  simp only [List.length_ofFn]
  by_cases h3 : a = b ∧ 0 < a
  · rw [if_pos h3, if_neg (by omega), if_neg hα, if_neg hf0.ne']
    congr 1
    unfold errorFromSamples
    rw [if_neg (by intro h; rcases h with h | h <;> linarith)]
    simp only []
    split_ifs with h4 h5
    · unfold divergence estimate
      rw [meanExp_ofFn, meanExp_ofFn]
      rfl
    · simp only [EReal.sub_top]
    · rfl
  · rw [if_neg h3, if_pos (by omega)]

theorem sound (ht : t.MeasurableTraining) (hα : 1 < t.alpha) (hC : 0 < t.bound) {P Q : Measure S} [IsProbabilityMeasure P]
    [IsProbabilityMeasure Q] {r : ℝ} (hr : renyiDiv t.alpha P Q ≤ (r : EReal)) (n1 n2 : ℕ) {fp : ℝ} (hf0 : 0 < fp) (hf1 : fp ≤ 1) :
    (independentSamples P Q n1 n2).real
      {z | ∃ b, t.estimateLowerBound (List.ofFn z.1) (List.ofFn z.2) fp = .ok b ∧ PyFloat.lt (.num r) b} ≤ fp := by
  obtain ⟨a, N, hn, ha⟩ : ∃ a N, n1 = a + N ∧ n1 / 2 = a := ⟨n1 / 2, n1 - n1 / 2, by omega, rfl⟩
  obtain ⟨b, M, hm, hb⟩ : ∃ b M, n2 = b + M ∧ n2 / 2 = b := ⟨n2 / 2, n2 - n2 / 2, by omega, rfl⟩
  subst hn hm
  have : IsProbabilityMeasure (independentSamples P Q (a + N) (b + M)) := by unfold independentSamples; infer_instance
  by_cases hab : a = b ∧ 0 < a
  · by_cases hγ : gamma (min N M) fp t.bound t.alpha < 1
    · have hpos : 0 < min N M := by omega
      let G : (Fin a → S) × (Fin b → S) → S → ℝ := fun w => t.output (List.ofFn w.1) (List.ofFn w.2)
      have hG : Measurable fun z : ((Fin a → S) × (Fin b → S)) × S => G z.1 z.2 := measurable_output ht a b
      let F : Set (((Fin a → S) × (Fin b → S)) × ((Fin N → S) × (Fin M → S))) :=
        {z | r ≤ estimate t.alpha (G z.1) z.2 - log ((1 + gamma (min N M) fp t.bound t.alpha) / (1 - gamma (min N M) fp t.bound t.alpha))}
      have hF : MeasurableSet F := by
        refine measurableSet_le measurable_const (Measurable.sub_const ?_ _)
        have m1 := (measurable_mean (t.alpha - 1) hG N).comp
          (measurable_fst.prodMk (measurable_fst.comp measurable_snd) : Measurable fun z : ((Fin a → S) × (Fin b → S)) × ((Fin N → S) × (Fin M → S)) => (z.1, z.2.1))
        have m2 := (measurable_mean t.alpha hG M).comp
          (measurable_fst.prodMk (measurable_snd.comp measurable_snd) : Measurable fun z : ((Fin a → S) × (Fin b → S)) × ((Fin N → S) × (Fin M → S)) => (z.1, z.2.2))
        exact (measurable_const.mul (measurable_log.comp m1)).sub (measurable_log.comp m2)
      have hsub : {z : (Fin (a + N) → S) × (Fin (b + M) → S) | ∃ b, t.estimateLowerBound (List.ofFn z.1) (List.ofFn z.2) fp = .ok b ∧ PyFloat.lt (.num r) b} ⊆
          parts ⁻¹' F := by
        rintro z ⟨v, hv, hlt⟩
        rw [estimate_eq t ha hb z hf0 hf1 hα.ne', if_pos hab, if_pos hγ] at hv
        obtain rfl := Except.ok.inj hv
        have : (r : EReal) < _ := hlt
        rw [EReal.coe_lt_coe_iff] at this
        exact this.le
      refine (measureReal_mono hsub).trans ?_
      refine (le_of_eq ((preserving_parts P Q a N b M).measureReal_preimage hF.nullMeasurableSet)).trans (real_prod_le hF hf0.le fun w => ?_)
      have hgw : Measurable (G w) := measurable_section (G := G) hG w
      have hbw : ∀ x, |G w x| ≤ t.bound := abs_output hC _ _
      refine le_trans (measureReal_mono fun z hz => ?_) (estimate_upper P Q hgw hC hbw hα hpos hf0 hf1 hγ)
      have hz' : r ≤ _ := hz
      have := value_le hα hr hgw hC hbw
      simp only [Set.mem_ofPred_eq]
      linarith
    · refine le_trans (le_of_eq ?_) hf0.le
      rw [measureReal_eq_zero_iff]
      convert measure_empty (μ := independentSamples P Q (a + N) (b + M))
      rw [Set.eq_empty_iff_forall_notMem]
      rintro z ⟨v, hv, hlt⟩
      rw [estimate_eq t ha hb z hf0 hf1 hα.ne', if_pos hab, if_neg hγ] at hv
      obtain rfl := Except.ok.inj hv
      split_ifs at hlt
      · exact not_lt_bot (a := (r : EReal)) hlt
      · exact hlt
  · refine le_trans (le_of_eq ?_) hf0.le
    rw [measureReal_eq_zero_iff]
    convert measure_empty (μ := independentSamples P Q (a + N) (b + M))
    rw [Set.eq_empty_iff_forall_notMem]
    rintro z ⟨v, hv, -⟩
    rw [estimate_eq t ha hb z hf0 hf1 hα.ne', if_neg hab] at hv
    cases hv

theorem power (ht : t.MeasurableTraining) (hα : 1 < t.alpha) (hC : 0 < t.bound) (P Q : Measure S) [IsProbabilityMeasure P]
    [IsProbabilityMeasure Q] (n1 n2 n : ℕ) (h12 : n1 / 2 = n2 / 2) (h1 : 2 ≤ n1) (hn : n = min (n1 - n1 / 2) (n2 - n2 / 2)) {fp γ : ℝ}
    (hf0 : 0 < fp) (hf1 : fp ≤ 1) (hγ : γ = gamma n fp t.bound t.alpha) (hγ1 : γ < 1) :
    (independentSamples P Q n1 n2).real
      {z | ¬∃ b : ℝ, t.estimateLowerBound (List.ofFn z.1) (List.ofFn z.2) fp = .ok (.num b) ∧
        renyiValue t.alpha (t.output ((List.ofFn z.1).take (n1 / 2)) ((List.ofFn z.2).take (n2 / 2))) P Q +
          (2 * t.alpha - 1) / (t.alpha - 1) * log (1 - γ) - 2 * log (1 + γ) ≤ b} ≤ fp := by
  obtain ⟨a, N, hn', ha, hN⟩ : ∃ a N, n1 = a + N ∧ n1 / 2 = a ∧ n1 - n1 / 2 = N := ⟨n1 / 2, n1 - n1 / 2, by omega, rfl, rfl⟩
  obtain ⟨b, M, hm', hb, hM⟩ : ∃ b M, n2 = b + M ∧ n2 / 2 = b ∧ n2 - n2 / 2 = M := ⟨n2 / 2, n2 - n2 / 2, by omega, rfl, rfl⟩
  rw [hN, hM] at hn
  rw [ha, hb] at h12
  rw [ha, hb]
  subst hn' hm' hn hγ
  have : IsProbabilityMeasure (independentSamples P Q (a + N) (b + M)) := by unfold independentSamples; infer_instance
  have hab : a = b ∧ 0 < a := ⟨h12, by omega⟩
  have hpos : 0 < min N M := by omega
  have hα0 : 0 < t.alpha - 1 := by linarith
  let G : (Fin a → S) × (Fin b → S) → S → ℝ := fun w => t.output (List.ofFn w.1) (List.ofFn w.2)
  have hG : Measurable fun z : ((Fin a → S) × (Fin b → S)) × S => G z.1 z.2 := measurable_output ht a b
  set γ := gamma (min N M) fp t.bound t.alpha with hγdef
  let F : Set (((Fin a → S) × (Fin b → S)) × ((Fin N → S) × (Fin M → S))) :=
    {z | estimate t.alpha (G z.1) z.2 ≤ renyiValue t.alpha (G z.1) P Q + t.alpha / (t.alpha - 1) * log (1 - γ) - log (1 + γ)}
  have hF : MeasurableSet F := by
    have m1 := (measurable_mean (t.alpha - 1) hG N).comp
      (measurable_fst.prodMk (measurable_fst.comp measurable_snd) : Measurable fun z : ((Fin a → S) × (Fin b → S)) × ((Fin N → S) × (Fin M → S)) => (z.1, z.2.1))
    have m2 := (measurable_mean t.alpha hG M).comp
      (measurable_fst.prodMk (measurable_snd.comp measurable_snd) : Measurable fun z : ((Fin a → S) × (Fin b → S)) × ((Fin N → S) × (Fin M → S)) => (z.1, z.2.2))
    have e : ∀ (c : ℝ) (R : Measure S) [IsProbabilityMeasure R], Measurable fun w => ∫ x, exp (c * G w x) ∂R := fun c R _ => by
      have hm : Measurable fun z : ((Fin a → S) × (Fin b → S)) × S => exp (c * G z.1 z.2) := measurable_exp.comp (measurable_const.mul hG)
      exact hm.stronglyMeasurable.integral_prod_right'.measurable
    have mv : Measurable fun w => renyiValue t.alpha (G w) P Q := by
      unfold renyiValue
      exact (measurable_const.mul (measurable_log.comp (e _ P))).sub (measurable_log.comp (e _ Q))
    exact measurableSet_le ((measurable_const.mul (measurable_log.comp m1)).sub (measurable_log.comp m2))
      (((mv.comp measurable_fst).add_const _).sub_const _)
  refine (measureReal_mono (s₂ := parts ⁻¹' F) fun z hz => ?_).trans ?_
  · by_contra hcon
    refine hz ⟨_, by rw [estimate_eq t ha hb z hf0 hf1 hα.ne', if_pos hab, if_pos hγ1], ?_⟩
    have hcon' : ¬(estimate t.alpha (G (parts z).1) (parts z).2 ≤ _) := hcon
    rw [not_le] at hcon'
    have e1 : ∀ {K L : ℕ} (x : Fin (K + L) → S), (List.ofFn x).take K = List.ofFn fun i => x (Fin.castAdd L i) := fun {K L} x => by
      have e : List.ofFn x = (List.ofFn fun i => x (Fin.castAdd L i)) ++ List.ofFn fun j => x (Fin.natAdd K j) := List.ofFn_add
      rw [e, List.take_left' (by simp)]
    rw [e1, e1]
    have hγ0 : 0 ≤ γ := le_trans (Real.sqrt_nonneg _) (le_max_left _ _)
    rw [← hγdef, log_div (by linarith) (by linarith)]
    have e2 : (2 * t.alpha - 1) / (t.alpha - 1) = t.alpha / (t.alpha - 1) + 1 := by field_simp; ring
    rw [e2, add_mul, one_mul]
    have : renyiValue t.alpha (G (parts z).1) P Q + t.alpha / (t.alpha - 1) * log (1 - γ) - log (1 + γ) <
      estimate t.alpha (G (parts z).1) (parts z).2 := hcon'
    have e3 : (List.ofFn fun i => z.1 (Fin.castAdd N i), List.ofFn fun i => z.2 (Fin.castAdd M i)) =
      (List.ofFn (parts z).1.1, List.ofFn (parts z).1.2) := rfl
    change renyiValue t.alpha (G (parts z).1) P Q + _ - _ ≤ estimate t.alpha (G (parts z).1) (parts z).2 - _
    linarith
  · refine (le_of_eq ((preserving_parts P Q a N b M).measureReal_preimage hF.nullMeasurableSet)).trans (real_prod_le hF hf0.le fun w => ?_)
    have hgw : Measurable (G w) := measurable_section (G := G) hG w
    exact estimate_lower P Q hgw hC (abs_output hC _ _) hα hpos hf0 hf1 hγ1

end Tester

end Verif.Testers.RenyiTester
