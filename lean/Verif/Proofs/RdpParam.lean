import Verif.Proofs.RdpNonneg
import Verif.Props.RdpMonotone
import Verif.Spec.Milder

/-! # The RDP functions of the library are monotone in the parameters of the events -/

namespace Verif.Rdp
open Verif Verif.Spec Verif.Props Verif.Pld MeasureTheory ProbabilityTheory
open scoped ENNReal

variable {Ω : Type} [MeasurableSpace Ω]

/-- Post-processing at random. -/
lemma renyi_bind {Ω' : Type} [MeasurableSpace Ω'] {α : ℝ} (hα : 1 ≤ α) (P Q : Measure Ω) [IsProbabilityMeasure P] [IsProbabilityMeasure Q]
    (κ : Kernel Ω Ω') [IsMarkovKernel κ] : renyiDiv α (P.bind κ) (Q.bind κ) ≤ renyiDiv α P Q := by
  have hn := RdpConv.renyi_nonneg (P := P) (Q := Q) hα
  by_cases ht : renyiDiv α P Q = ⊤
  · rw [ht]; exact le_top
  obtain ⟨r, hr⟩ : ∃ r : ℝ, renyiDiv α P Q = (r : EReal) :=
    ⟨_, (EReal.coe_toReal ht (by intro hb; rw [hb] at hn; simp at hn)).symm⟩
  have h1 := renyi_adaptive (κ := κ) (η := κ) (s := 0) hα hr.le fun x => by
    rw [RdpConv.renyi_self α hα (κ x)]; exact le_of_eq EReal.coe_zero.symm
  rw [add_zero] at h1
  have h2 := renyi_map hα measurable_snd h1
  rw [hr]
  have e : ∀ μ : Measure Ω, [IsProbabilityMeasure μ] → (μ ⊗ₘ κ).map Prod.snd = μ.bind κ := fun μ _ => Measure.snd_compProd μ κ
  rwa [e P, e Q] at h2

/-- With probability `1 - t`, forget the output. -/
lemma renyi_mix {α t : ℝ} (hα : 1 ≤ α) (h0 : 0 ≤ t) (h1 : t ≤ 1) (P Q U : Measure Ω) [IsProbabilityMeasure P] [IsProbabilityMeasure Q]
    [IsProbabilityMeasure U] :
    renyiDiv α (ENNReal.ofReal (1 - t) • U + ENNReal.ofReal t • P) (ENNReal.ofReal (1 - t) • U + ENNReal.ofReal t • Q) ≤ renyiDiv α P Q := by
  have hm : Measurable fun x : Ω => ENNReal.ofReal (1 - t) • U + ENNReal.ofReal t • Measure.dirac x := by
    refine Measure.measurable_of_measurable_coe _ fun s hs => ?_
    simp only [Measure.coe_add, Measure.coe_smul, Pi.add_apply, Pi.smul_apply, Measure.dirac_apply' _ hs, smul_eq_mul]
    exact measurable_const.add (measurable_const.mul (measurable_one.indicator hs))
  let κ : Kernel Ω Ω := ⟨_, hm⟩
  have hκ : IsMarkovKernel κ := ⟨fun x => ⟨by
    simp only [κ, Kernel.coe_mk, Measure.coe_add, Measure.coe_smul, Pi.add_apply, Pi.smul_apply, measure_univ, smul_eq_mul, mul_one]
    rw [← ENNReal.ofReal_add (by linarith) h0, sub_add_cancel, ENNReal.ofReal_one]⟩⟩
  have e : ∀ μ : Measure Ω, [IsProbabilityMeasure μ] → μ.bind κ = ENNReal.ofReal (1 - t) • U + ENNReal.ofReal t • μ := by
    intro μ _
    ext s hs
    rw [Measure.bind_apply hs κ.measurable.aemeasurable]
    simp only [κ, Kernel.coe_mk, Measure.coe_add, Measure.coe_smul, Pi.add_apply, Pi.smul_apply, Measure.dirac_apply' _ hs, smul_eq_mul]
    rw [lintegral_add_left measurable_const, lintegral_const, measure_univ, mul_one,
      lintegral_const_mul _ (measurable_one.indicator hs), lintegral_indicator_one hs]
  have := renyi_bind hα P Q κ
  rwa [e P, e Q] at this

lemma gauss_prob (m : ℝ) (v : NNReal) : IsProbabilityMeasure (gaussianReal m v) := inferInstance

lemma sampledDiv_zero (z : ℝ) {α : ℝ} (hα : 1 ≤ α) : sampledDiv 0 z α = 0 := by
  unfold sampledDiv
  simp only [sub_zero, ENNReal.ofReal_one, one_smul, ENNReal.ofReal_zero, zero_smul, add_zero]
  exact RdpConv.renyi_self α hα _

lemma sampledDiv_nonneg {q α : ℝ} (h0 : 0 ≤ q) (h1 : q ≤ 1) (hα : 1 ≤ α) (z : ℝ) : 0 ≤ sampledDiv q z α := by
  have := gaussMix_prob h0 h1 (Real.toNNReal (z ^ 2))
  exact RdpConv.renyi_nonneg (P := gaussMix q (Real.toNNReal (z ^ 2))) hα

/-- More sampling, more divergence. -/
lemma sampledDiv_mono_q {q q' α : ℝ} (h0 : 0 ≤ q) (hq : q ≤ q') (h1 : q' ≤ 1) (hα : 1 ≤ α) (z : ℝ) : sampledDiv q z α ≤ sampledDiv q' z α := by
  rcases (h0.trans hq).eq_or_lt with h | h
  · obtain rfl : q = q' := by linarith
    exact le_rfl
  have := gaussMix_prob h.le h1 (Real.toNNReal (z ^ 2))
  have ht0 : 0 ≤ q / q' := by positivity
  have ht1 : q / q' ≤ 1 := by rw [div_le_one h]; exact hq
  have key := renyi_mix hα ht0 ht1 (gaussMix q' (Real.toNNReal (z ^ 2))) (gaussianReal 0 (Real.toNNReal (z ^ 2)))
    (gaussianReal 0 (Real.toNNReal (z ^ 2)))
  have e1 : ENNReal.ofReal (1 - q / q') • gaussianReal 0 (Real.toNNReal (z ^ 2)) + ENNReal.ofReal (q / q') • gaussianReal 0 (Real.toNNReal (z ^ 2)) =
      gaussianReal 0 (Real.toNNReal (z ^ 2)) := by
    rw [← add_smul, ← ENNReal.ofReal_add (by linarith) ht0, sub_add_cancel, ENNReal.ofReal_one, one_smul]
  have e2 : ENNReal.ofReal (1 - q / q') • gaussianReal 0 (Real.toNNReal (z ^ 2)) + ENNReal.ofReal (q / q') • gaussMix q' (Real.toNNReal (z ^ 2)) =
      gaussMix q (Real.toNNReal (z ^ 2)) := by
    unfold gaussMix
    rw [smul_add, smul_smul, smul_smul, ← ENNReal.ofReal_mul ht0, ← ENNReal.ofReal_mul ht0, ← add_assoc, ← add_smul,
      ← ENNReal.ofReal_add (by linarith) (mul_nonneg ht0 (by linarith)), div_mul_cancel₀ _ h.ne']
    congr 3
    field_simp
    ring
  rw [e1, e2] at key
  exact key

/-- Less noise, more divergence. -/
lemma sampledDiv_anti_z {q α z z' : ℝ} (h0 : 0 ≤ q) (h1 : q ≤ 1) (hα : 1 ≤ α) (hz : 0 < z') (hzz : z' ≤ z) : sampledDiv q z α ≤ sampledDiv q z' α := by
  obtain ⟨w, hw⟩ : ∃ w : NNReal, Real.toNNReal (z ^ 2) = Real.toNNReal (z' ^ 2) + w :=
    ⟨_, (add_tsub_cancel_of_le (Real.toNNReal_le_toNNReal (by gcongr))).symm⟩
  have hm : Measurable fun p : ℝ × ℝ => p.1 + p.2 := measurable_fst.add measurable_snd
  have := gaussMix_prob h0 h1 (Real.toNNReal (z' ^ 2))
  have hg : ∀ m : ℝ, ((gaussianReal m (Real.toNNReal (z' ^ 2))).prod (gaussianReal 0 w)).map (fun p : ℝ × ℝ => p.1 + p.2) =
      gaussianReal m (Real.toNNReal (z ^ 2)) := by
    intro m
    have := gaussianReal_conv_gaussianReal (m₁ := m) (m₂ := 0) (v₁ := Real.toNNReal (z' ^ 2)) (v₂ := w)
    rw [add_zero, ← hw] at this
    exact this
  have key : renyiDiv α (((gaussMix q (Real.toNNReal (z' ^ 2))).prod (gaussianReal 0 w)).map (fun p : ℝ × ℝ => p.1 + p.2))
      (((gaussianReal 0 (Real.toNNReal (z' ^ 2))).prod (gaussianReal 0 w)).map (fun p : ℝ × ℝ => p.1 + p.2)) ≤ sampledDiv q z' α := by
    have hn := sampledDiv_nonneg h0 h1 hα z'
    by_cases ht : sampledDiv q z' α = ⊤
    · rw [ht]; exact le_top
    obtain ⟨r, hr⟩ : ∃ r : ℝ, sampledDiv q z' α = (r : EReal) :=
      ⟨_, (EReal.coe_toReal ht (by intro hb; rw [hb] at hn; simp at hn)).symm⟩
    have a1 := renyi_adaptive (P := gaussMix q (Real.toNNReal (z' ^ 2))) (Q := gaussianReal 0 (Real.toNNReal (z' ^ 2)))
      (κ := Kernel.const ℝ (gaussianReal 0 w)) (η := Kernel.const ℝ (gaussianReal 0 w)) (s := 0) (r := r) hα hr.le fun x => by
        rw [Kernel.const_apply, RdpConv.renyi_self α hα]; exact le_of_eq EReal.coe_zero.symm
    rw [add_zero, Measure.compProd_const, Measure.compProd_const] at a1
    rw [hr]
    exact renyi_map hα hm a1
  rw [hg] at key
  have e : ((gaussMix q (Real.toNNReal (z' ^ 2))).prod (gaussianReal 0 w)).map (fun p : ℝ × ℝ => p.1 + p.2) = gaussMix q (Real.toNNReal (z ^ 2)) := by
    unfold gaussMix
    rw [Measure.add_prod, Measure.prod_smul_left, Measure.prod_smul_left, Measure.map_add _ _ hm, Measure.map_smul, Measure.map_smul, hg, hg]
  rw [e] at key
  exact key

lemma poisson_value {frac : ℝ → PyNum → ℝ → EReal} {q z α : ℝ} {sigma : PyNum} (h0 : 0 ≤ q) (h1 : q ≤ 1) (hz : 0 < z)
    (hs : sigma.val = (z : EReal)) (hα : 1 < α)
    (hf : (¬ ∃ m : ℤ, α = m) → 0 < q → q < 1 → frac q sigma α * (((α - 1)⁻¹ : ℝ) : EReal) = sampledDiv q z α) :
    poissonOneOrder frac q sigma (α : EReal) = .ok (sampledDiv q z α) := by
  by_cases hi : ∃ m : ℤ, α = m
  · obtain ⟨m, rfl⟩ := hi
    have hm : (1 : ℤ) < m := by exact_mod_cast hα
    obtain ⟨k, rfl⟩ := Int.eq_ofNat_of_zero_le (by omega : 0 ≤ m)
    have := C39_poisson_exact frac sigma z hs hz q h0 h1 k (by omega)
    rw [Int.cast_natCast]
    exact this
  · rcases h0.eq_or_lt with rfl | h0
    · rw [sampledDiv_zero z hα.le, poissonOneOrder, if_pos rfl]
    rcases h1.eq_or_lt with rfl | h1
    · rw [C39_gaussian_exact frac sigma z hs hz α hα.le]
      unfold sampledDiv
      simp
    · have hne : ¬ ((α : EReal) = ⊤ ∨ sigma.val = 0) := by
        rw [hs]; push Not; exact ⟨EReal.coe_ne_top _, by exact_mod_cast hz.ne'⟩
      unfold poissonOneOrder
      rw [if_neg h0.ne', if_neg hne, if_neg h1.ne, if_neg (by exact_mod_cast hα.ne'), EReal.toReal_coe, logA, dif_neg hi, hf hi h0 h1]

lemma halfInvSq_anti {z z' : PyNum} (h0 : 0 < z'.val) (h : z'.val ≤ z.val) : halfInvSq z ≤ halfInvSq z' := by
  by_cases ht : z.val = ⊤
  · rw [none_of_top ht]
    exact halfInvSq_nonneg _
  have hb : z.val ≠ ⊥ := by intro hb; rw [hb] at h; exact absurd (h0.trans_le h) (by simp)
  have ht' : z'.val ≠ ⊤ := fun e => ht (top_le_iff.1 (e ▸ h))
  have hz := (EReal.coe_toReal ht hb).symm
  have hz' := (EReal.coe_toReal ht' (by intro hb'; rw [hb'] at h0; simp at h0)).symm
  rw [hz'] at h0 h
  rw [hz] at h
  have g0 : 0 < z'.val.toReal := by exact_mod_cast h0
  have g1 : z'.val.toReal ≤ z.val.toReal := by exact_mod_cast h
  rw [halfInvSq_eq hz, halfInvSq_eq hz', Real.coe_toNNReal _ (sq_nonneg _), Real.coe_toNNReal _ (sq_nonneg _)]
  gcongr

/-- One order of `_compute_rdp_poisson_subsampled_gaussian`. -/
lemma poisson_mono {frac : ℝ → PyNum → ℝ → EReal} {q q' α : ℝ} {z z' : PyNum} {r r' : EReal} (hα : 1 ≤ α) (h0 : 0 ≤ q) (hq : q ≤ q') (h1 : q' ≤ 1)
    (hz0 : 0 ≤ z'.val) (hz : z'.val ≤ z.val) (hfin : q ≠ 1 → z.val ≠ ⊤)
    (hn : (¬ ∃ m : ℤ, α = m) → ∀ q sigma, 0 < q → q < 1 → 0 < PyNum.val sigma → 0 ≤ frac q sigma α)
    (hf : (¬ ∃ m : ℤ, α = m) → ∀ (q z : ℝ) (sigma : PyNum), 0 < q → q < 1 → 0 < z → sigma.val = (z : EReal) →
      frac q sigma α * (((α - 1)⁻¹ : ℝ) : EReal) = sampledDiv q z α)
    (h : poissonOneOrder frac q z (α : EReal) = .ok r) (h' : poissonOneOrder frac q' z' (α : EReal) = .ok r') : r ≤ r' := by
  have hr' : 0 ≤ r' := poisson_nonneg (h0.trans hq) h1 hα hz0 (fun hi a b c => hn hi q' z' a b c) h'
  rcases h0.eq_or_lt with rfl | h0
  · rw [poissonOneOrder, if_pos rfl, Except.ok.injEq] at h
    rw [← h]; exact hr'
  have hq0 := h0.trans_le hq
  rcases hz0.eq_or_lt with hz0 | hz0
  · rw [poissonOneOrder, if_neg hq0.ne', if_pos (Or.inr hz0.symm), Except.ok.injEq] at h'
    rw [← h']; exact le_top
  have hzp := hz0.trans_le hz
  have hne : ∀ z : PyNum, 0 < z.val → ¬ ((α : EReal) = ⊤ ∨ z.val = 0) := by
    intro z hz; push Not; exact ⟨EReal.coe_ne_top _, hz.ne'⟩
  by_cases hq1 : q = 1
  · obtain rfl : q' = 1 := by linarith
    subst hq1
    rw [poissonOneOrder, if_neg one_ne_zero, if_neg (hne z hzp), if_pos rfl, Except.ok.injEq] at h
    rw [poissonOneOrder, if_neg one_ne_zero, if_neg (hne z' hz0), if_pos rfl, Except.ok.injEq] at h'
    rw [← h, ← h']
    refine mul_le_mul_of_nonneg_left ?_ (by exact_mod_cast (by linarith : (0 : ℝ) ≤ α))
    exact_mod_cast halfInvSq_anti hz0 hz
  have hfin := hfin hq1
  rcases hα.eq_or_lt with rfl | hα
  · rw [poissonOneOrder, if_neg h0.ne', if_neg (hne z hzp), if_neg hq1, if_pos (by rfl)] at h
    simp at h
  have ht' : z'.val ≠ ⊤ := fun e => hfin (top_le_iff.1 (e ▸ hz))
  have e := (EReal.coe_toReal hfin (by intro hb; rw [hb] at hzp; simp at hzp)).symm
  have e' := (EReal.coe_toReal ht' (by intro hb; rw [hb] at hz0; simp at hz0)).symm
  have g0 : 0 < z'.val.toReal := by rw [e'] at hz0; exact_mod_cast hz0
  have g1 : z'.val.toReal ≤ z.val.toReal := by rw [e, e'] at hz; exact_mod_cast hz
  rw [poisson_value h0.le (hq.trans h1) (g0.trans_le g1) e hα fun hi a b => hf hi _ _ _ a b (g0.trans_le g1) e, Except.ok.injEq] at h
  rw [poisson_value hq0.le h1 g0 e' hα fun hi a b => hf hi _ _ _ a b g0 e', Except.ok.injEq] at h'
  rw [← h, ← h']
  exact (sampledDiv_anti_z h0.le (hq.trans h1) hα.le g0 g1).trans (sampledDiv_mono_q h0.le hq h1 hα.le _)

variable {n : ℕ}

lemma poissonGaussian_mono {frac : ℝ → PyNum → ℝ → EReal} {orders : Fin n → ℝ} (ho : ∀ i, 1 ≤ orders i) (hn : FracNonneg orders frac)
    (hf : FracExact orders frac) {q q' z z' : PyNum} {a a' : Arr n} (hq : q.val ≤ q'.val) (hz : z'.val ≤ z.val)
    (hfin : q.val ≠ 1 → z.val ≠ ⊤) (h : poissonGaussian frac (fun i => (orders i : EReal)) q (.num z) = .ok a)
    (h' : poissonGaussian frac (fun i => (orders i : EReal)) q' (.num z') = .ok a') (i : Fin n) : a i ≤ a' i := by
  unfold poissonGaussian at h h'
  by_cases c : ¬ (0 ≤ q.val ∧ q.val ≤ 1)
  · rw [if_pos c] at h; simp at h
  by_cases c' : ¬ (0 ≤ q'.val ∧ q'.val ≤ 1)
  · rw [if_pos c'] at h'; simp at h'
  rw [if_neg c] at h
  rw [if_neg c'] at h'
  push Not at c c'
  simp only at h h'
  by_cases cz : z.val < 0
  · rw [if_pos cz] at h; simp at h
  by_cases cz' : z'.val < 0
  · rw [if_pos cz'] at h'; simp at h'
  rw [if_neg cz] at h
  rw [if_neg cz'] at h'
  have fin : ∀ q : PyNum, 0 ≤ q.val ∧ q.val ≤ 1 → q.val = ((q.val.toReal : ℝ) : EReal) := by
    intro q c
    refine (EReal.coe_toReal ?_ ?_).symm
    · intro e; rw [e] at c; exact absurd c.2 (by rw [not_le]; exact EReal.coe_lt_top 1)
    · intro e; rw [e] at c; exact absurd c.1 (by simp)
  have e := fin q c
  have e' := fin q' c'
  rw [e, e'] at hq
  rw [e'] at c'
  refine poisson_mono (ho i) (EReal.toReal_nonneg c.1) (by exact_mod_cast hq) (by exact_mod_cast c'.2) (not_lt.1 cz') hz (fun h1 => hfin ?_)
    (hn i) (hf i) (collect_ok h i) (collect_ok h' i)
  intro h2
  rw [h2] at h1
  simp at h1

/-! ## Laplace -/

lemma recip_anti {z z' : PyNum} {e e' : ℝ} (hz : z'.val ≤ z.val) (h : RdpAccountant.recip z = .ok e) (h' : RdpAccountant.recip z' = .ok e')
    (h0 : 0 ≤ e) (h0' : 0 ≤ e') : e ≤ e' := by
  have val : ∀ (z : PyNum) (e : ℝ), RdpAccountant.recip z = .ok e → (z.val = ⊤ ∧ e = 0) ∨ ∃ x : ℝ, z.val = (x : EReal) ∧ x ≠ 0 ∧ e = 1 / x := by
    intro z e h
    cases z with
    | int k =>
      simp only [RdpAccountant.recip] at h
      split_ifs at h with c
      refine Or.inr ⟨k, rfl, by exact_mod_cast c, ?_⟩
      simpa using h.symm
    | float x =>
      simp only [RdpAccountant.recip] at h
      split_ifs at h with c
      refine Or.inr ⟨x, rfl, c, ?_⟩
      simpa using h.symm
    | inf =>
      simp only [RdpAccountant.recip, Except.ok.injEq] at h
      exact Or.inl ⟨rfl, h.symm⟩
  rcases val z e h with ⟨h1, rfl⟩ | ⟨x, hx, hx0, rfl⟩
  · exact h0'
  rcases val z' e' h' with ⟨h1, rfl⟩ | ⟨x', hx', hx0', rfl⟩
  · rw [h1, hx] at hz; exact absurd hz (by simp)
  rw [hx, hx'] at hz
  have hz : x' ≤ x := by exact_mod_cast hz
  have : 0 < x' := lt_of_le_of_ne (by rwa [one_div, inv_nonneg] at h0') (Ne.symm hx0')
  exact one_div_le_one_div_of_le this hz

/-- The branch of `_laplace_rdp` for orders between 1 and 1.1. -/
noncomputable def lapNear (a e : ℝ) : ℝ := e + (Real.exp (e * (1 - 2 * a)) - 1) / (2 * a - 1) *
  laplaceSeries (-((Real.exp (e * (1 - 2 * a)) - 1) / (2 * a - 1)) * (a - 1))

lemma near_mono {a : ℝ} (ha : 1 < a) (N : ℕ) (v : ℝ → ℝ) (hv : v = fun e => (a - 1) * (1 - Real.exp (e * (1 - 2 * a))) / (2 * a - 1)) :
    MonotoneOn (fun e => e - (a - 1)⁻¹ * ∑ j ∈ Finset.range N, v e ^ (j + 1) / ((j : ℝ) + 1)) (Set.Ici 0) := by
  have hb : 0 < 2 * a - 1 := by linarith
  have ha1 : 0 < a - 1 := by linarith
  have hd : ∀ e, HasDerivAt v ((a - 1) * Real.exp (e * (1 - 2 * a))) e := by
    intro e
    rw [hv]
    have h1 := ((((hasDerivAt_id e).mul_const (1 - 2 * a)).exp.const_sub 1).const_mul (a - 1)).div_const (2 * a - 1)
    refine h1.congr_deriv ?_
    simp only [id]
    rw [div_eq_iff hb.ne']
    ring
  have hF : ∀ e, HasDerivAt (fun e => e - (a - 1)⁻¹ * ∑ j ∈ Finset.range N, v e ^ (j + 1) / ((j : ℝ) + 1))
      (1 - Real.exp (e * (1 - 2 * a)) * ∑ j ∈ Finset.range N, v e ^ j) e := by
    intro e
    have hs : HasDerivAt (fun e => ∑ j ∈ Finset.range N, v e ^ (j + 1) / ((j : ℝ) + 1))
        (∑ j ∈ Finset.range N, v e ^ j * ((a - 1) * Real.exp (e * (1 - 2 * a)))) e := by
      refine HasDerivAt.fun_sum fun j _ => ?_
      refine (((hd e).pow (j + 1)).div_const ((j : ℝ) + 1)).congr_deriv ?_
      have : (j : ℝ) + 1 ≠ 0 := by positivity
      simp only [Nat.add_sub_cancel]
      push_cast
      field_simp
    refine ((hasDerivAt_id e).sub (hs.const_mul (a - 1)⁻¹)).congr_deriv ?_
    rw [← Finset.sum_mul]
    field_simp
  refine monotoneOn_of_deriv_nonneg (convex_Ici 0) (fun e _ => (hF e).continuousAt.continuousWithinAt)
    (fun e _ => (hF e).differentiableAt.differentiableWithinAt) fun e he => ?_
  rw [interior_Ici, Set.mem_Ioi] at he
  rw [(hF e).deriv]
  have hx0 := Real.exp_pos (e * (1 - 2 * a))
  have hx1 : Real.exp (e * (1 - 2 * a)) ≤ 1 := Real.exp_le_one_iff.2 (by nlinarith)
  have hve : v e = (a - 1) * (1 - Real.exp (e * (1 - 2 * a))) / (2 * a - 1) := by rw [hv]
  clear hF hd hv
  generalize Real.exp (e * (1 - 2 * a)) = x at *
  generalize v e = w at *
  have hv0 : 0 ≤ w := by rw [hve]; exact div_nonneg (mul_nonneg ha1.le (by linarith)) hb.le
  have hvx : x ≤ 1 - w := by
    rw [hve, le_sub_iff_add_le, ← le_sub_iff_add_le', div_le_iff₀ hb]
    nlinarith
  have hg : (∑ j ∈ Finset.range N, w ^ j) * (1 - w) ≤ 1 := by
    rw [geom_sum_mul_neg w N]
    have : 0 ≤ w ^ N := by positivity
    linarith
  have hs0 : 0 ≤ ∑ j ∈ Finset.range N, w ^ j := Finset.sum_nonneg fun j _ => by positivity
  have := mul_le_mul_of_nonneg_left hvx hs0
  rw [mul_comm x]
  linarith

lemma lapNear_mono {a : ℝ} (ha : 1 < a) : MonotoneOn (lapNear a) (Set.Ici 0) := by
  have ha1 : a - 1 ≠ 0 := by linarith
  have hb : 2 * a - 1 ≠ 0 := by linarith
  have key := near_mono ha 99 _ rfl
  have e1 : lapNear a = fun e => e - (a - 1)⁻¹ *
      ∑ j ∈ Finset.range 99, ((a - 1) * (1 - Real.exp (e * (1 - 2 * a))) / (2 * a - 1)) ^ (j + 1) / ((j : ℝ) + 1) := by
    funext e
    unfold lapNear laplaceSeries
    obtain ⟨c, hc⟩ : ∃ c, c = (Real.exp (e * (1 - 2 * a)) - 1) / (2 * a - 1) := ⟨_, rfl⟩
    have h1 : (a - 1) * (1 - Real.exp (e * (1 - 2 * a))) / (2 * a - 1) = -c * (a - 1) := by rw [hc]; ring
    rw [h1, ← hc]
    generalize 99 = N
    have h2 : ∀ j : ℕ, c * ((-c * (a - 1)) ^ j / ((j : ℝ) + 1)) = -((a - 1)⁻¹ * ((-c * (a - 1)) ^ (j + 1) / ((j : ℝ) + 1))) := by
      intro j
      rw [pow_succ]
      field_simp
    rw [Finset.mul_sum, Finset.mul_sum, Finset.sum_congr rfl fun j _ => h2 j, Finset.sum_neg_distrib]
    rfl
  rw [e1]
  exact key

lemma laplace_mono {eps eps' α : ℝ} (hα : 1 ≤ α) (he : eps ≤ eps') {r r' : EReal} (h : laplaceRdp eps (α : EReal) = .ok r)
    (h' : laplaceRdp eps' (α : EReal) = .ok r') : r ≤ r' := by
  have h0 : 0 ≤ eps := by
    by_contra hc
    unfold laplaceRdp at h
    rw [if_pos (not_le.1 hc)] at h; simp at h
  by_cases h1 : α = 1 ∨ 1.1 ≤ α
  · have e := C40_exact eps 1 one_pos h0 α h1
    have e' := C40_exact eps' 1 one_pos (h0.trans he) α h1
    rw [div_one, h, Except.ok.injEq] at e
    rw [div_one, h', Except.ok.injEq] at e'
    rw [e, e', renyi_laplace' hα one_pos h0, renyi_laplace' hα one_pos (h0.trans he), div_one, div_one]
    exact_mod_cast lapDiv_mono hα h0 he
  · push Not at h1
    have hα1 := lt_of_le_of_ne hα (Ne.symm h1.1)
    have val : ∀ e : ℝ, 0 ≤ e → laplaceRdp e (α : EReal) = .ok ((lapNear α e : ℝ) : EReal) := by
      intro e he
      unfold laplaceRdp
      rw [laplaceRdp_arg he hα]
      dsimp only
      rw [EReal.toReal_coe, if_neg h1.1, if_pos h1.2]
      rfl
    rw [val _ h0, Except.ok.injEq] at h
    rw [val _ (h0.trans he), Except.ok.injEq] at h'
    rw [← h, ← h']
    exact_mod_cast lapNear_mono hα1 (Set.mem_Ici.2 h0) (Set.mem_Ici.2 (h0.trans he)) he

/-! ## Trees -/

lemma le_foldr_max_int (l : List ℤ) : ∀ c ∈ l, c ≤ l.foldr max 0 := by
  induction l with
  | nil => simp
  | cons x l ih =>
    intro c hc
    rw [List.foldr_cons]
    rcases List.mem_cons.1 hc with rfl | hc
    · exact le_max_left _ _
    · exact (ih c hc).trans (le_max_right _ _)

lemma foldr_max_nonneg (l : List ℤ) : 0 ≤ l.foldr max 0 := by
  induction l with
  | nil => simp
  | cons x l ih => simp [ih]

lemma foldr_max_le {l : List ℤ} {b : ℤ} (hb : 0 ≤ b) (h : ∀ c ∈ l, c ≤ b) : l.foldr max 0 ≤ b := by
  induction l with
  | nil => simpa using hb
  | cons x l ih =>
    rw [List.foldr_cons]
    exact max_le (h x (by simp)) (ih fun c hc => h c (List.mem_cons_of_mem _ hc))

lemma tree_ok {orders : Fin n → ℝ} {z : PyNum} {s : ℤ ⊕ List ℤ} {a : Arr n} (h : tree (fun i => (orders i : EReal)) z s = .ok a) :
    0 ≤ z.val ∧ ((z.val = 0 ∧ ∀ i, a i = ⊤) ∨ (0 < z.val ∧ ∀ i, a i = (orders i : EReal) *
      (((⌈Real.logb 2 (((treeSteps s).foldr max 0 : ℤ) + 1)⌉ : ℤ) : ℝ) : EReal) * ((halfInvSq z : ℝ) : EReal))) := by
  unfold tree at h
  by_cases c1 : z.val < 0
  · rw [if_pos c1] at h; simp at h
  rw [if_neg c1] at h
  refine ⟨not_lt.1 c1, ?_⟩
  by_cases c2 : z.val = 0
  · rw [if_pos c2, Except.ok.injEq] at h
    exact Or.inl ⟨c2, fun i => by rw [← h]⟩
  rw [if_neg c2] at h
  refine Or.inr ⟨lt_of_le_of_ne (not_lt.1 c1) (Ne.symm c2), ?_⟩
  by_cases c3 : s = .inl 0 ∨ s = .inr []
  · rw [if_pos c3] at h; simp at h
  rw [if_neg c3] at h
  cases s <;>
  · dsimp only [treeSteps] at h ⊢
    split_ifs at h with c4
    rw [Except.ok.injEq] at h
    intro i
    rw [← h]

lemma tree_mono {orders : Fin n → ℝ} (ho : ∀ i, 1 ≤ orders i) {z z' : PyNum} {s s' : ℤ ⊕ List ℤ} {a a' : Arr n} (hz : z'.val ≤ z.val)
    (hs : ∀ c ∈ treeSteps s, ∃ c' ∈ treeSteps s', c ≤ c') (h : tree (fun i => (orders i : EReal)) z s = .ok a)
    (h' : tree (fun i => (orders i : EReal)) z' s' = .ok a') (i : Fin n) : a i ≤ a' i := by
  obtain ⟨g0, g⟩ := tree_ok h
  obtain ⟨g0', g'⟩ := tree_ok h'
  rcases g' with ⟨-, g'⟩ | ⟨p', g'⟩
  · rw [g']; exact le_top
  rcases g with ⟨p, -⟩ | ⟨p, g⟩
  · exact absurd (p'.trans_le hz) (by rw [p]; exact lt_irrefl _)
  rw [g, g']
  have hm : (treeSteps s).foldr max 0 ≤ (treeSteps s').foldr max 0 := by
    refine foldr_max_le (foldr_max_nonneg _) fun c hc => ?_
    obtain ⟨c', hc', hcc⟩ := hs c hc
    exact hcc.trans (le_foldr_max_int _ c' hc')
  have h1 : (1 : ℝ) ≤ (((treeSteps s).foldr max 0 : ℤ) : ℝ) + 1 := by
    have := foldr_max_nonneg (treeSteps s)
    have : (0 : ℝ) ≤ (((treeSteps s).foldr max 0 : ℤ) : ℝ) := by exact_mod_cast this
    linarith
  have hd : ⌈Real.logb 2 (((treeSteps s).foldr max 0 : ℤ) + 1)⌉ ≤ ⌈Real.logb 2 (((treeSteps s').foldr max 0 : ℤ) + 1)⌉ := by
    refine Int.ceil_le_ceil (Real.logb_le_logb_of_le (by norm_num) (by linarith) ?_)
    have : (((treeSteps s).foldr max 0 : ℤ) : ℝ) ≤ (((treeSteps s').foldr max 0 : ℤ) : ℝ) := by exact_mod_cast hm
    linarith
  have hd0 : 0 ≤ ⌈Real.logb 2 (((treeSteps s).foldr max 0 : ℤ) + 1)⌉ := Int.ceil_nonneg (Real.logb_nonneg (by norm_num) h1)
  have hh := halfInvSq_anti p' hz
  have hh0 := halfInvSq_nonneg z
  rw [← EReal.coe_mul, ← EReal.coe_mul, ← EReal.coe_mul, ← EReal.coe_mul, EReal.coe_le_coe_iff]
  have ho' := ho i
  have hd' : ((⌈Real.logb 2 (((treeSteps s).foldr max 0 : ℤ) + 1)⌉ : ℤ) : ℝ) ≤ ((⌈Real.logb 2 (((treeSteps s').foldr max 0 : ℤ) + 1)⌉ : ℤ) : ℝ) := by
    exact_mod_cast hd
  have hd0' : (0 : ℝ) ≤ ((⌈Real.logb 2 (((treeSteps s).foldr max 0 : ℤ) + 1)⌉ : ℤ) : ℝ) := by exact_mod_cast hd0
  exact mul_le_mul (mul_le_mul_of_nonneg_left hd' (by linarith)) hh hh0 (mul_nonneg (by linarith) (hd0'.trans hd'))

end Verif.Rdp
