import Verif.Proofs.WorModel

/-!
# C58: RDP of the Gaussian mechanism on samples drawn without replacement

`worScalar q sigma alpha` is the model of `_compute_rdp_sample_wor_gaussian_scalar`, `wor` of
`_compute_rdp_sample_wor_gaussian`. `WorGaussianPair n m z` (`Verif/Spec/Mechanisms.lean`): the outputs, on two data sets of `n`
records that differ in one record, of a vector-valued query on a uniformly drawn subset of `m` records, with Gaussian noise
of `z` times the sensitivity.
-/

namespace Verif.Props
open Verif Verif.Spec Verif.Rdp Verif.Pld Verif.Wor MeasureTheory ProbabilityTheory
open scoped ENNReal

lemma toEReal_log {x : LogProb} {y : ℝ} (h : expLog x = y) (hy : 0 < y) : toEReal x = ((Real.log y : ℝ) : EReal) := toEReal_of_expLog h hy

lemma renyi_of_moment {α : ℝ} (hα : 1 < α) {Ω : Type*} [MeasurableSpace Ω] {P Q : Measure Ω} (hac : P ≪ Q) {M : ℝ} (hM : 0 < M)
    (h : renyiMoment α P Q ≤ ENNReal.ofReal M) : renyiDiv α P Q ≤ ((Real.log M * (α - 1)⁻¹ : ℝ) : EReal) := by
  rw [renyi_le_iff hα]
  refine ⟨hac, h.trans (le_of_eq ?_)⟩
  have : α - 1 ≠ 0 := by linarith
  rw [mul_comm (α - 1), mul_assoc, inv_mul_cancel₀ this, mul_one, Real.exp_log hM]

/-- **C58.** Whatever the code returns for the noise multiplier `z > 0`, the sampling rate `m / n` and a real order `α ≥ 1`
(integer or not) is an upper bound on the Rényi divergence of order `α` between the outputs of the mechanism on any two data
sets of `n` records that differ in one record. -/
theorem C58_wor_mechanism (n m : ℕ) (hm : m ≤ n) (z : ℝ) (hz : 0 < z) (sigma : PyNum) (hs : sigma.val = (z : EReal)) (α : ℝ) (hα : 1 ≤ α)
    {Ω : Type} [MeasurableSpace Ω] (P Q : Measure Ω) (h : WorGaussianPair n m z Ω P Q) (r : EReal)
    (hr : worScalar ((m : ℝ) / n) sigma (α : EReal) = .ok r) : renyiDiv α P Q ≤ r := by
  cases h with
  | mk f Δ hΔ hf D i x =>
  have hn0 : 0 < n := i.pos
  have hn : (0 : ℝ) < n := by exact_mod_cast hn0
  have hq1 : (m : ℝ) / n ≤ 1 := by rw [div_le_one hn]; exact_mod_cast hm
  have hq0 : 0 ≤ (m : ℝ) / n := by positivity
  have hzE : (z : EReal) ≠ 0 := by exact_mod_cast hz.ne'
  unfold worScalar at hr
  rw [if_neg (by push Not; exact ⟨hq1, hq0, by exact_mod_cast hα⟩)] at hr
  rcases Nat.eq_zero_or_pos m with rfl | hmpos
  · rw [if_pos (by simp)] at hr
    cases hr
    rw [wor_none, wor_none, RdpConv.renyi_self α hα]
  have hqpos : 0 < (m : ℝ) / n := by positivity
  rw [if_neg hqpos.ne'] at hr
  rcases hm.eq_or_lt with rfl | hmn
  · rw [if_pos (div_self hn.ne'), hs, if_neg hzE] at hr
    cases hr
    rw [halfInvSq_eq hs, Real.coe_toNNReal _ (sq_nonneg z), ← EReal.coe_mul, wor_full, wor_full]
    have hi := Multiset.cons_erase (show i ∈ (Finset.univ : Finset (Fin m)).val from Finset.mem_univ i)
    have e : ∀ {R : Type} (D' : Fin m → R), (Finset.univ : Finset (Fin m)).val.map D' = D' i ::ₘ ((Finset.univ : Finset (Fin m)).val.erase i).map D' := by
      intro R D'
      rw [← Multiset.map_cons, hi]
    have e2 : ((Finset.univ : Finset (Fin m)).val.erase i).map (Function.update D i x) = ((Finset.univ : Finset (Fin m)).val.erase i).map D := by
      refine Multiset.map_congr rfl fun k hk => ?_
      rw [Function.update_of_ne]
      intro hc
      rw [hc] at hk
      exact (Multiset.Nodup.notMem_erase (Finset.univ : Finset (Fin m)).nodup) hk
    rw [e D, e (Function.update D i x), e2]
    have := renyi_gaussianVec hα hz (f (D i ::ₘ ((Finset.univ : Finset (Fin m)).val.erase i).map D))
      (f (Function.update D i x i ::ₘ ((Finset.univ : Finset (Fin m)).val.erase i).map D)) hΔ (hf _ _ _)
    refine this.trans (le_of_eq ?_)
    congr 1
    ring
  have hqlt : (m : ℝ) / n < 1 := by rw [div_lt_one hn]; exact_mod_cast hmn
  rw [if_neg hqlt.ne, if_neg (EReal.coe_ne_top _)] at hr
  obtain ⟨m, rfl⟩ : ∃ k, m = k + 1 := ⟨m - 1, by omega⟩
  have hmom := fun a => wor_moment_nat hz hΔ m hmn f hf D i x a (worB z a) (fun j _ _ => ternaryBound_le_worB z a j)
  have hwpos := fun a => worMoment_pos (z := z) hqpos.le a a
  by_cases h1 : α = 1
  · subst h1
    rw [if_pos (by rfl)] at hr
    exact absurd hr (by simp)
  have hα1 : 1 < α := lt_of_le_of_ne hα (Ne.symm h1)
  rw [if_neg (by intro hc; exact h1 (by exact_mod_cast hc)), EReal.toReal_coe] at hr
  by_cases hint : ∃ a : ℕ, α = a
  · simp only [if_pos hint] at hr
    obtain ⟨a, rfl⟩ := hint
    have ha : 1 ≤ a := by exact_mod_cast hα
    rw [Nat.floor_natCast] at hr
    obtain ⟨y, hy, hye⟩ := worInt_eq hqpos hz hs a ha
    rw [hy] at hr
    simp only [Except.ok.injEq] at hr
    rw [← hr, toEReal_log hye (hwpos a), ← EReal.coe_mul]
    exact renyi_of_moment hα1 (hmom a).1 (hwpos a) (hmom a).2
  · simp only [if_neg hint] at hr
    set a := ⌊α⌋₊ with ha
    have ha1 : 1 ≤ a := Nat.le_floor (by exact_mod_cast hα)
    have hceil : ⌈α⌉₊ = a + 1 := by
      have hl : (a : ℝ) < α := lt_of_le_of_ne (Nat.floor_le (by linarith)) fun hc => hint ⟨a, hc.symm⟩
      refine le_antisymm (Nat.ceil_le_floor_add_one α) (Nat.lt_ceil.2 hl)
    rw [hceil] at hr
    obtain ⟨y, hy, hye⟩ := worInt_eq hqpos hz hs a ha1
    obtain ⟨y', hy', hye'⟩ := worInt_eq hqpos hz hs (a + 1) (by omega)
    rw [hy, hy'] at hr
    simp only [Except.ok.injEq] at hr
    rw [toEReal_log hye (hwpos a), toEReal_log hye' (hwpos (a + 1)), ← EReal.coe_mul, ← EReal.coe_mul, ← EReal.coe_add, ← EReal.coe_mul] at hr
    rw [← hr]
    have hlo : (a : ℝ) < α := lt_of_le_of_ne (Nat.floor_le (by linarith)) fun hc => hint ⟨a, hc.symm⟩
    have hhi : α < (a : ℝ) + 1 := Nat.lt_floor_add_one α
    set t := α - a with ht
    have ht0 : 0 < t := by linarith
    have ht1 : t < 1 := by linarith
    have key := moment_interp (worGaussianMech (m + 1) (z * Δ) f D) (worGaussianMech (m + 1) (z * Δ) f (Function.update D i x)) a ht0 ht1
    have eα : (a : ℝ) + t = α := by rw [ht]; ring
    rw [eα] at key
    have hb : renyiMoment α (worGaussianMech (m + 1) (z * Δ) f D) (worGaussianMech (m + 1) (z * Δ) f (Function.update D i x)) ≤
        ENNReal.ofReal (Real.exp ((1 - t) * Real.log (worMoment (worB z a) (((m + 1 : ℕ) : ℝ) / n) a) +
          t * Real.log (worMoment (worB z (a + 1)) (((m + 1 : ℕ) : ℝ) / n) (a + 1)))) := by
      refine key.trans ?_
      have h1 := ENNReal.rpow_le_rpow (hmom a).2 (by linarith : 0 ≤ 1 - t)
      have h2 := ENNReal.rpow_le_rpow (hmom (a + 1)).2 ht0.le
      refine (mul_le_mul' h1 h2).trans (le_of_eq ?_)
      rw [ENNReal.ofReal_rpow_of_pos (hwpos a), ENNReal.ofReal_rpow_of_pos (hwpos (a + 1)),
        ← ENNReal.ofReal_mul (Real.rpow_nonneg (hwpos a).le _), Real.rpow_def_of_pos (hwpos a), Real.rpow_def_of_pos (hwpos (a + 1)), ← Real.exp_add]
      congr 2
      ring
    have := renyi_of_moment hα1 (hmom a).1 (Real.exp_pos _) hb
    rwa [Real.log_exp] at this

/-- **C58 (values exist).** The code returns a value, and a finite one, for every real order greater than 1. -/
theorem C58_wor_total (q : ℝ) (h0 : 0 ≤ q) (h1 : q ≤ 1) (z : ℝ) (hz : 0 < z) (sigma : PyNum) (hs : sigma.val = (z : EReal)) (α : ℝ) (hα : 1 < α) :
    ∃ r : ℝ, worScalar q sigma (α : EReal) = .ok (r : EReal) := by
  unfold worScalar
  rw [if_neg (by push Not; exact ⟨h1, h0, by exact_mod_cast hα.le⟩)]
  by_cases hq : q = 0
  · rw [if_pos hq]; exact ⟨0, rfl⟩
  have hqpos : 0 < q := lt_of_le_of_ne h0 (Ne.symm hq)
  rw [if_neg hq]
  by_cases hq1 : q = 1
  · rw [if_pos hq1, hs, if_neg (by exact_mod_cast hz.ne'), ← EReal.coe_mul]; exact ⟨_, rfl⟩
  rw [if_neg hq1, if_neg (EReal.coe_ne_top _), if_neg (by intro hc; exact hα.ne' (by exact_mod_cast hc)), EReal.toReal_coe]
  have hfl : 1 ≤ ⌊α⌋₊ := Nat.le_floor (by exact_mod_cast hα.le)
  have hce : 1 ≤ ⌈α⌉₊ := hfl.trans (Nat.floor_le_ceil α)
  obtain ⟨y, hy, hye⟩ := worInt_eq hqpos hz hs _ hfl
  obtain ⟨y', hy', hye'⟩ := worInt_eq hqpos hz hs _ hce
  simp only [hy, hy', toEReal_log hye (worMoment_pos hqpos.le _ _), toEReal_log hye' (worMoment_pos hqpos.le _ _)]
  split_ifs
  · exact ⟨_, by rw [← EReal.coe_mul]⟩
  · exact ⟨_, by rw [← EReal.coe_mul, ← EReal.coe_mul, ← EReal.coe_add, ← EReal.coe_mul]⟩

/-- A concrete case: the sum of a sample of 2 out of 5 numbers from `[0, 1]` (each record clipped to the interval), noise
multiplier 1. -/
example : WorGaussianPair 5 2 1 (Vec 1)
    (worGaussianMech 2 (1 * 1) (fun s : Multiset ℝ => EuclideanSpace.single 0 (s.map fun x => max 0 (min x 1)).sum) ![0, 1, 0, 1, 1])
    (worGaussianMech 2 (1 * 1) (fun s : Multiset ℝ => EuclideanSpace.single 0 (s.map fun x => max 0 (min x 1)).sum)
      (Function.update ![0, 1, 0, 1, 1] 3 0)) := by
  refine WorGaussianPair.mk _ 1 one_pos (fun s a b => ?_) _ 3 0
  have e : ∀ x y : ℝ, (EuclideanSpace.single 0 x - EuclideanSpace.single 0 y : Vec 1) = EuclideanSpace.single 0 (x - y) := by
    intro x y; ext i; fin_cases i; simp
  rw [e, EuclideanSpace.norm_single, Real.norm_eq_abs, Multiset.map_cons, Multiset.map_cons, Multiset.sum_cons, Multiset.sum_cons,
    add_sub_add_right_eq_sub, abs_le]
  have h1 : ∀ x : ℝ, 0 ≤ max 0 (min x 1) ∧ max 0 (min x 1) ≤ 1 := fun x => ⟨le_max_left _ _, max_le (by norm_num) (min_le_right _ _)⟩
  constructor <;> linarith [h1 a, h1 b]

example : ∃ r : ℝ, worScalar (2 / 5) (.float 1) ((2.5 : ℝ) : EReal) = .ok (r : EReal) :=
  C58_wor_total _ (by norm_num) (by norm_num) 1 one_pos _ rfl _ (by norm_num)

end Verif.Props
