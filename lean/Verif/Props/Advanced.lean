import Verif.Proofs.PldAdvanced
import Verif.Props.AdaptiveComposition
import Verif.Props.InverseMonotone
import Verif.Props.ConnectDots

/-!
# C27: advanced composition; C22 (tightness)

`dpProp eps delta` is the requirement "`(eps, delta)`-indistinguishable in both directions".
-/

namespace Verif.Props
open Verif Verif.Spec Verif.Advanced MeasureTheory ProbabilityTheory

/-- **C22 (tightness).** The composed law is not only an upper bound: if `A` and `B` are the privacy loss laws of two
mechanisms, their convolution is the privacy loss law of running both, and its delta at every `eps` is the least one for
which the pair of joint output distributions is indistinguishable. -/
theorem C22_tight {Ω Ω' : Type*} [MeasurableSpace Ω] [MeasurableSpace Ω'] (A B : LossLaw) (P Q : Measure Ω) (P' Q' : Measure Ω')
    [IsProbabilityMeasure P] [IsFiniteMeasure Q] [IsProbabilityMeasure P'] [IsFiniteMeasure Q'] (hA : A.Of P Q) (hB : B.Of P' Q') :
    (A.conv B).Of (P.prod P') (Q.prod Q') ∧ ∀ e : ℝ, IsHs (P.prod P') (Q.prod Q') e ((A.conv B).hs e) :=
  ⟨hA.prod hB, fun e => (hA.prod hB).isHs e⟩

/-- **C27 (None).** `advanced_composition` returns `None` exactly when `total_delta < 1 - (1 - delta)^k`. -/
theorem C27_none_iff (eps delta total : ℝ) (he : 0 ≤ eps) (h1 : delta ≤ 1) (k : ℕ) :
    advancedComposition eps delta k total = none ↔ total < 1 - (1 - delta) ^ k := by
  have hp : 0 ≤ (1 - delta) ^ k := pow_nonneg (by linarith) k
  unfold advancedComposition
  rw [if_neg (by omega), Int.toNat_natCast]
  rcases loop_spec eps delta total k (k / 2) with ⟨h, h2⟩ | ⟨i, hi, h, h2, _⟩
  · have := h2 0 (Nat.zero_le _)
    rw [deltaI_zero, sub_zero, mul_one] at this
    simp [h, this]
  · rw [h]
    simp only [reduceCtorEq, false_iff, not_lt]
    have := deltaI_nonneg eps he k i (by omega)
    nlinarith

/-- **C27 (soundness).** The returned `total_eps` is valid: every `k`-fold adaptive composition of `(eps, delta)`-DP
mechanisms, with any output spaces and any adaptive choices, is `(total_eps, total_delta)`-DP. -/
theorem C27_sound (eps delta total teps : ℝ) (he : 0 ≤ eps) (h0 : 0 ≤ delta) (h1 : delta ≤ 1) (k : ℕ)
    (h : advancedComposition eps delta k total = some teps) {Ω : Type} [MeasurableSpace Ω] (P Q : Measure Ω)
    (hPQ : Adaptive (List.replicate k (dpProp eps delta)) Ω P Q) : Indist P Q teps total ∧ Indist Q P teps total := by
  unfold advancedComposition at h
  rw [if_neg (by omega), Int.toNat_natCast] at h
  rcases loop_spec eps delta total k (k / 2) with ⟨h', _⟩ | ⟨i, hi, h', h2, _⟩
  · rw [h'] at h; simp at h
  · rw [h'] at h
    simp only [Option.some.injEq] at h
    subst h
    rw [← pow_hs eps delta he h0 h1 k i (by omega)] at h2
    have hl : List.Forall₂ LawFor (List.replicate k (ddpLaw eps delta h0 h1)) (List.replicate k (dpProp eps delta)) :=
      forall₂_replicate (by intro Ω _ P Q _ _ hC; exact ddp_dominates eps delta he h0 h1 P Q hC.1 hC.2) k
    have hsw : (List.replicate k (dpProp eps delta)).map swapProp = List.replicate k (dpProp eps delta) := by
      rw [List.map_replicate]
      congr 1
      funext Ω _ P Q
      exact propext And.comm
    have hQP := hPQ.swap
    rw [hsw] at hQP
    have a := (hPQ.dominates _ hl).2.2
    have b := (hQP.dominates _ hl).2.2
    rw [← pow_eq_convAll] at a b
    exact ⟨(a _).mono h2, (b _).mono h2⟩

/-- **C27 (optimality).** Among the candidates `eps * (k - 2i)`, `i = 0..k/2`, the returned one is the least that is valid
for every `k`-fold adaptive composition of `(eps, delta)`-DP mechanisms. -/
theorem C27_least (eps delta total teps : ℝ) (he : 0 < eps) (h0 : 0 ≤ delta) (h1 : delta ≤ 1) (k : ℕ)
    (h : advancedComposition eps delta k total = some teps) :
    IsLeast {x | ∃ i : ℕ, 2 * i ≤ k ∧ x = eps * ((k : ℝ) - 2 * i) ∧
      ∀ (Ω : Type) [MeasurableSpace Ω] (P Q : Measure Ω), Adaptive (List.replicate k (dpProp eps delta)) Ω P Q →
        Indist P Q x total} teps := by
  have hh := h
  unfold advancedComposition at h
  rw [if_neg (by omega), Int.toNat_natCast] at h
  rcases loop_spec eps delta total k (k / 2) with ⟨h', _⟩ | ⟨i, hi, h', h2, h3⟩
  · rw [h'] at h; simp at h
  · rw [h'] at h
    simp only [Option.some.injEq] at h
    constructor
    · exact ⟨i, by omega, h.symm, fun Ω _ P Q hPQ => (C27_sound eps delta total teps he.le h0 h1 k hh P Q hPQ).1⟩
    · rintro x ⟨j, hj, rfl, hv⟩
      rw [← h]
      by_contra hlt
      rw [not_le] at hlt
      have hij : i < j := by
        by_contra hc
        have : (j : ℝ) ≤ i := by exact_mod_cast not_lt.1 hc
        nlinarith
      have h4 := h3 j (by omega) hij
      rw [← pow_hs eps delta he.le h0 h1 k j hj] at h4
      obtain ⟨Ω, mΩ, P, Q, hP, hQ, ha, hof⟩ := exists_worst he.le h0 h1 k
      have := (hof.isHs (eps * ((k : ℝ) - 2 * j))).2 (hv Ω P Q ha)
      linarith

/-- **C27 (inverse, defined).** In the search of `get_smallest_epsilon_from_advanced_composition` the searched function
never returns `None`. -/
theorem C27_smallest_defined (totalDelta delta : ℝ) (h1 : delta ≤ 1) (k : ℕ) (h : ¬ 1 - (1 - delta) ^ k > totalDelta) (e : ℝ)
    (he : 0 ≤ e) : ∃ x, advancedComposition e delta k totalDelta = some x := by
  rw [← Option.ne_none_iff_exists']
  intro hn
  rw [C27_none_iff e delta totalDelta he h1] at hn
  exact h hn

/-- **C27 (inverse, soundness).** If `get_smallest_epsilon_from_advanced_composition` returns a number `e`, then `k`
adaptively chosen `(e, delta)`-DP mechanisms together are `(total_eps, total_delta)`-DP. -/
theorem C27_smallest_sound (fuel : ℕ) (teps tdelta delta : ℝ) (ht : 0 ≤ teps) (h0 : 0 ≤ delta) (h1 : delta ≤ 1) (k : ℕ) (e : ℝ)
    (h : smallestEpsilon fuel teps tdelta k delta = .search (.found e)) {Ω : Type} [MeasurableSpace Ω] (P Q : Measure Ω)
    (hPQ : Adaptive (List.replicate k (dpProp e delta)) Ω P Q) : Indist P Q teps tdelta ∧ Indist Q P teps tdelta := by
  unfold smallestEpsilon at h
  split_ifs at h with c1 c2
  simp only [SmallestRes.search.injEq] at h
  have hf := C25_found_feasible fuel _ teps _ true e h
  have hg : GoodParams ⟨((teps / k : ℝ) : EReal), (teps : EReal), Option.none, 1e-7, false⟩ := by
    constructor
    · have hk : (1 : ℝ) ≤ k := by exact_mod_cast Nat.one_le_iff_ne_zero.2 c2
      exact EReal.coe_le_coe_iff.2 (div_le_self ht hk)
    · intro g hg; simp at hg
  have hr := (C25_found_in_range fuel _ teps _ true e hg (by simp) h).1
  have he : 0 ≤ e := by
    have := hr.1
    simp only [EReal.coe_le_coe_iff] at this
    exact le_trans (by positivity) this
  obtain ⟨x, hx⟩ := C27_smallest_defined tdelta delta h1 k c1 e he
  rw [hx] at hf
  simp only [Option.getD_some] at hf
  obtain ⟨a, b⟩ := C27_sound e delta tdelta x he h0 h1 k hx P Q hPQ
  have hexp : Real.exp x ≤ Real.exp teps := Real.exp_le_exp.2 hf
  refine ⟨fun S hS => (a S hS).trans ?_, fun S hS => (b S hS).trans ?_⟩
  · have : 0 ≤ Q.real S := measureReal_nonneg
    nlinarith
  · have : 0 ≤ P.real S := measureReal_nonneg
    nlinarith

/-- **C27 (inverse, totality).** With at least one query and `total_delta >= 1 - (1 - delta)^k` the search does return a
number once it has run long enough; `None` is returned exactly if `total_delta < 1 - (1 - delta)^k`. -/
theorem C27_smallest_total (teps tdelta delta : ℝ) (ht : 0 ≤ teps) (h1 : delta ≤ 1) (k : ℕ) (hk : k ≠ 0) :
    (∀ fuel, smallestEpsilon fuel teps tdelta k delta = .none ↔ tdelta < 1 - (1 - delta) ^ k) ∧
    (1 - (1 - delta) ^ k ≤ tdelta → ∃ N, ∀ fuel ≥ N, ∃ e, smallestEpsilon fuel teps tdelta k delta = .search (.found e)) := by
  constructor
  · intro fuel
    unfold smallestEpsilon
    split_ifs with c1
    · simpa using c1
    · simpa using c1
  · intro hd
    have c1 : ¬ 1 - (1 - delta) ^ k > tdelta := not_lt.2 hd
    have hk1 : (1 : ℝ) ≤ k := by exact_mod_cast Nat.one_le_iff_ne_zero.2 hk
    have hg : GoodParams ⟨((teps / k : ℝ) : EReal), (teps : EReal), Option.none, 1e-7, false⟩ := by
      constructor
      · exact EReal.coe_le_coe_iff.2 (div_le_self ht hk1)
      · intro g hg; simp at hg
    obtain ⟨N, hN⟩ := C25_terminates (fun epsilon => (advancedComposition epsilon delta k tdelta).getD 0) teps _ true hg
      (by simp) (by norm_num) ⟨teps, fun x hx => Or.inl (EReal.coe_le_coe_iff.2 hx)⟩
    refine ⟨N, fun fuel hf => ?_⟩
    unfold smallestEpsilon
    rw [if_neg c1, if_neg hk]
    have h2 := hN fuel hf
    generalize hr : InverseMonotone.inverse fuel (fun epsilon => (advancedComposition epsilon delta k tdelta).getD 0) teps
      ⟨((teps / k : ℝ) : EReal), (teps : EReal), Option.none, 1e-7, false⟩ true = r at *
    cases r with
    | found e => exact ⟨e, rfl⟩
    | outOfFuel => exact absurd rfl h2
    | notFound =>
      exfalso
      rw [C25_none_iff] at hr
      simp only [if_true] at hr
      obtain ⟨l, hl, hv⟩ := hr
      rw [EReal.coe_eq_coe_iff] at hl
      subst hl
      have h0 : 0 ≤ teps / k := by positivity
      obtain ⟨x, hx⟩ := C27_smallest_defined tdelta delta h1 k c1 (teps / k) h0
      rw [hx] at hv
      unfold advancedComposition at hx
      rw [if_neg (by omega), Int.toNat_natCast] at hx
      rcases loop_spec (teps / k) delta tdelta k (k / 2) with ⟨h', _⟩ | ⟨i, hi, h', _, _⟩
      · rw [h'] at hx; simp at hx
      · rw [h'] at hx
        simp only [Option.some.injEq] at hx
        simp only [Option.getD_some] at hv
        rw [← hx] at hv
        have : (0 : ℝ) ≤ i := by positivity
        have e : teps / k * (k - 2 * (i : ℝ)) = teps - 2 * i * (teps / k) := by field_simp
        rw [e] at hv
        nlinarith
    | infiniteInterval =>
      exfalso
      unfold InverseMonotone.inverse at hr
      split at hr
      · simp at hr
      · simp only [InverseMonotone.finish] at hr
        split at hr
        · rename_i h4; simp at h4
        · (repeat' split at hr) <;> simp at hr

/-- Non-vacuity: two `(log 2, 0)`-DP mechanisms are together `(0, 1/3)`-DP by advanced composition, better than `2 log 2`;
with `total_delta = 0` the answer is `2 log 2`. -/
example : advancedComposition (Real.log 2) 0 2 (1/3) = some 0 ∧ advancedComposition (Real.log 2) 0 2 0 = some (Real.log 2 * 2) ∧
    advancedComposition (Real.log 2) (1/2) 2 (1/2) = none := by
  have e2 : Real.exp (Real.log 2 * 2) = 4 := by
    rw [show Real.log 2 * 2 = Real.log 2 + Real.log 2 by ring, Real.exp_add, Real.exp_log (by norm_num)]; norm_num
  have d1 : deltaI (Real.log 2) 2 1 = 1/3 := by
    unfold deltaI
    simp only [List.range_one, List.foldl_cons, List.foldl_nil]
    norm_num [e2, Real.exp_log]
  refine ⟨?_, ?_, ?_⟩
  · have : advancedComposition (Real.log 2) 0 2 (1/3) = loop (Real.log 2) 0 (1/3) 2 1 := rfl
    rw [this, loop, if_pos]
    · norm_num
    · norm_num [d1]
  · have : advancedComposition (Real.log 2) 0 2 0 = loop (Real.log 2) 0 0 2 1 := rfl
    rw [this, loop, if_neg, loop, if_pos]
    · norm_num
    · norm_num [deltaI_zero]
    · norm_num [d1]
  · have := (C27_none_iff (Real.log 2) (1/2) (1/2) (Real.log_nonneg (by norm_num)) (by norm_num) 2).2 (by norm_num)
    exact_mod_cast this

/-- A mechanism to which these theorems apply: randomised response that tells the truth with probability 3/4. -/
noncomputable def truth34 : Measure (Fin 2) := finMeasure Finset.univ ![3/4, 1/4]

/-- Its output for the other answer. -/
noncomputable def truth14 : Measure (Fin 2) := finMeasure Finset.univ ![1/4, 3/4]

lemma truth_prob : IsProbabilityMeasure truth34 ∧ IsProbabilityMeasure truth14 := by
  constructor <;> constructor <;> simp only [truth34, truth14] <;> unfold finMeasure <;>
    rw [Measure.finsetSum_apply, Fin.sum_univ_two] <;>
    simp only [Measure.smul_apply, Measure.dirac_apply_of_mem (Set.mem_univ _), smul_eq_mul, mul_one] <;>
    rw [← ENNReal.ofReal_add (by norm_num) (by norm_num)] <;> norm_num

lemma truth_dp : dpProp (Real.log 3) 0 (Fin 2) truth34 truth14 := by
  constructor
  · have := (C20_isHs_finite (O := Fin 2) Finset.univ ![3/4, 1/4] ![1/4, 3/4]
      (by intro o _; fin_cases o <;> norm_num) (by intro o _; fin_cases o <;> norm_num) (Real.log 3)).1
    convert this using 1
    unfold hsFinite
    rw [Fin.sum_univ_two, Real.exp_log (by norm_num)]
    norm_num [truth34, truth14]
  · have := (C20_isHs_finite (O := Fin 2) Finset.univ ![1/4, 3/4] ![3/4, 1/4]
      (by intro o _; fin_cases o <;> norm_num) (by intro o _; fin_cases o <;> norm_num) (Real.log 3)).1
    convert this using 1
    unfold hsFinite
    rw [Fin.sum_univ_two, Real.exp_log (by norm_num)]
    norm_num [truth34, truth14]

/-- Two runs of it: whatever total epsilon advanced composition reports for the total delta 1/2, it holds. -/
example : ∃ teps, advancedComposition (Real.log 3) 0 2 (1/2) = some teps ∧
    Indist (truth34 ⊗ₘ Kernel.const _ (truth34 ⊗ₘ Kernel.const _ (Measure.dirac ())))
      (truth14 ⊗ₘ Kernel.const _ (truth14 ⊗ₘ Kernel.const _ (Measure.dirac ()))) teps (1/2) := by
  obtain ⟨i1, i2⟩ := truth_prob
  obtain ⟨x, hx⟩ := C27_smallest_defined (1/2) 0 zero_le_one 2 (by norm_num) (Real.log 3) (Real.log_nonneg (by norm_num))
  refine ⟨x, hx, (C27_sound _ _ _ x (Real.log_nonneg (by norm_num)) le_rfl zero_le_one 2 hx _ _ ?_).1⟩
  refine .cons _ _ _ _ truth_dp fun _ => ?_
  simp only [Kernel.const_apply]
  refine .cons _ _ _ _ truth_dp fun _ => ?_
  simp only [Kernel.const_apply]
  exact .nil _

/-- The search for the smallest epsilon finds one for 10 queries with delta 1e-6 within a total of (1, 1e-4). -/
example : ∃ N e, smallestEpsilon N 1 1e-4 10 1e-6 = .search (.found e) := by
  obtain ⟨N, hN⟩ := (C27_smallest_total 1 1e-4 1e-6 zero_le_one (by norm_num) 10 (by norm_num)).2 (by norm_num)
  obtain ⟨e, he⟩ := hN N le_rfl
  exact ⟨N, e, he⟩

/-- `C22_tight` applies to the worst (log 3, 1/10)-DP mechanism, run twice. -/
example : ∃ (Ω : Type) (_ : MeasurableSpace Ω) (P Q : Measure Ω) (A : LossLaw), A.Of P Q ∧
    ∀ e : ℝ, IsHs (P.prod P) (Q.prod Q) e ((A.conv A).hs e) := by
  obtain ⟨Ω, _, P, Q, h1, h2, -, hA⟩ := exists_worst (eps := Real.log 3) (delta := 1/10) (Real.log_nonneg (by norm_num)) (by norm_num) (by norm_num) 1
  exact ⟨Ω, _, P, Q, _, hA, (C22_tight _ _ P Q P Q hA hA).2⟩

end Verif.Props
