import Verif.Proofs.WorUnsampled
import Verif.Props.RdpTight
import Verif.Props.RdpParam

/-!
# C88: where the RDP accountant reports more than any mechanism spends

Samples without replacement and the best of a random number of runs. `worRun n m z 1` (`Verif/Props/RdpParam.lean`) is one call of `compose`
with a Gaussian event on a sample of `m` out of `n` records.
-/

namespace Verif.Props
open Verif Verif.Spec Verif.Rdp Verif.RdpConv Verif.RepeatSelect MeasureTheory ProbabilityTheory

/-- **C88, the samples never lose more than the whole data set.** Whatever the sizes, the query and the order `α ≥ 1`, the Rényi divergence of a
Gaussian mechanism on a sample without replacement is at most `α / (2 z²)`, the value for all the records. (The library does not use
this bound.) -/
theorem C88_sample_at_most_whole (n m : ℤ) (hm : m ≤ n) (z α : ℝ) (hz : 0 < z) (hα : 1 ≤ α) {Ω : Type} [MeasurableSpace Ω]
    (P Q : Measure Ω) (h : EventPair .replaceOne (.sampledWithoutReplacement n m (.gaussian (.float z))) Ω P Q) :
    renyiDiv α P Q ≤ ((α / (2 * z ^ 2) : ℝ) : EReal) := by
  simp only [EventPair] at h
  have hnoise : noises (.gaussian (.float z)) = [z] := by simp [noises, expand, PyNum.val]
  rw [hnoise] at h
  obtain ⟨d, P', Q', g, hg, hpair, rfl, rfl⟩ := worGaussians_reduce (z := z) (by simpa using hz) hz (by simp) P Q h
  have hle : m.toNat ≤ n.toNat := Int.toNat_le_toNat hm
  obtain ⟨hp, hq⟩ := WorGaussianPair.prob hle hpair
  exact (renyi_map_le hα hg).trans (Wor.wor_le_gaussian hle hz hα P' Q' hpair)

/-- The value for a single event is what the function for samples without replacement returns. -/
lemma wor_value (frac : ℝ → PyNum → ℝ → EReal) {orders : Fin 1 → ℝ} (ho : ∀ i, 1 < orders i) (m : ℤ) (h : 0 ≤ m ∧ m ≤ 100) :
    worScalar (m / 100 : ℝ) (.float 1) (orders 0 : ℝ) = .ok (rdpAfter orders frac .replaceOne (worRun 100 m (.float 1) 1) 0) := by
  obtain ⟨w, a⟩ := wor_accepted ho frac h.1 (by norm_num : (0 : ℤ) < 100) h.2 (z := .float 1) (x := 1) rfl one_pos (le_refl 1)
  obtain ⟨g1, g2⟩ := rdpAfter_sum w a
  have e : historyEvents (worRun 100 m (.float 1) 1) = [.sampledWithoutReplacement 100 m (.gaussian (.float 1))] := by rw [wor_history]; rfl
  rw [g2, e]
  rw [e] at g1
  have ok := (g1 _ (List.mem_singleton_self _)).2
  simp only [List.map_cons, List.map_nil, List.sum_cons, List.sum_nil, add_zero]
  simp only [RdpAccountant.Ok, RdpAccountant.curve, RdpAccountant.maybeCompose, if_true, effNoise, RdpAccountant.ratio] at ok ⊢
  rw [if_neg (by norm_num)] at ok
  rw [if_neg (by norm_num)]
  simp only at ok ⊢
  obtain ⟨b, hb, hc⟩ := addTo_curve ok
  rw [hc]
  exact_mod_cast collect_ok hb 0

/-- **C88, the gap for samples without replacement.** For a sample of 99 of 100 records, noise multiplier 1 and order 2, the value is above 1,
but no mechanism that the event describes has a divergence above 1. -/
theorem C88_without_replacement_violated (frac : ℝ → PyNum → ℝ → EReal) :
    Accepted (fun _ : Fin 1 => 2) frac .replaceOne (worRun 100 99 (.float 1) 1) ∧
    1 < rdpAfter (fun _ : Fin 1 => 2) frac .replaceOne (worRun 100 99 (.float 1) 1) 0 ∧
    ∀ (Ω : Type) (_ : MeasurableSpace Ω) (P Q : Measure Ω),
      EventPair .replaceOne (.sampledWithoutReplacement 100 99 (.gaussian (.float 1))) Ω P Q → renyiDiv 2 P Q ≤ 1 := by
  obtain ⟨⟨h1, h2⟩, h3⟩ := C81_whole_sample_violated frac
  refine ⟨h1, ?_, fun Ω _ P Q h => ?_⟩
  · refine lt_of_le_of_lt (le_of_eq ?_) h3
    have v1 := wor_value frac (orders := fun _ => 2) (fun _ => by norm_num) 100 (by norm_num)
    unfold worScalar at v1
    rw [if_neg (not_not.2 ⟨by norm_num, by norm_num, by exact_mod_cast one_le_two⟩), if_neg (by norm_num), if_pos (by norm_num), if_neg (by simp [PyNum.val]), Except.ok.injEq] at v1
    rw [← v1, halfInvSq_eq (z := 1) rfl, ← EReal.coe_mul]
    norm_num
  · have := C88_sample_at_most_whole 100 99 (by norm_num) 1 2 one_pos one_le_two P Q h
    norm_num at this
    exact this

/-- **C88, the gap for the best of several runs.** The best of a Poisson number of runs, two on average, of a mechanism that releases nothing
is reported with the value `log 2` at order 2, although the output does not depend on the data at all. -/
theorem C88_select_violated (frac : ℝ → PyNum → ℝ → EReal) (nr : NeighborRel) :
    Accepted (fun _ : Fin 1 => 2) frac nr [(.repeatAndSelect .noOp (.float 2) .inf, 1)] ∧
    rdpAfter (fun _ : Fin 1 => 2) frac nr [(.repeatAndSelect .noOp (.float 2) .inf, 1)] 0 = ((Real.log 2 : ℝ) : EReal) ∧
    ∀ (Ω : Type) (_ : MeasurableSpace Ω) (P Q : Measure Ω), EventPair nr (.repeatAndSelect .noOp (.float 2) .inf) Ω P Q → renyiDiv 2 P Q = 0 := by
  have hw : ∀ p ∈ [((.repeatAndSelect .noOp (.float 2) .inf : DpEvent), (1 : ℤ))], WfCounts p.1 := by simp [WfCounts]
  have hd : ∀ e : ℝ, 0 ≤ e → RdpConv.computeDelta (List.ofFn (fun _ : Fin 1 => (2 : ℝ))) (List.ofFn fun _ : Fin 1 => (0 : EReal)) e = .ok (0, 2) := by
    intro e he
    have h2 : RdpConv.logDelta 2 0 e = ⊥ := by
      unfold RdpConv.logDelta
      rw [if_pos (by norm_num)]
      simp
    unfold RdpConv.computeDelta
    rw [if_neg (not_lt.2 he)]
    simp [RdpConv.logDeltas, RdpConv.argmin, h2, RdpConv.mexp]
  have hr : RepeatSelect.repeatAndSelect (fun _ : Fin 1 => (2 : ℝ)) (fun _ => 0) (.float 2) .inf = .ok fun _ => ((Real.log 2 : ℝ) : EReal) := by
    unfold RepeatSelect.repeatAndSelect
    have h12 : ¬ PyNum.val (.float 2) < 1 := by rw [not_lt]; simp only [PyNum.val]; exact_mod_cast one_le_two
    rw [if_neg (by simp [PyNum.val]), if_neg h12]
    have e1 : ∀ i, RepeatSelect.poissonEntry (fun _ : Fin 1 => (2 : ℝ)) (fun _ => 0) (.float 2) i = .ok ((Real.log 2 : ℝ) : EReal) := by
      intro i
      unfold RepeatSelect.poissonEntry
      rw [if_neg (by norm_num), hd _ (Real.log_nonneg (by norm_num))]
      norm_num [PyNum.real?]
    simp only [PyNum.real?]
    unfold Rdp.collect
    simp only [List.ofFn_succ, e1, List.ofFn_zero, List.findSome?]
  have hacc : Accepted (fun _ : Fin 1 => 2) frac nr [(.repeatAndSelect .noOp (.float 2) .inf, 1)] := by
    refine (composeAll_spec _ _ _ hw _ Builder.inv_init).1.2 fun p hp => ?_
    rw [List.mem_singleton] at hp
    subst hp
    refine ⟨by simp [RdpAccountant.verdict, RdpAccountant.maybeCompose], by simp, fun a ha => ?_⟩
    simp only [expand, List.mem_singleton] at ha
    subst ha
    have hr' : (libFns (fun _ : Fin 1 => (2 : ℝ)) frac).repeatAndSelect (fun _ => 0) (.float 2) .inf = .ok fun _ => ((Real.log 2 : ℝ) : EReal) := hr
    simp only [RdpAccountant.Ok, RdpAccountant.maybeCompose, if_true, hr']
  refine ⟨hacc, ?_, ?_⟩
  · unfold rdpAfter
    rw [C10_rdp_additive (libFns _ frac) _ _ hw hacc]
    unfold totalRdp
    rw [sum_apply]
    have hr' : (libFns (fun _ : Fin 1 => (2 : ℝ)) frac).repeatAndSelect (fun _ => 0) (.float 2) .inf = .ok fun _ => ((Real.log 2 : ℝ) : EReal) := hr
    simp only [List.flatMap_cons, List.flatMap_nil, expand, repeatList, Int.toNat_one, List.replicate_one, List.flatten_cons, List.flatten_nil,
      List.append_nil, List.map_cons, List.map_nil, List.sum_cons, List.sum_nil, RdpAccountant.maybeCompose, if_true, add_zero, hr']
    simp [RdpAccountant.init]
  · intro Ω _ P Q h
    simp only [EventPair, expand] at h
    cases h with
    | tnb P Q hC score hs γ h0 h1 hγ hsh => exact absurd rfl hsh
    | poisson P Q hC score hs hsh =>
      simp only [List.attach_nil, List.map_nil] at hC
      cases hC with
      | nil P =>
        have := repeatSelect_prob (score := score) (poisson_nonneg (by simp [PyNum.val])) (poisson_hasSum (PyNum.float 2).val.toReal) hs P
        exact renyi_self 2 one_le_two _

/-- Both events describe mechanisms: a query that asks whether some record is true, on the sample; and the largest of a random number of
Gaussian numbers. -/
example : ∃ (Ω : Type) (_ : MeasurableSpace Ω) (P Q : Measure Ω),
    EventPair .replaceOne (.sampledWithoutReplacement 100 99 (.gaussian (.float 1))) Ω P Q := by
  classical
  have hnoise : noises (.gaussian (.float 1)) = [1] := by simp [noises, expand, PyNum.val]
  refine ⟨_, _, worGaussiansMech 99 (fun k => [1][k] * 1) (fun _ s => if true ∈ s then (EuclideanSpace.single 0 1 : Vec 1) else 0) (fun _ : Fin 100 => false),
    worGaussiansMech 99 (fun k => [1][k] * 1) (fun _ s => if true ∈ s then (EuclideanSpace.single 0 1 : Vec 1) else 0)
      (Function.update (fun _ : Fin 100 => false) 0 true), ?_⟩
  simp only [EventPair]
  rw [hnoise]
  refine WorGaussiansPair.mk (n := 100) (m := 99) (zs := [1]) (R := Bool) (d := 1) (fun _ s => if true ∈ s then (EuclideanSpace.single 0 1 : Vec 1) else 0) (fun _ => 1) (fun _ => one_pos) ?_
    (fun _ => false) 0 true
  intro k s a b
  by_cases ha : true ∈ a ::ₘ s <;> by_cases hb : true ∈ b ::ₘ s <;> simp [ha, hb]

example (nr : NeighborRel) : ∃ (Ω : Type) (_ : MeasurableSpace Ω) (P Q : Measure Ω), EventPair nr (.repeatAndSelect .noOp (.float 2) .inf) Ω P Q := by
  refine ⟨_, _, repeatSelect (poisson (PyNum.float 2).val.toReal) id (gaussianReal 0 1), repeatSelect (poisson (PyNum.float 2).val.toReal) id (gaussianReal 0 1), ?_⟩
  simp only [EventPair, expand]
  exact SelectPair.poisson _ _ (Adaptive.nil _) id measurable_id rfl

end Verif.Props
