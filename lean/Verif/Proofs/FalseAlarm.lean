import Verif.Spec.FalseAlarm
import Verif.Proofs.TestRunner
import Mathlib.MeasureTheory.Measure.Prod

/-! # False alarms of the privacy test runner -/

namespace Verif.TestRunner
open Verif.Spec MeasureTheory
open scoped ENNReal

section stream
variable {U : Type} [MeasurableSpace U]

/-- Put an element in front of a stream. -/
def consStream (z : U × (ℕ → U)) : ℕ → U := fun i => match i with | 0 => z.1 | n + 1 => z.2 n

lemma measurable_consStream : Measurable (consStream (U := U)) := by
  rw [measurable_pi_iff]
  rintro (_ | n)
  · exact measurable_fst
  · exact (measurable_pi_apply n).comp measurable_snd

lemma map_consStream (μ : Measure U) [IsProbabilityMeasure μ] :
    (μ.prod (Measure.infinitePi fun _ : ℕ => μ)).map consStream = Measure.infinitePi fun _ : ℕ => μ := by
  classical
  refine Measure.eq_infinitePi _ fun s t ht => ?_
  obtain ⟨N, hN⟩ : ∃ N, s ⊆ Finset.range (N + 1) := ⟨s.sup id, fun i hi => Finset.mem_range.2 (Nat.lt_succ_of_le (Finset.le_sup (f := id) hi))⟩
  set t' : ℕ → Set U := fun i => if i ∈ s then t i else Set.univ with ht'
  have hm : ∀ i, MeasurableSet (t' i) := fun i => by
    rw [ht']; dsimp only; split_ifs
    · exact ht i
    · exact .univ
  have e1 : Set.pi (s : Set ℕ) t = Set.pi (Finset.range (N + 1) : Set ℕ) t' := by
    ext ω
    simp only [Set.mem_pi, Finset.mem_coe, ht']
    refine ⟨fun h i _ => ?_, fun h i hi => ?_⟩
    · split_ifs with hi
      · exact h i hi
      · trivial
    · have := h i (hN hi)
      rwa [if_pos hi] at this
  have e2 : ∏ i ∈ s, μ (t i) = ∏ i ∈ Finset.range (N + 1), μ (t' i) := by
    rw [← Finset.prod_subset hN (fun i _ hi => by rw [ht']; simp [hi])]
    exact Finset.prod_congr rfl fun i hi => by rw [ht']; simp [hi]
  have e3 : consStream ⁻¹' Set.pi (Finset.range (N + 1) : Set ℕ) t' = t' 0 ×ˢ Set.pi (Finset.range N : Set ℕ) (fun i => t' (i + 1)) := by
    ext ⟨u, ω⟩
    simp only [Set.mem_preimage, Set.mem_pi, Finset.mem_coe, Finset.mem_range, Set.mem_prod]
    refine ⟨fun h => ⟨h 0 (by omega), fun i hi => h (i + 1) (by omega)⟩, fun h i hi => ?_⟩
    cases i with
    | zero => exact h.1
    | succ i => exact h.2 i (by omega)
  rw [e1, e2, Measure.map_apply measurable_consStream (MeasurableSet.pi (Finset.countable_toSet _) fun i _ => hm i), e3, Measure.prod_prod,
    Measure.infinitePi_pi _ (fun i _ => hm (i + 1)), Finset.prod_range_succ', mul_comm]

/-- Two elements in front of a stream. -/
def consTwo (z : (U × U) × (ℕ → U)) : ℕ → U := consStream (z.1.1, consStream (z.1.2, z.2))

lemma measurable_consTwo : Measurable (consTwo (U := U)) :=
  measurable_consStream.comp ((measurable_fst.comp measurable_fst).prodMk
    (measurable_consStream.comp ((measurable_snd.comp measurable_fst).prodMk measurable_snd)))

lemma map_consTwo (μ : Measure U) [IsProbabilityMeasure μ] :
    ((μ.prod μ).prod (Measure.infinitePi fun _ : ℕ => μ)).map consTwo = Measure.infinitePi fun _ : ℕ => μ := by
  have e : consTwo (U := U) = consStream ∘ (Prod.map id consStream) ∘ MeasurableEquiv.prodAssoc := rfl
  have h1 : ((μ.prod μ).prod (Measure.infinitePi fun _ : ℕ => μ)).map MeasurableEquiv.prodAssoc =
      μ.prod (μ.prod (Measure.infinitePi fun _ : ℕ => μ)) := (measurePreserving_prodAssoc _ _ _).map_eq
  rw [e, ← Measure.map_map measurable_consStream (Measurable.comp (measurable_id.prodMap measurable_consStream) MeasurableEquiv.prodAssoc.measurable),
    ← Measure.map_map (measurable_id.prodMap measurable_consStream) MeasurableEquiv.prodAssoc.measurable, h1,
    ← Measure.map_prod_map _ _ measurable_id measurable_consStream, map_consStream, Measure.map_id, map_consStream]

/-- The measure of an event in terms of the first two elements. -/
lemma stream_apply (μ : Measure U) [IsProbabilityMeasure μ] {A : Set (ℕ → U)} (hA : MeasurableSet A) :
    (Measure.infinitePi fun _ : ℕ => μ) A = ∫⁻ u, (Measure.infinitePi fun _ : ℕ => μ) {ω | consTwo (u, ω) ∈ A} ∂(μ.prod μ) := by
  conv_lhs => rw [← map_consTwo μ, Measure.map_apply measurable_consTwo hA, Measure.prod_apply (measurable_consTwo hA)]
  rfl

lemma measurable_section {A : Set (ℕ → U)} (hA : MeasurableSet A) (u : U × U) : MeasurableSet {ω | consTwo (u, ω) ∈ A} :=
  (measurable_consTwo.comp measurable_prodMk_left) hA

end stream

variable {U G D S S' : Type} (p : SampledRunner U G D S S') (cfg : RunnerConfig)

/-- The estimate of one trial on given data sets with given random bits. -/
noncomputable def outcome (d : D × D) (u : U × U) : Except Err ℝ := do
  let x1 ← p.mechanism d.1 cfg.numSamples u.1
  let x2 ← p.mechanism d.2 cfg.numSamples u.2
  let y1 ← p.postprocess x1
  let y2 ← p.postprocess x2
  let e12 ← p.estimateLowerBound y1 y2 cfg.failureProbability
  let e21 ← p.estimateLowerBound y2 y1 cfg.failureProbability
  .ok (max e12 e21)

/-- The test reports a violation within `T` trials, by recursion on `T`. -/
def acc : ℕ → Option ℝ → G → Set (ℕ → U)
  | 0, _, _ => ∅
  | T + 1, last, g => {ω | ∃ d e, (p.generator last g).2 = .ok d ∧ outcome p cfg d (ω 0, ω 1) = .ok e ∧
      (p.rejectProperty e = true ∨ (fun i => ω (i + 2)) ∈ acc T (some e) (p.generator last g).1)}

lemma bind_ok {α β : Type} {m : Except Err α} {f : α → Except Err β} {b : β} : (m >>= f) = .ok b ↔ ∃ a, m = .ok a ∧ f a = .ok b := by
  cases m with
  | error e => exact ⟨fun h => (by cases h), fun ⟨_, h, _⟩ => (by cases h)⟩
  | ok a => exact ⟨fun h => ⟨a, rfl, h⟩, fun ⟨_, h, h'⟩ => by cases h; exact h'⟩

lemma outcome_ok {d : D × D} {u : U × U} {e : ℝ} : outcome p cfg d u = .ok e ↔
    ∃ x1 x2 y1 y2 e12 e21, p.mechanism d.1 cfg.numSamples u.1 = .ok x1 ∧ p.mechanism d.2 cfg.numSamples u.2 = .ok x2 ∧
      p.postprocess x1 = .ok y1 ∧ p.postprocess x2 = .ok y2 ∧ p.estimateLowerBound y1 y2 cfg.failureProbability = .ok e12 ∧
      p.estimateLowerBound y2 y1 cfg.failureProbability = .ok e21 ∧ e = max e12 e21 := by
  unfold outcome
  simp only [bind_ok, Except.ok.injEq]
  constructor
  · rintro ⟨x1, h1, x2, h2, y1, h3, y2, h4, a, h5, b, h6, h7⟩
    exact ⟨x1, x2, y1, y2, a, b, h1, h2, h3, h4, h5, h6, h7.symm⟩
  · rintro ⟨x1, x2, y1, y2, a, b, h1, h2, h3, h4, h5, h6, h7⟩
    exact ⟨x1, h1, x2, h2, y1, h3, y2, h4, a, h5, b, h6, h7.symm⟩

lemma trial_parts (ω : ℕ → U) (last : Option ℝ) (g : G) (k : ℕ) (s' : G × ℕ) (e : ℝ) :
    trial (p.parts ω) cfg last (g, k) = (s', .ok e) ↔
      ∃ d, (p.generator last g).2 = .ok d ∧ s' = ((p.generator last g).1, k + 2) ∧ outcome p cfg d (ω k, ω (k + 1)) = .ok e := by
  rw [trial_iff]
  unfold TrialRun
  simp only [outcome_ok, SampledRunner.parts, Prod.mk.injEq]
  constructor
  · rintro ⟨s1, d1, d2, ⟨rfl, h1⟩, s2, x1, ⟨rfl, h2⟩, s3, x2, ⟨rfl, h3⟩, y1, h4, y2, h5, s6, e12, ⟨rfl, h6⟩, e21, ⟨rfl, h7⟩, rfl⟩
    exact ⟨(d1, d2), h1, rfl, x1, x2, y1, y2, e12, e21, h2, h3, h4, h5, h6, h7, rfl⟩
  · rintro ⟨⟨d1, d2⟩, h1, rfl, x1, x2, y1, y2, e12, e21, h2, h3, h4, h5, h6, h7, rfl⟩
    exact ⟨_, d1, d2, ⟨rfl, h1⟩, _, x1, ⟨rfl, h2⟩, _, x2, ⟨rfl, h3⟩, y1, h4, y2, h5, _, e12, ⟨rfl, h6⟩, e21, ⟨rfl, h7⟩, rfl⟩

lemma loop_parts (ω : ℕ → U) (T : ℕ) : ∀ (t : ℤ) (last : Option ℝ) (es : List ℝ) (g : G) (k : ℕ),
    (∃ s r, loop (p.parts ω) cfg T t last es (g, k) = (s, .ok r) ∧ r.terminationReason = .foundPrivacyViolation) ↔
      (fun i => ω (k + i)) ∈ acc p cfg T last g := by
  induction T with
  | zero =>
    intro t last es g k
    simp only [loop, acc, Set.mem_empty_iff_false, iff_false]
    rintro ⟨s, r, h, h'⟩
    obtain ⟨-, h⟩ := Prod.mk.inj h
    injection h with h
    rw [← h] at h'
    cases h'
  | succ T ih =>
    intro t last es g k
    have step : ∀ s r, loop (p.parts ω) cfg (T + 1) t last es (g, k) = (s, .ok r) ↔ ∃ s1 e, trial (p.parts ω) cfg last (g, k) = (s1, .ok e) ∧
        (if p.rejectProperty e then fun s => (s, .ok ⟨es ++ [e], .foundPrivacyViolation, some cfg.failureProbability, t + 1⟩)
          else loop (p.parts ω) cfg T (t + 1) (some e) (es ++ [e])) s1 = (s, .ok r) := fun s r => by
      conv_lhs => unfold loop
      rw [andThen_ok]
      rfl
    simp only [step, trial_parts, acc, Set.mem_ofPred_eq, add_zero]
    constructor
    · rintro ⟨s, r, ⟨s1, e, ⟨d, h1, rfl, h2⟩, h3⟩, h4⟩
      refine ⟨d, e, h1, h2, ?_⟩
      by_cases hr : p.rejectProperty e = true
      · exact .inl hr
      · rw [if_neg hr] at h3
        right
        have := (ih (t + 1) (some e) (es ++ [e]) (p.generator last g).1 (k + 2)).1 ⟨s, r, h3, h4⟩
        convert this using 3
        omega
    · rintro ⟨d, e, h1, h2, h3⟩
      by_cases hr : p.rejectProperty e = true
      · exact ⟨_, _, ⟨_, e, ⟨d, h1, rfl, h2⟩, by rw [if_pos hr]⟩, rfl⟩
      · have h3 := h3.resolve_left hr
        obtain ⟨s, r, h4, h5⟩ := (ih (t + 1) (some e) (es ++ [e]) (p.generator last g).1 (k + 2)).2 (by
          convert h3 using 3
          omega)
        exact ⟨s, r, ⟨_, e, ⟨d, h1, rfl, h2⟩, by rw [if_neg hr]; exact h4⟩, h5⟩

lemma accused_eq (g : G) : p.Accused cfg g = acc p cfg cfg.maxNumTrials.toNat none g := by
  ext ω
  unfold SampledRunner.Accused testPrivacy
  rw [Set.mem_ofPred_eq, loop_parts]
  simp only [zero_add]

lemma consTwo_zero (u : U × U) (ω : ℕ → U) : consTwo (u, ω) 0 = u.1 := rfl
lemma consTwo_one (u : U × U) (ω : ℕ → U) : consTwo (u, ω) 1 = u.2 := rfl
lemma consTwo_tail (u : U × U) (ω : ℕ → U) : (fun i => consTwo (u, ω) (i + 2)) = ω := rfl

/-- A trial rejects only if one of the two estimates is rejected. -/
lemma reject_cases {d : D × D} {u : U × U} {e : ℝ} (h : outcome p cfg d u = .ok e) (hr : p.rejectProperty e = true) :
    u ∈ p.Rejects cfg d.1 d.2 ∪ Prod.swap ⁻¹' p.Rejects cfg d.2 d.1 := by
  obtain ⟨x1, x2, y1, y2, a, b, h1, h2, h3, h4, h5, h6, rfl⟩ := (outcome_ok p cfg).1 h
  rcases max_choice a b with hm | hm <;> rw [hm] at hr
  · exact .inl ⟨x1, x2, y1, y2, a, h1, h2, h3, h4, h5, hr⟩
  · exact .inr ⟨x2, x1, y2, y1, b, h2, h1, h4, h3, h6, hr⟩

variable [MeasurableSpace U] (μ : Measure U) [IsProbabilityMeasure μ]

lemma swap_le (A : Set (U × U)) : (μ.prod μ) (Prod.swap ⁻¹' A) ≤ (μ.prod μ) A := by
  refine (Measure.le_map_apply measurable_swap.aemeasurable A).trans (le_of_eq ?_)
  rw [Measure.prod_swap]

/-- The bound, by induction on the number of trials. -/
lemma acc_le {b : ℝ≥0∞} (hb : ∀ last g d, (p.generator last g).2 = .ok d →
    (μ.prod μ) (p.Rejects cfg d.1 d.2) ≤ b ∧ (μ.prod μ) (p.Rejects cfg d.2 d.1) ≤ b) (T : ℕ) :
    ∀ last g, MeasurableSet (acc p cfg T last g) → (Measure.infinitePi fun _ : ℕ => μ) (acc p cfg T last g) ≤ 2 * T * b := by
  classical
  induction T with
  | zero => intro last g _; simp [acc]
  | succ T ih =>
    intro last g hA
    cases hd : (p.generator last g).2 with
    | error e =>
      have : acc p cfg (T + 1) last g = ∅ := by
        ext ω
        simp only [acc, Set.mem_ofPred_eq, hd, reduceCtorEq, false_and, exists_false, Set.mem_empty_iff_false]
      rw [this, measure_empty]
      exact zero_le
    | ok d =>
      set R := p.Rejects cfg d.1 d.2 ∪ Prod.swap ⁻¹' p.Rejects cfg d.2 d.1 with hR
      have hsec : ∀ u : U × U, (Measure.infinitePi fun _ : ℕ => μ) {ω | consTwo (u, ω) ∈ acc p cfg (T + 1) last g} ≤
          R.indicator (fun _ => 1) u + 2 * T * b := by
        intro u
        by_cases hu : u ∈ R
        · rw [Set.indicator_of_mem hu]
          exact le_add_right prob_le_one
        · rw [Set.indicator_of_notMem hu, zero_add]
          cases ho : outcome p cfg d u with
          | error e =>
            have : {ω | consTwo (u, ω) ∈ acc p cfg (T + 1) last g} = ∅ := by
              ext ω
              simp only [acc, Set.mem_ofPred_eq, hd, Except.ok.injEq, consTwo_zero, consTwo_one, Set.mem_empty_iff_false, iff_false]
              rintro ⟨d', e', rfl, h, -⟩
              rw [show (u.1, u.2) = u from rfl, ho] at h
              cases h
            rw [this, measure_empty]
            exact zero_le
          | ok e =>
            have hne : p.rejectProperty e ≠ true := fun h => hu (reject_cases p cfg ho h)
            have this : {ω | consTwo (u, ω) ∈ acc p cfg (T + 1) last g} = acc p cfg T (some e) (p.generator last g).1 := by
              ext ω
              simp only [acc, Set.mem_ofPred_eq, hd, Except.ok.injEq, consTwo_zero, consTwo_one, consTwo_tail]
              constructor
              · rintro ⟨d', e', rfl, h, h'⟩
                rw [show (u.1, u.2) = u from rfl, ho] at h
                injection h with h
                subst h
                exact h'.resolve_left hne
              · exact fun h => ⟨d, e, rfl, ho, .inr h⟩
            have hm := measurable_section hA u
            rw [this] at hm ⊢
            exact ih _ _ hm
      rw [stream_apply μ hA]
      refine (lintegral_mono hsec).trans ?_
      rw [lintegral_add_right _ measurable_const, lintegral_const, measure_univ, mul_one]
      refine (add_le_add_left (lintegral_indicator_const_le R 1) _).trans ?_
      obtain ⟨b1, b2⟩ := hb last g d hd
      rw [one_mul]
      refine (add_le_add_left ((measure_union_le _ _).trans (add_le_add b1 ((swap_le μ _).trans b2))) _).trans (le_of_eq ?_)
      push_cast
      ring

/-- If the estimates of a trial form a countable set, the event is measurable. -/
lemma measurable_acc (h : ∀ d, ∃ C : Set ℝ, C.Countable ∧ (∀ u e, outcome p cfg d u = .ok e → e ∈ C) ∧
    ∀ e ∈ C, MeasurableSet {u | outcome p cfg d u = .ok e}) (T : ℕ) : ∀ last g, MeasurableSet (acc p cfg T last g) := by
  induction T with
  | zero => intro _ _; exact MeasurableSet.empty
  | succ T ih =>
    intro last g
    cases hd : (p.generator last g).2 with
    | error e =>
      have : acc p cfg (T + 1) last g = ∅ := by
        ext ω
        simp only [acc, Set.mem_ofPred_eq, hd, reduceCtorEq, false_and, exists_false, Set.mem_empty_iff_false]
      rw [this]
      exact MeasurableSet.empty
    | ok d =>
      obtain ⟨C, hC, hin, hm⟩ := h d
      have e : acc p cfg (T + 1) last g = ⋃ e ∈ C, ((fun ω : ℕ → U => (ω 0, ω 1)) ⁻¹' {u | outcome p cfg d u = .ok e}) ∩
          ({ω | p.rejectProperty e = true} ∪ (fun ω : ℕ → U => fun i => ω (i + 2)) ⁻¹' acc p cfg T (some e) (p.generator last g).1) := by
        ext ω
        simp only [acc, Set.mem_ofPred_eq, hd, Except.ok.injEq, Set.mem_iUnion, Set.mem_inter_iff, Set.mem_preimage, Set.mem_union]
        constructor
        · rintro ⟨d', e, rfl, h1, h2⟩
          exact ⟨e, hin _ e h1, h1, h2⟩
        · rintro ⟨e, -, h1, h2⟩
          exact ⟨d, e, rfl, h1, h2⟩
      rw [e]
      refine MeasurableSet.biUnion hC fun e he => MeasurableSet.inter ?_ (MeasurableSet.union (MeasurableSet.const _) ?_)
      · exact ((measurable_pi_apply 0).prodMk (measurable_pi_apply 1)) (hm e he)
      · exact (measurable_pi_iff.2 fun i => measurable_pi_apply (i + 2)) (ih _ _)

end Verif.TestRunner
