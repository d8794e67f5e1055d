import Verif.Proofs.Aggregation

/-!
# C92: the PipelineDP mechanism under audit

Vocabulary: `Verif/Spec/Aggregation.lean` (`Hidden`, `EnginePrivate`), `RemovesUser` (`Verif/Spec/Generators.lean`). PipelineDP itself is an
arbitrary function of the budget, the extractors, the data and its randomness.
-/

namespace Verif.Props
open Verif Verif.Spec Verif.Generators Verif.Aggregation MeasureTheory

/-- **C92, samples.** When the call returns, there is one sample for each of the `num_samples` runs: the metrics of all partitions of that
run, in order. -/
theorem C92_samples {Ω : Type} (E : Engine Ω) (m : Mechanism) (data : List Record) (numSamples : ℤ) (draws : ℕ → Ω) (rows : List (List ℝ))
    (h : call E m data numSamples draws = .ok rows) :
    rows.length = numSamples.toNat ∧ ∀ i (hi : i < rows.length), rows[i] =
      (E m.epsilon m.delta (fun r => r.1) (fun r => r.2.1) (fun r => r.2.2) m.publicPartitions data (draws i)).flatMap fun row => row.2 := by
  unfold call npArray at h
  split_ifs at h
  rw [← Except.ok.inj h]
  refine ⟨by simp, fun i hi => ?_⟩
  rw [List.getElem_map, List.getElem_range, List.flatMap_def]
  rfl

/-- **C92, privacy of a sample.** If PipelineDP keeps its budget, each sample satisfies the privacy property under test, for data sets that
differ in the records of one privacy id. -/
theorem C92_sample_private {Ω : Type} [MeasurableSpace Ω] (μ : Measure Ω) (E : Engine Ω) (hE : EnginePrivate μ E) (m : Mechanism)
    (he : 0 < m.epsilon) (hd : 0 ≤ m.delta) (small big : List Record) (h : RemovesUser (fun r : Record => r.2.1) small big) :
    Hidden μ (computeAggregations E m small) (computeAggregations E m big) m.epsilon m.delta ∧
      Hidden μ (computeAggregations E m big) (computeAggregations E m small) m.epsilon m.delta := by
  obtain ⟨h1, h2⟩ := hE m.epsilon m.delta mechanismPartition mechanismPrivacyId (fun r => r.2.2) m.publicPartitions small big he hd h
  constructor
  · intro S a b
    exact h1 ((fun l : List (ℕ × List ℝ) => (l.map Prod.snd).flatten) ⁻¹' S) a b
  · intro S a b
    exact h2 ((fun l : List (ℕ × List ℝ) => (l.map Prod.snd).flatten) ⁻¹' S) a b

/-- **C92, when the call returns.** It returns if and only if all runs give the same number of metrics; otherwise `ValueError`. -/
theorem C92_returns_iff {Ω : Type} (E : Engine Ω) (m : Mechanism) (data : List Record) (numSamples : ℤ) (draws : ℕ → Ω) :
    ((∃ rows, call E m data numSamples draws = .ok rows) ↔ ∀ i j : ℕ, (i : ℤ) < numSamples → (j : ℤ) < numSamples →
      (computeAggregations E m data (draws i)).length = (computeAggregations E m data (draws j)).length) ∧
    ((¬ ∃ rows, call E m data numSamples draws = .ok rows) → call E m data numSamples draws = .error .valueError) := by
  unfold call npArray
  constructor
  · constructor
    · rintro ⟨rows, h⟩ i j hi hj
      split_ifs at h with hc
      exact hc _ (List.mem_map.2 ⟨i, List.mem_range.2 (by omega), rfl⟩) _ (List.mem_map.2 ⟨j, List.mem_range.2 (by omega), rfl⟩)
    · intro h
      rw [if_pos]
      · exact ⟨_, rfl⟩
      · intro r hr r' hr'
        obtain ⟨i, hi, rfl⟩ := List.mem_map.1 hr
        obtain ⟨j, hj, rfl⟩ := List.mem_map.1 hr'
        rw [List.mem_range] at hi hj
        exact h i j (by omega) (by omega)
  · intro h
    split_ifs at h ⊢ with hc
    · exact absurd ⟨_, rfl⟩ h
    · rfl

/-- **C92, private partitions, violated by the code.** Without public partitions PipelineDP selects partitions at random, and two runs that
select different numbers of them make the call raise `ValueError`: for example with an engine that satisfies every budget because it
ignores the data and reports one partition or none by the flip of a coin. -/
theorem C92_ragged_violated : ∃ E : Engine Bool, (∀ μ : Measure Bool, EnginePrivate μ E) ∧ ∀ (m : Mechanism) (data : List Record),
    call E m data 2 (fun i => i = 0) = .error .valueError := by
  refine ⟨fun _ _ _ _ _ _ _ b => if b then [(0, [1])] else [], fun μ => ?_, fun m data => ?_⟩
  · intro eps delta _ _ _ _ small big he hd _
    have key : Hidden μ (fun b : Bool => if b then [((0 : ℕ), [(1 : ℝ)])] else []) (fun b : Bool => if b then [((0 : ℕ), [(1 : ℝ)])] else []) eps delta := by
      intro S _ _
      have h0 := measureReal_nonneg (μ := μ) (s := (fun b : Bool => if b then [((0 : ℕ), [(1 : ℝ)])] else []) ⁻¹' S)
      have h1 := Real.one_le_exp he.le
      nlinarith
    exact ⟨key, key⟩
  · unfold call npArray
    rw [if_neg]
    intro h
    have := h [1] (List.mem_map.2 ⟨0, by decide, by simp [computeAggregations]⟩) [] (List.mem_map.2 ⟨1, by decide, by simp [computeAggregations]⟩)
    simp at this

/-- **C92, audit with the generator for PipelineDP, violated by the code.** The generator of neighbouring data sets and the mechanism
disagree on which entry of a record is the privacy id (`C52_pipeline_dp_violated`). Therefore an audit finds fault with correct code: for
every size of the table with at least two partitions there is an engine that keeps every budget, and yet the samples for the two generated
data sets are not within the tested epsilon, whatever the values that Vizier proposes. -/
theorem C92_audit_violated (n k : ℕ) (hn : n ≠ 0) (hk : 2 ≤ k) (eps : ℝ) (he : 0 < eps) (pub : Option (List ℤ)) :
    ∃ (μ : Measure ℝ) (E : Engine ℝ), IsProbabilityMeasure μ ∧ EnginePrivate μ E ∧ ∀ params : List ℝ, params.length = n * k →
      ∃ d1 d2, pipelineDp n k params = .ok (d1, d2) ∧
        ¬ Hidden μ (computeAggregations E ⟨eps, 0, pub⟩ d2) (computeAggregations E ⟨eps, 0, pub⟩ d1) eps 0 := by
  refine ⟨laplace 0 1, countEngine (n - 1), laplace_prob 0 one_pos, countEngine_private _, fun params hl => ?_⟩
  obtain ⟨d1, d2, h, c1, c2⟩ := idCount_generator hn hl
  refine ⟨d1, d2, h, fun hh => ?_⟩
  have f : ∀ d, computeAggregations (countEngine (n - 1)) ⟨eps, 0, pub⟩ d =
      fun x => [(idCount (n - 1) mechanismPartition mechanismPrivacyId d : ℝ) + x / eps] := by
    intro d
    funext x
    simp [computeAggregations, countEngine]
  have k0 : (0 : ℝ) < k := by exact_mod_cast (by omega : 0 < k)
  have e2 : computeAggregations (countEngine (n - 1)) ⟨eps, 0, pub⟩ d2 ⁻¹' {l | ∃ y : ℝ, k < y ∧ l = [y]} = Set.Ioi 0 := by
    rw [f, c2]
    ext x
    simp only [Set.mem_preimage, Set.mem_ofPred_eq, List.cons.injEq, and_true, Set.mem_Ioi, exists_eq_right']
    rw [lt_add_iff_pos_right, div_pos_iff_of_pos_right he]
  have e1 : computeAggregations (countEngine (n - 1)) ⟨eps, 0, pub⟩ d1 ⁻¹' {l | ∃ y : ℝ, k < y ∧ l = [y]} = Set.Ioi (k * eps) := by
    rw [f, c1]
    ext x
    simp only [Set.mem_preimage, Set.mem_ofPred_eq, List.cons.injEq, and_true, Set.mem_Ioi, exists_eq_right', Nat.cast_zero, zero_add]
    rw [lt_div_iff₀ he]
  have := hh {l | ∃ y : ℝ, k < y ∧ l = [y]} (by rw [e2]; exact measurableSet_Ioi) (by rw [e1]; exact measurableSet_Ioi)
  rw [e1, e2, MeanMech.laplace_Ioi le_rfl, MeanMech.laplace_Ioi (by positivity), neg_zero, Real.exp_zero] at this
  have h2 : Real.exp eps * Real.exp (-(k * eps)) < 1 := by
    rw [← Real.exp_add, Real.exp_lt_one_iff]
    have : (2 : ℝ) ≤ k := by exact_mod_cast hk
    nlinarith
  linarith

/-- The hypotheses of `C92_sample_private` can be met: an engine that counts privacy ids with Laplace noise keeps its budget, and removing the
records of privacy id 7 from a data set of three records. The call then returns, for any number of samples and any draws. -/
example : EnginePrivate (laplace 0 1) (countEngine 0) ∧
    RemovesUser (fun r : Record => r.2.1) [(0, 3, 1.5)] [(0, 7, 1), (0, 3, 1.5), (1, 7, 2)] ∧
    ∀ (m : Mechanism) (data : List Record) (k : ℤ) (draws : ℕ → ℝ), ∃ rows, call (countEngine 0) m data k draws = .ok rows := by
  refine ⟨countEngine_private 0, ⟨7, ⟨(0, 7, 1), by simp, rfl⟩, by simp⟩, fun m data k draws => ?_⟩
  exact (C92_returns_iff _ _ _ _ _).1.2 fun i j _ _ => by simp [computeAggregations, countEngine]

end Verif.Props
