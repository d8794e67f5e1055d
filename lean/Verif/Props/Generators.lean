import Verif.Proofs.Generators

/-!
# C52 and C53: the data set generators
-/

namespace Verif.Props

open Spec Generators

/-- **C52 (contents).** Whatever the order in which the trial lists its parameters, the array handed to the subclass has the value of
the `i`-th parameter at index `i`: for the generic generator, -/
theorem C52_parameters {study : Study} {n : ℕ} {t : VizierTrial} {v : ℕ → ℝ} (h : Assigns .x n t v) :
    VizierGenerator.extract { VizierGenerator.init study n with lastTrial := some t } = .ok ((List.range n).map v) :=
  VizierGenerator.fill_eq (fun _ hi => VizierGenerator.lookup_init hi) h

/-- and for the classification generator, whose first parameters are features and whose last ones are labels. -/
theorem C52_classification_parameters {study : Study} {nf ni : ℕ} {t : VizierTrial} {v : ℕ → ℝ}
    (h : Assigns (fun i => if i < nf then .float i else .int i) (nf + ni) t v) :
    VizierGenerator.extract ⟨classificationTable nf ni, nf + ni, true, some t, study⟩ = .ok ((List.range (nf + ni)).map v) := by
  refine VizierGenerator.fill_eq (fun i hi => ?_) h
  change i < nf + ni at hi
  rw [classificationTable, List.lookup_append]
  by_cases hf : i < nf
  · simp only [if_pos hf]
    rw [VizierGenerator.lookup_table (f := ParamName.float) (g := fun i => i) (fun a b h => by injection h) (List.mem_range.2 hf)]
    rfl
  · simp only [if_neg hf]
    have h1 : ((List.range nf).map fun i => (ParamName.float i, i)).lookup (.int i) = none := by
      rw [List.lookup_eq_none_iff]
      intro p hp
      obtain ⟨j, _, rfl⟩ := List.mem_map.1 hp
      rfl
    rw [h1]
    obtain ⟨j, rfl⟩ := Nat.exists_eq_add_of_le (not_lt.1 hf)
    have := VizierGenerator.lookup_table (f := fun j => ParamName.int (nf + j)) (g := fun j => nf + j) (l := List.range ni) (i := j)
      (fun a b h => by simpa using h) (List.mem_range.2 (by omega))
    simpa using this

/-- **C52 (scalar generator).** Every successful call of a generator with at least one parameter returns data sets of which the second
one has all records of the first one and exactly one more, and as many records as there are parameters. -/
theorem C52_scalar {g g' : VizierGenerator} (hn : g.numVizierParams ≠ 0) {last : Option ℝ} {d1 d2 : List ℝ}
    (h : VizierGenerator.call scalar last g = (g', .ok (d1, d2))) : AddsRecord d1 d2 ∧ d2.length = g.numVizierParams := by
  obtain ⟨params, hl, hp⟩ := VizierGenerator.call_ok h
  have e := Except.ok.inj hp
  have e1 : params.dropLast = d1 := congrArg Prod.fst e
  have e2 : params = d2 := congrArg Prod.snd e
  subst e1 e2
  have hne : params ≠ [] := fun q => hn (by rw [← hl, q]; rfl)
  refine ⟨⟨params.getLast hne, ?_⟩, hl⟩
  conv_lhs => rw [← List.dropLast_append_getLast hne]
  exact List.perm_append_singleton _ _

/-- **C52 (classification generator).** With at least one sample, every successful call returns a first data set of `num_samples` rows
of `sample_dim` features with as many labels, and a second one with exactly one record less; the features, row by row, followed by the
labels are the parameters. -/
theorem C52_classification {g g' : VizierGenerator} {numSamples sampleDim : ℕ} (hs : numSamples ≠ 0)
    (hn : g.numVizierParams = sampleDim * numSamples + numSamples) {last : Option ℝ} {f1 f2 : List (List ℝ)} {l1 l2 : List ℝ}
    (h : VizierGenerator.call (classification numSamples sampleDim) last g = (g', .ok ((f1, l1), (f2, l2)))) :
    f1.length = numSamples ∧ l1.length = numSamples ∧ (∀ row ∈ f1, row.length = sampleDim) ∧ f2.length = l2.length ∧
      AddsRecord (f2.zip l2) (f1.zip l1) ∧ (f1.flatten ++ l1).length = g.numVizierParams := by
  obtain ⟨params, hl, hp⟩ := VizierGenerator.call_ok h
  have hlen : (params.take (sampleDim * numSamples)).length = numSamples * sampleDim := by
    rw [List.length_take, hl, hn, Nat.mul_comm]; omega
  rw [classification] at hp
  simp only [reshape_ok hlen] at hp
  have e := Except.ok.inj hp
  have e1 := congrArg (fun d => d.1.1) e
  have e2 := congrArg (fun d => d.1.2) e
  have e3 := congrArg (fun d => d.2.1) e
  have e4 := congrArg (fun d => d.2.2) e
  simp only at e1 e2 e3 e4
  have hl1 : l1.length = numSamples := by rw [← e2, List.length_drop, hl, hn]; omega
  have hf1 : f1.length = numSamples := by rw [← e1]; simp
  rw [e1] at e3
  rw [e2] at e4
  refine ⟨hf1, hl1, fun row hr => chunk_length hlen (by rw [e1]; exact hr), by rw [← e3, ← e4]; simp [hf1, hl1], ?_, ?_⟩
  · have n1 : f1 ≠ [] := fun q => hs (by rw [← hf1, q]; rfl)
    have n2 : l1 ≠ [] := fun q => hs (by rw [← hl1, q]; rfl)
    refine ⟨(f1.getLast n1, l1.getLast n2), ?_⟩
    conv_lhs => rw [← List.dropLast_append_getLast n1, ← List.dropLast_append_getLast n2]
    rw [List.zip_append (by simp [hf1, hl1]), e3, e4]
    exact List.perm_append_singleton _ _
  · rw [← e1, ← e2, flatten_chunks, List.length_append, List.length_take, hlen, hn, List.length_drop, hl, hn, Nat.mul_comm]
    omega

/-- **C52 (labels), violated by the code.** For every number of classes, the problem handed to Vizier lets a label be `num_classes`,
which is not one of the `num_classes` labels `0, ..., num_classes - 1`. -/
theorem C52_labels_violated {numSamples sampleDim : ℕ} (hs : numSamples ≠ 0) (lo hi : ℝ) {numClasses : ℤ} (hc : 0 ≤ numClasses) :
    ∃ name minValue maxValue, .int name minValue maxValue ∈ classificationProblem (sampleDim * numSamples) numSamples lo hi numClasses ∧
      ∃ label : ℤ, minValue ≤ label ∧ label ≤ maxValue ∧ ¬(0 ≤ label ∧ label < numClasses) := by
  refine ⟨.int (sampleDim * numSamples + 0), 0, numClasses, ?_, numClasses, hc, le_rfl, fun q => absurd q.2 (lt_irrefl _)⟩
  rw [classificationProblem, List.mem_append]
  exact Or.inr (List.mem_map.2 ⟨0, List.mem_range.2 (Nat.pos_of_ne_zero hs), rfl⟩)

/-- **C52 (PipelineDP generator), partial.** If the privacy id of a record were its first entry, the first data set would be the second
one without the records of one privacy id. The mechanism takes the second entry, see `C52_pipeline_dp_violated`. -/
theorem C52_pipeline_dp_partial {maxPrivacyIds maxPartitions : ℕ} (h1 : maxPrivacyIds ≠ 0) (h2 : maxPartitions ≠ 0) {params : List ℝ}
    (hl : params.length = maxPrivacyIds * maxPartitions) :
    ∃ d1 d2, pipelineDp maxPrivacyIds maxPartitions params = .ok (d1, d2) ∧ RemovesUser (fun r => r.1) d1 d2 ∧
      d2.length = maxPrivacyIds * maxPartitions := by
  rw [pipelineDp, reshape_ok hl]
  refine ⟨_, _, rfl, ?_, ?_⟩
  · generalize hrows : (List.range maxPrivacyIds).map (fun i => (params.drop (i * maxPartitions)).take maxPartitions) = rows
    have hlen : rows.length = maxPrivacyIds := by rw [← hrows]; simp
    have hne : rows ≠ [] := fun q => h1 (by rw [← hlen, q]; rfl)
    have hrl : (rows.getLast hne).length = maxPartitions := chunk_length hl (by rw [hrows]; exact List.getLast_mem hne)
    refine ⟨rows.dropLast.length, ?_, ?_⟩
    · refine ⟨(rows.dropLast.length, 0, (rows.getLast hne)[0]'(by omega)), mem_sparse.2 ⟨rows.getLast hne, ?_, ?_⟩, rfl⟩
      · simp only
        rw [List.length_dropLast, List.getLast_eq_getElem, List.getElem?_eq_getElem]
      · exact List.getElem?_eq_getElem _
    · have e := congrArg sparse (List.dropLast_append_getLast hne)
      rw [← e, sparse_concat, List.filter_append, List.filter_eq_self.2, List.filter_eq_nil_iff.2, List.append_nil]
      · intro r hr
        obtain ⟨v, _, rfl⟩ := List.mem_map.1 hr
        simp
      · intro r hr
        have := sparse_fst_lt hr
        simp only [ne_eq, decide_not, Bool.not_eq_eq_eq_not, Bool.not_true, decide_eq_false_iff_not]
        omega
  · have : ∀ (n : ℕ) (l : List (List ℝ)), (∀ row ∈ l, row.length = n) → ∀ k, ((l.zipIdx k).map fun row => row.1.zipIdx.map
        fun v => (row.2, v.2, v.1)).flatten.length = l.length * n := by
      intro n l
      induction l with
      | nil => intro _ k; simp
      | cons a l ih =>
        intro h k
        rw [List.zipIdx_cons, List.map_cons, List.flatten_cons, List.length_append, ih (fun row hr => h row (by simp [hr]))]
        simp [h a (by simp), Nat.succ_mul, Nat.add_comm]
    rw [sparse, this maxPartitions _ (fun row hr => chunk_length hl hr)]
    simp

/-- **C52 (PipelineDP generator), violated by the code.** The mechanism takes the second entry of a record as its privacy id. Apart from
the case of one privacy id and one partition, the data sets never differ in the records of one privacy id: no privacy id has the
property that removing its records from the second data set leaves the first one (and the first one is never the larger one). -/
theorem C52_pipeline_dp_violated {maxPrivacyIds maxPartitions : ℕ} (h1 : maxPrivacyIds ≠ 0) (h2 : maxPartitions ≠ 0)
    (h3 : ¬(maxPrivacyIds = 1 ∧ maxPartitions = 1)) {params : List ℝ} (hl : params.length = maxPrivacyIds * maxPartitions) :
    ∃ d1 d2, pipelineDp maxPrivacyIds maxPartitions params = .ok (d1, d2) ∧ ¬RemovesUser mechanismPrivacyId d1 d2 ∧
      ¬RemovesUser mechanismPrivacyId d2 d1 := by
  rw [pipelineDp, reshape_ok hl]
  generalize hrows : (List.range maxPrivacyIds).map (fun i => (params.drop (i * maxPartitions)).take maxPartitions) = rows
  have hlen : rows.length = maxPrivacyIds := by rw [← hrows]; simp
  have hrl : ∀ row ∈ rows, row.length = maxPartitions := fun row hr => chunk_length hl (by rw [hrows]; exact hr)
  have hmem : ∀ i < maxPrivacyIds, ∀ j < maxPartitions, ∃ v, (i, j, v) ∈ sparse rows := by
    intro i hi j hj
    have hi' : i < rows.length := by omega
    have hj' : j < rows[i].length := by rw [hrl _ (List.getElem_mem hi')]; exact hj
    exact ⟨rows[i][j], mem_sparse.2 ⟨rows[i], List.getElem?_eq_getElem hi', List.getElem?_eq_getElem hj'⟩⟩
  have hlast : ∀ j v, (maxPrivacyIds - 1, j, v) ∉ sparse rows.dropLast := by
    intro j v hr
    have := sparse_fst_lt hr
    rw [List.length_dropLast] at this
    simp only at this
    omega
  refine ⟨_, _, rfl, ?_, ?_⟩
  · rintro ⟨u, _, hp⟩
    by_cases hM : maxPartitions = 1
    · have hP : 1 < maxPrivacyIds := by
        rcases Nat.lt_or_ge 1 maxPrivacyIds with h | h
        · exact h
        · exact absurd ⟨by omega, hM⟩ h3
      -- the records of `d2` all have privacy id 0
      obtain ⟨v, hv⟩ := hmem 0 (by omega) 0 (by omega)
      obtain ⟨row, q1, q2⟩ := mem_sparse.1 hv
      have hd1 : ((0, 0, v) : ℕ × ℕ × ℝ) ∈ sparse rows.dropLast := mem_sparse.2 ⟨row, by
        simp only at q1 ⊢
        rw [List.getElem?_dropLast, if_pos (by omega)]
        exact q1, q2⟩
      have hu : u ≠ 0 := by
        have := hp.mem_iff.1 hd1
        rw [List.mem_filter] at this
        intro q
        subst q
        simp [mechanismPrivacyId] at this
      obtain ⟨w, hw⟩ := hmem (maxPrivacyIds - 1) (by omega) 0 (by omega)
      refine hlast 0 w (hp.mem_iff.2 (List.mem_filter.2 ⟨hw, ?_⟩))
      exact decide_eq_true (Ne.symm hu)
    · obtain ⟨j, hj, hju⟩ : ∃ j < maxPartitions, j ≠ u := by
        by_cases q : u = 0
        · exact ⟨1, by omega, by omega⟩
        · exact ⟨0, by omega, by omega⟩
      obtain ⟨w, hw⟩ := hmem (maxPrivacyIds - 1) (by omega) j hj
      refine hlast j w (hp.mem_iff.2 (List.mem_filter.2 ⟨hw, ?_⟩))
      exact decide_eq_true hju
  · rintro ⟨u, _, hp⟩
    obtain ⟨w, hw⟩ := hmem (maxPrivacyIds - 1) (by omega) 0 (by omega)
    exact hlast 0 w (List.mem_filter.1 (hp.mem_iff.1 hw)).1

/-- The hypotheses of the theorems above are met: a trial that lists its parameters out of order, for a generator that has just been
constructed. -/
example : VizierGenerator.call scalar none (VizierGenerator.init ⟨fun _ _ => some ⟨[(.x 1, 5), (.x 0, 7)]⟩, 0, []⟩ 2) =
    (VizierGenerator.after ⟨fun _ _ => some ⟨[(.x 1, 5), (.x 0, 7)]⟩, 0, []⟩ 2 1 ⟨[(.x 1, 5), (.x 0, 7)]⟩ [], .ok ([7], [7, 5])) := by
  have := VizierGenerator.call_init scalar (study := ⟨fun _ _ => some ⟨[(.x 1, 5), (.x 0, 7)]⟩, 0, []⟩) (n := 2) rfl
    (v := fun i => if i = 0 then 7 else 5) (by
      show List.Perm _ _
      simp only [List.range, List.range.loop, List.map_cons, List.map_nil, if_true]
      exact List.Perm.swap _ _ _)
  simpa [scalar, List.range, List.range.loop] using this

/-- **C53, partial: results other than zero.** Let a generator be constructed and called once without a result and then with any results
other than zero, for a study that always suggests values for all parameters. Then the study has been given exactly these results, each
for the trial whose data sets the preceding call had returned; every call returned the data sets of a fresh suggestion, made by the
study from all results so far. -/
theorem C53_reports_partial {D : Type} (f : List ℝ → Except Err D) (study : Study) (n : ℕ)
    (hs : ∀ c k, ∃ t v, study.policy c k = some t ∧ Assigns .x n t v) (results : ℕ → ℝ) (hr : ∀ k, results k ≠ 0) (m : ℕ) :
    ∃ (trial : ℕ → VizierTrial) (values : ℕ → ℕ → ℝ),
      (∀ k ≤ m, study.policy (study.completed ++ (List.range k).map fun j => (trial j, results j)) (study.asked + k) = some (trial k)) ∧
      (∀ k ≤ m, Assigns .x n (trial k) (values k)) ∧
      (session (VizierGenerator.call f) (none :: (List.range m).map fun k => some (results k)) (VizierGenerator.init study n)).1.study.completed =
        study.completed ++ (List.range m).map (fun j => (trial j, results j)) ∧
      (session (VizierGenerator.call f) (none :: (List.range m).map fun k => some (results k)) (VizierGenerator.init study n)).2 =
        (List.range (m + 1)).map fun k => f ((List.range n).map (values k)) := by
  suffices H : ∃ (trial : ℕ → VizierTrial) (values : ℕ → ℕ → ℝ),
      (∀ k ≤ m, study.policy (study.completed ++ (List.range k).map fun j => (trial j, results j)) (study.asked + k) = some (trial k)) ∧
      (∀ k ≤ m, Assigns .x n (trial k) (values k)) ∧
      session (VizierGenerator.call f) (none :: (List.range m).map fun k => some (results k)) (VizierGenerator.init study n) =
        (VizierGenerator.after study n (m + 1) (trial m) ((List.range m).map (fun j => (trial j, results j))),
          (List.range (m + 1)).map fun k => f ((List.range n).map (values k))) by
    obtain ⟨trial, values, h1, h2, h3⟩ := H
    exact ⟨trial, values, h1, h2, by rw [h3]; rfl, by rw [h3]⟩
  induction m with
  | zero =>
    obtain ⟨t, v, h1, h2⟩ := hs study.completed study.asked
    refine ⟨fun _ => t, fun _ => v, ?_, fun _ _ => h2, ?_⟩
    · intro k hk
      obtain rfl : k = 0 := by omega
      simpa using h1
    · simp [session, VizierGenerator.call_init f h1 h2]
  | succ m ih =>
    obtain ⟨trial, values, h1, h2, h3⟩ := ih
    obtain ⟨t, v, q1, q2⟩ := hs (study.completed ++ ((List.range m).map (fun j => (trial j, results j)) ++ [(trial m, results m)]))
      (study.asked + (m + 1))
    have hmap : ∀ k ≤ m + 1, (List.range k).map (fun j => (Function.update trial (m + 1) t j, results j)) =
        (List.range k).map (fun j => (trial j, results j)) := by
      intro k hk
      refine List.map_congr_left fun j hj => ?_
      have := List.mem_range.1 hj
      rw [Function.update_of_ne (by omega)]
    refine ⟨Function.update trial (m + 1) t, Function.update values (m + 1) v, ?_, ?_, ?_⟩
    · intro k hk
      rw [hmap k hk]
      by_cases e : k = m + 1
      · subst e
        rw [Function.update_self, List.range_succ, List.map_append]
        exact q1
      · rw [Function.update_of_ne e]
        exact h1 k (by omega)
    · intro k hk
      by_cases e : k = m + 1
      · subst e
        rw [Function.update_self, Function.update_self]
        exact q2
      · rw [Function.update_of_ne e, Function.update_of_ne e]
        exact h2 k (by omega)
    · have hv : (List.range (m + 1 + 1)).map (fun k => f ((List.range n).map (Function.update values (m + 1) v k))) =
          (List.range (m + 1)).map (fun k => f ((List.range n).map (values k))) ++ [f ((List.range n).map v)] := by
        rw [List.range_succ, List.map_append, List.map_cons, List.map_nil, Function.update_self]
        congr 1
        refine List.map_congr_left fun k hk => ?_
        have := List.mem_range.1 hk
        rw [Function.update_of_ne (by omega)]
      rw [hmap _ le_rfl, hv, Function.update_self, List.range_succ (n := m), List.map_append, ← List.cons_append,
        VizierGenerator.session_append, h3]
      simp only [List.map_cons, List.map_nil, session, VizierGenerator.call_after f (hr m) q1 q2, List.map_append]
      simp [List.range_succ]

/-- The hypotheses are met by a study that suggests a value for one parameter. -/
example : ∃ study : Study, ∀ c k, ∃ t v, study.policy c k = some t ∧ Assigns .x 1 t v :=
  ⟨⟨fun _ k => some ⟨[(.x 0, (k : ℝ))]⟩, 0, []⟩, fun _ k => ⟨_, fun _ => k, rfl, List.Perm.refl _⟩⟩

/-- **C53, violated by the code: a result of zero.** After any successful first call, a result of zero is not reported to the study: no
trial is completed, no new suggestion is requested and the same data sets are returned again, as if no result had been given. -/
theorem C53_zero_violated {D : Type} (f : List ℝ → Except Err D) (study : Study) (n : ℕ) {g : VizierGenerator} {d : D}
    (h : VizierGenerator.call f none (VizierGenerator.init study n) = (g, .ok d)) :
    VizierGenerator.call f (some 0) g = (g, .ok d) ∧ g.study.completed = study.completed ∧ g.lastTrial.isSome := by
  unfold VizierGenerator.call at h
  simp only [VizierGenerator.report, VizierGenerator.init, VizierGenerator.loadTrial, Bool.false_eq_true, if_false] at h
  cases ht : study.policy study.completed study.asked with
  | none => simp only [ht] at h; cases h
  | some t =>
    simp only [ht] at h
    cases he : VizierGenerator.extract ⟨List.map (fun i => (ParamName.x i, i)) (List.range n), n, true, some t,
      ⟨study.policy, study.asked + 1, study.completed⟩⟩ with
    | error e =>
      simp only [Option.isSome_some, he] at h
      cases h
    | ok params =>
      simp only [Option.isSome_some, he] at h
      have e1 := congrArg Prod.fst h
      have e2 := congrArg Prod.snd h
      simp only at e1 e2
      subst e1
      refine ⟨?_, rfl, rfl⟩
      unfold VizierGenerator.call
      simp only [VizierGenerator.report, if_true, VizierGenerator.loadTrial, he, e2]

/-- The first call of the example above succeeds. -/
example : ∃ (study : Study) (g : VizierGenerator) (d : List ℝ × List ℝ),
    VizierGenerator.call scalar none (VizierGenerator.init study 1) = (g, .ok d) :=
  ⟨⟨fun _ k => some ⟨[(.x 0, (k : ℝ))]⟩, 0, []⟩, _, _, VizierGenerator.call_init scalar (v := fun _ => (0 : ℕ)) rfl (List.Perm.refl _)⟩

end Verif.Props
