import Verif.Proofs.ClusteringPrivate

/-!
# C47: privacy of the clustering

`coresetLaw ν σ a k radius depth tree pts` is the distribution of the coreset that `private_lsh_clustering` computes, when `ν` is the
distribution of the projection vectors, `σ` the standard deviation of the noise of the sums and `a` the parameter of the noise of the counts.
-/

namespace Verif.Props
open MeasureTheory ProbabilityTheory Verif.Spec Verif.Clustering Verif.Advanced

variable {d : ℕ}

/-- **C47.** The coreset is at least as private as the release of `max_depth + 1` counts with discrete Laplace noise and of one sum
of sensitivity `radius` with normal noise: every `(ε, δ)` for the latter is one for the coreset, for all data sets that differ in
one record (anywhere in the data, of any size), all tree parameters and every distribution of the projection vectors. -/
theorem C47_coreset_private (ν : Measure (ℕ → Point d)) [IsProbabilityMeasure ν] {σ a : ℝ} (hσ : 0 < σ) (ha : 0 < a) (k : ℤ) {radius : ℝ}
    (hr : 0 < radius) (depth : ℤ) (tree : Option TreeParam) (hk : tree = none → k ≠ 0) (ht : ∀ t ∈ tree, TreeOk t)
    (hd : ∀ t ∈ tree, t.maxDepth = depth) (h0 : 0 ≤ depth) (l₁ l₂ : List (Point d)) (x : Point d) (hp : l₁ ++ l₂ ≠ []) (ε δ : ℝ)
    (hacc : Indist (countsAndSum (depth.toNat + 1) a σ 0 0) (countsAndSum (depth.toNat + 1) a σ 1 radius) ε δ) :
    Indist (coresetLaw ν σ a k radius depth tree (l₁ ++ x :: l₂)) (coresetLaw ν σ a k radius depth tree (l₁ ++ l₂)) ε δ ∧
    Indist (coresetLaw ν σ a k radius depth tree (l₁ ++ l₂)) (coresetLaw ν σ a k radius depth tree (l₁ ++ x :: l₂)) ε δ := by
  obtain ⟨h1, h2⟩ := coreset_dominates ν hσ ha k hr depth tree hk ht hd h0 l₁ l₂ x hp
  have hle := (countsAndSum_hs hσ ha hr depth ε).2 hacc
  exact ⟨fun S hS => (h1 ε S hS).trans (by linarith), fun S hS => (h2 ε S hS).trans (by linarith)⟩

/-- **C47.** The same for everything that is computed from the coreset alone, such as the cluster centers: `K` is the (randomized)
computation. -/
theorem C47_centers_private {Ω : Type*} [MeasurableSpace Ω] (K : Kernel (Except Err (List (Point d × ℤ))) Ω) [IsMarkovKernel K]
    (ν : Measure (ℕ → Point d)) [IsProbabilityMeasure ν] {σ a : ℝ} (hσ : 0 < σ) (ha : 0 < a) (k : ℤ) {radius : ℝ}
    (hr : 0 < radius) (depth : ℤ) (tree : Option TreeParam) (hk : tree = none → k ≠ 0) (ht : ∀ t ∈ tree, TreeOk t)
    (hd : ∀ t ∈ tree, t.maxDepth = depth) (h0 : 0 ≤ depth) (l₁ l₂ : List (Point d)) (x : Point d) (hp : l₁ ++ l₂ ≠ []) (ε δ : ℝ)
    (hacc : Indist (countsAndSum (depth.toNat + 1) a σ 0 0) (countsAndSum (depth.toNat + 1) a σ 1 radius) ε δ) :
    Indist (K ∘ₘ coresetLaw ν σ a k radius depth tree (l₁ ++ x :: l₂)) (K ∘ₘ coresetLaw ν σ a k radius depth tree (l₁ ++ l₂)) ε δ ∧
    Indist (K ∘ₘ coresetLaw ν σ a k radius depth tree (l₁ ++ l₂)) (K ∘ₘ coresetLaw ν σ a k radius depth tree (l₁ ++ x :: l₂)) ε δ := by
  obtain ⟨h1, h2⟩ := coreset_dominates ν hσ ha k hr depth tree hk ht hd h0 l₁ l₂ x hp
  have hle := (countsAndSum_hs hσ ha hr depth ε).2 hacc
  have i1 := coresetLaw_prob ν σ ha k radius depth tree hk ht hd h0 (l₁ ++ x :: l₂) (by simp)
  have i2 := coresetLaw_prob ν σ ha k radius depth tree hk ht hd h0 (l₁ ++ l₂) hp
  exact ⟨fun S hS => (h1.comp K ε S hS).trans (by linarith), fun S hS => (h2.comp K ε S hS).trans (by linarith)⟩

/-- **C47.** In closed form: if the sum alone is `(ε, δ)`-private, the coreset is `((max_depth + 1) a + ε, δ)`-private. -/
theorem C47_coreset_dp (ν : Measure (ℕ → Point d)) [IsProbabilityMeasure ν] {σ a : ℝ} (hσ : 0 < σ) (ha : 0 < a) (k : ℤ) {radius : ℝ}
    (hr : 0 < radius) (depth : ℤ) (tree : Option TreeParam) (hk : tree = none → k ≠ 0) (ht : ∀ t ∈ tree, TreeOk t)
    (hd : ∀ t ∈ tree, t.maxDepth = depth) (h0 : 0 ≤ depth) (l₁ l₂ : List (Point d)) (x : Point d) (hp : l₁ ++ l₂ ≠ []) (ε δ : ℝ)
    (hsum : Indist (gaussianReal 0 (Real.toNNReal (σ ^ 2))) (gaussianReal radius (Real.toNNReal (σ ^ 2))) ε δ) :
    Indist (coresetLaw ν σ a k radius depth tree (l₁ ++ x :: l₂)) (coresetLaw ν σ a k radius depth tree (l₁ ++ l₂))
      ((depth + 1) * a + ε) δ ∧
    Indist (coresetLaw ν σ a k radius depth tree (l₁ ++ l₂)) (coresetLaw ν σ a k radius depth tree (l₁ ++ x :: l₂))
      ((depth + 1) * a + ε) δ := by
  obtain ⟨h1, h2⟩ := coreset_dominates ν hσ ha k hr depth tree hk ht hd h0 l₁ l₂ x hp
  have hle := ((gauss_of_shift hσ hr).isHs ε).2 hsum
  have hhs := ddp_pow_conv_hs ha.le (depth.toNat + 1) (gaussLaw (σ / radius)) ((depth + 1) * a + ε)
  have hcast : ((depth.toNat : ℕ) : ℝ) = depth := by
    have : ((depth.toNat : ℤ) : ℝ) = depth := by rw [Int.toNat_of_nonneg h0]
    exact_mod_cast this
  push_cast at hhs
  rw [hcast, add_sub_cancel_left] at hhs
  exact ⟨fun S hS => (h1 _ S hS).trans (by unfold coresetLoss; linarith), fun S hS => (h2 _ S hS).trans (by unfold coresetLoss; linarith)⟩

/-- The hypotheses hold for the default tree of a run with two clusters, for adding one record to a data set with one, with a delta
below one. -/
example : ∃ δ : ℝ, δ < 1 ∧
    Indist (coresetLaw (d := 2) (Measure.dirac 0) 1 1 2 1 20 none ([] ++ 0 :: [0])) (coresetLaw (Measure.dirac 0) 1 1 2 1 20 none ([] ++ [0]))
      ((20 + 1) * 1 + 1) δ := by
  refine ⟨(gaussLaw (1 / 1)).hs 1, gauss_hs_lt_one _ _, ?_⟩
  have := (C47_coreset_dp (Measure.dirac (0 : ℕ → Point 2)) one_pos one_pos 2 one_pos 20 none (by simp) (by simp) (by simp) (by simp) [] [0] 0
    (by simp) 1 _ ((gauss_of_shift one_pos one_pos).isHs 1).1).1
  simpa using this

/-- **C47, violated for empty data.** On an empty data set every run raises an exception, on a data set with one record none does:
no `(ε, δ)` with `δ < 1` holds for these two data sets, whatever the noise. -/
theorem C47_empty_violated (ν : Measure (ℕ → Point d)) [IsProbabilityMeasure ν] (σ : ℝ) {a : ℝ} (ha : 0 < a) (k : ℤ) (radius : ℝ)
    (depth : ℤ) (tree : Option TreeParam) (hk : tree = none → k ≠ 0) (ht : ∀ t ∈ tree, TreeOk t)
    (hd : ∀ t ∈ tree, t.maxDepth = depth) (h0 : 0 ≤ depth) (x : Point d) (ε δ : ℝ) (hδ : δ < 1) :
    ¬ Indist (coresetLaw ν σ a k radius depth tree [x]) (coresetLaw ν σ a k radius depth tree []) ε δ := by
  intro h
  have hS : MeasurableSet {o : Except Err (List (Point d × ℤ)) | ∃ c, o = .ok c} := measurableSet_isOk
  have h1 : (coresetLaw ν σ a k radius depth tree [x]).real {o | ∃ c, o = .ok c} = 1 := by
    rw [coresetLaw_eq ν σ ha k radius depth tree hk ht hd h0 _ (by simp)]
    have := Verif.Mech.discreteLaplace_prob ha
    have hF : Measurable fun w => outOf (treeOf σ radius k d depth tree) radius
      (noisyData (D := depth.toNat) σ ([x].map fun x => clipScale radius x • x) w) := (measurable_outOf _ _).comp (measurable_noisyData _ _)
    rw [map_measureReal_apply measurable_ok hS, map_measureReal_apply hF (measurable_ok hS)]
    simp
  have h2 : (coresetLaw ν σ a k radius depth tree []).real {o | ∃ c, o = .ok c} = 0 := by
    have := Verif.Mech.discreteLaplace_prob ha
    have e : ∀ w : (ℕ → Point d) × (List Bool → ℤ) × (List Bool → Point d),
        ∀ c, privateCoreset ⟨σ, radius, .float a⟩ k [] radius depth tree ⟨w.1, w.2.1, w.2.2⟩ ≠ .ok c := by
      intro w c
      unfold privateCoreset
      cases chooseTree ⟨σ, radius, .float a⟩ k ([] : List (Point d)).length d depth tree (w.2.1 []) with
      | error e => simp
      | ok tc => simp [clipByRadius]
    unfold coresetLaw
    by_cases hae : AEMeasurable (fun w : (ℕ → Point d) × (List Bool → ℤ) × (List Bool → Point d) =>
        privateCoreset ⟨σ, radius, .float a⟩ k [] radius depth tree ⟨w.1, w.2.1, w.2.2⟩) (ν.prod (noiseLaw d a))
    · rw [measureReal_def, Measure.map_apply_of_aemeasurable hae hS]
      have : (fun w : (ℕ → Point d) × (List Bool → ℤ) × (List Bool → Point d) =>
        privateCoreset ⟨σ, radius, .float a⟩ k [] radius depth tree ⟨w.1, w.2.1, w.2.2⟩) ⁻¹' {o | ∃ c, o = .ok c} = ∅ := by
        ext w
        simp only [Set.mem_preimage, Set.mem_setOf_eq, Set.mem_empty_iff_false, iff_false, not_exists]
        exact e w
      rw [this]
      simp
    · rw [Measure.map_of_not_aemeasurable hae]
      simp
  have := h _ hS
  rw [h1, h2] at this
  linarith

end Verif.Props
