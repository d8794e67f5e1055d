import Verif.Proofs.ClusteringDemo

/-!
# C89, C90: the synthetic data of the clustering demo
-/

namespace Verif.Props
open MeasureTheory ProbabilityTheory Verif.Spec Verif.Clustering

variable {d : ℕ}

/-- The draws of one point: a standard normal vector and a number uniform in `(0, 1)`. -/
noncomputable def sphereDraw (d : ℕ) : Measure (Vec d × ℝ) := (stdGaussian (Vec d)).prod (volume.restrict (Set.Ioo 0 1))

instance : IsProbabilityMeasure (sphereDraw d) := by
  haveI : IsProbabilityMeasure (volume.restrict (Set.Ioo (0 : ℝ) 1)) := ⟨by simp⟩
  unfold sphereDraw
  infer_instance

/-- **C89.** For at least one point and cluster, a positive dimension and radius and a ratio of at least one, the generator succeeds, for
all draws. Points come cluster by cluster; every cluster has its share of the points (the last one also gets what is left over), and a
point with its label. The centers are the points that `sample_uniform_sphere` returns for the smaller radius, in which they lie, and a point
is the center of its cluster plus noise of standard deviation `sqrt(radius) / (cluster_ratio * sqrt(dim))`, moved to the ball. -/
theorem C89_dataset (hd : d ≠ 0) {n k : ℕ} (hn : n ≠ 0) (hk : k ≠ 0) {ratio r : ℝ} (hr : 0 < r) (hratio : 1 ≤ ratio) :
    ∃ label : Fin n → Fin k, Monotone label ∧
      (∀ c, (Finset.univ.filter fun i => label i = c).card = clusterSize n k c) ∧
      ∀ (zc : Fin k → Point d) (uc : Fin k → ℝ) (z : Fin n → Point d), (∀ c, 0 ≤ uc c ∧ uc c ≤ 1) →
        ∃ centers : Fin k → Point d,
          sampleUniformSphere k (r * (1 - 1 / ratio)) zc uc = .ok (List.ofFn centers) ∧ (∀ c, ‖centers c‖ ≤ r * (1 - 1 / ratio)) ∧
          generateSyntheticDataset n k ratio r zc uc z =
            .ok (List.ofFn fun i => toBall r (centers (label i) + (Real.sqrt r / (ratio * Real.sqrt d)) • z i),
              List.ofFn fun i => ((label i).1 : ℤ)) := by
  refine ⟨labelOf n hk, labelOf_mono n hk, card_labelOf n hk, fun zc uc z hu => ?_⟩
  have h0 : 0 ≤ r * (1 - 1 / ratio) := by
    have : 1 / ratio ≤ 1 := (div_le_one (by linarith)).2 hratio
    exact mul_nonneg hr.le (by linarith)
  have h1 : ∀ c, ‖spherePoint (r * (1 - 1 / ratio)) (zc c) (uc c)‖ ≤ r * (1 - 1 / ratio) := fun c =>
    norm_spherePoint _ h0 (hu c).1 (hu c).2
  have h2 := sample_ok hd hk zc h1
  have h3 := generate_ok hd hn hk hr (by linarith) z h2
  simp only [spread] at h3
  exact ⟨fun c => spherePoint (r * (1 - 1 / ratio)) (zc c) (uc c), h2, h1, h3⟩

/-- **C89.** Whatever the arguments and the draws, all points that are returned lie in the ball of the given radius, and there are as many
labels as points. -/
theorem C89_radius {n k : ℕ} {ratio r : ℝ} (hr : 0 < r) {zc : Fin k → Point d} {uc : Fin k → ℝ} {z : Fin n → Point d}
    {pts : List (Point d)} {labels : List ℤ} (h : generateSyntheticDataset n k ratio r zc uc z = .ok (pts, labels)) :
    (∀ x ∈ pts, ‖x‖ ≤ r) ∧ labels.length = pts.length := by
  unfold generateSyntheticDataset at h
  by_cases hc : ratio = 0
  · rw [if_pos hc] at h; simp [bind, Except.bind] at h
  rw [if_neg hc] at h
  simp only [bind, Except.bind, pure, Except.pure] at h
  cases hcen : sampleUniformSphere k (r * (1 - 1 / ratio)) zc uc with
  | error e => rw [hcen] at h; simp at h
  | ok centers =>
    rw [hcen] at h
    by_cases hs : spread d ratio r < 0
    · simp [if_pos hs] at h
    simp only [if_neg hs] at h
    generalize List.zipWith (fun x1 x2 : Point d => x1 + x2) _ _ = q at h
    generalize List.flatten (List.map (fun p : ℕ × ℕ => List.replicate p.1 (p.2 : ℤ)) _) = l at h
    simp only [checkLabels, clipByRadius, liftErr] at h
    by_cases h1 : l.length ≠ q.length
    · rw [if_pos h1] at h; simp at h
    rw [if_neg h1] at h
    by_cases h2 : q.isEmpty
    · rw [if_pos h2] at h; simp at h
    rw [if_neg h2] at h
    dsimp only at h
    rw [List.length_map, if_neg h1] at h
    simp only [Except.ok.injEq, Prod.mk.injEq] at h
    obtain ⟨rfl, rfl⟩ := h
    refine ⟨fun x hx => ?_, by rw [List.length_map]; exact not_not.1 h1⟩
    obtain ⟨y, _, rfl⟩ := List.mem_map.1 hx
    rw [clip_toBall hr]
    unfold toBall
    split_ifs with hy
    · exact hy
    · have : 0 < ‖y‖ := hr.trans (not_le.1 hy)
      rw [norm_smul, norm_div, norm_norm, Real.norm_of_nonneg hr.le, div_mul_cancel₀ _ this.ne']

/-- **C89.** A ratio between zero and one, for which the centers should be drawn from a ball of negative radius, fails the assertion. -/
theorem C89_ratio_below_one (hd : d ≠ 0) {n k : ℕ} (hk : k ≠ 0) {ratio r : ℝ} (hr : 0 < r) (h0 : 0 < ratio) (h1 : ratio < 1)
    (zc : Fin k → Point d) (uc : Fin k → ℝ) (z : Fin n → Point d) :
    generateSyntheticDataset n k ratio r zc uc z = .error .assertionError := by
  have hneg : r * (1 - 1 / ratio) < 0 := by
    have : 1 < 1 / ratio := (one_lt_div h0).2 h1
    exact mul_neg_of_pos_of_neg hr (by linarith)
  unfold generateSyntheticDataset
  rw [if_neg h0.ne', sample_assert hd ⟨0, Nat.pos_of_ne_zero hk⟩ (lt_of_lt_of_le hneg (norm_nonneg _))]
  rfl

/-- **C89, finding.** The spread of the clusters is not the given fraction of the radius: with the same draws, multiplying the radius by
four does not multiply the points by four (the spread is proportional to the square root of the radius). -/
theorem C89_scale_violated :
    ¬ ∀ (n k : ℕ) (ratio r c : ℝ), 1 ≤ ratio → 0 < r → 0 < c → ∀ (zc : Fin k → Point 1) (uc : Fin k → ℝ) (z : Fin n → Point 1)
        (pts : List (Point 1)) (labels : List ℤ), generateSyntheticDataset n k ratio r zc uc z = .ok (pts, labels) →
        generateSyntheticDataset n k ratio (c * r) zc uc z = .ok (pts.map (c • ·), labels) := by
  intro h
  have e1 : ∀ R : ℝ, 0 < R → sampleUniformSphere 1 (R * (1 - 1 / 2)) (fun _ => (0 : Point 1)) (fun _ => 0) = .ok (List.ofFn fun _ : Fin 1 => (0 : Point 1)) := by
    intro R hR
    rw [sample_ok one_ne_zero one_ne_zero _ (fun _ => norm_spherePoint _ (by nlinarith) le_rfl zero_le_one)]
    simp [spherePoint]
  set e : Point 1 := EuclideanSpace.single 0 1
  have he : ‖e‖ = 1 := by simp [e]
  have g : ∀ R : ℝ, 0 < R → generateSyntheticDataset 1 1 2 R (fun _ => (0 : Point 1)) (fun _ => 0) (fun _ => e) =
      .ok ([toBall R ((Real.sqrt R / 2) • e)], [0]) := by
    intro R hR
    rw [generate_ok one_ne_zero one_ne_zero one_ne_zero hR two_pos _ (e1 R hR)]
    simp [spread]
  have b1 : toBall 1 ((Real.sqrt 1 / 2) • e) = (1 / 2 : ℝ) • e := by
    unfold toBall
    rw [Real.sqrt_one, if_pos]
    rw [norm_smul, he]; norm_num
  have b4 : toBall (4 * 1) ((Real.sqrt (4 * 1) / 2) • e) = e := by
    have : Real.sqrt (4 * 1) = 2 := by rw [mul_one, show (4 : ℝ) = 2 ^ 2 by norm_num, Real.sqrt_sq (by norm_num)]
    unfold toBall
    rw [this, div_self two_ne_zero, one_smul, if_pos]
    rw [he]; norm_num
  have := h 1 1 2 1 4 (by norm_num) one_pos (by norm_num) _ _ _ _ _ (g 1 one_pos)
  rw [g (4 * 1) (by norm_num), b1, b4] at this
  simp only [List.map_cons, List.map_nil, Except.ok.injEq, Prod.mk.injEq, List.cons.injEq, and_true] at this
  have h2 := congrArg norm this
  rw [smul_smul, norm_smul, he] at h2
  norm_num at h2

/-- **C90.** The points that `sample_uniform_sphere` returns are independent and uniform in the ball: with probability one it succeeds, and the
joint distribution of the points is the product of uniform distributions. -/
theorem C90_uniform (hd : d ≠ 0) {n : ℕ} (hn : n ≠ 0) {r : ℝ} (hr : 0 < r) :
    ∃ X : (Fin n → Vec d × ℝ) → Fin n → Vec d, Measurable X ∧
      (∀ᵐ w ∂Measure.pi fun _ => sphereDraw d,
        sampleUniformSphere n r (fun i => (w i).1) (fun i => (w i).2) = .ok (List.ofFn (X w))) ∧
      (Measure.pi fun _ => sphereDraw d).map X = Measure.pi fun _ => uniformBall d r := by
  have hf : Measurable fun p : Vec d × ℝ => (r * p.2 ^ (1 / (d : ℝ)) / ‖p.1‖) • p.1 := by fun_prop
  refine ⟨fun w i => spherePoint r (w i).1 (w i).2, ?_, ?_, ?_⟩
  · refine measurable_pi_lambda _ fun i => hf.comp (measurable_pi_apply i)
  · have h1 : ∀ᵐ w ∂Measure.pi fun _ : Fin n => sphereDraw d, ∀ i, 0 ≤ (w i).2 ∧ (w i).2 ≤ 1 := by
      refine ae_all_iff.2 fun i => ?_
      have h2 : ∀ᵐ p ∂sphereDraw d, 0 ≤ p.2 ∧ p.2 ≤ 1 := by
        have h3 : ∀ᵐ u ∂(volume.restrict (Set.Ioo (0 : ℝ) 1)), 0 ≤ u ∧ u ≤ 1 := by
          filter_upwards [ae_restrict_mem measurableSet_Ioo] with u hu using ⟨hu.1.le, hu.2.le⟩
        exact Measure.quasiMeasurePreserving_snd.ae h3
      exact (Measure.quasiMeasurePreserving_eval (fun _ : Fin n => sphereDraw d) i).ae h2
    filter_upwards [h1] with w hw
    exact sample_ok hd hn _ fun i => norm_spherePoint _ hr.le (hw i).1 (hw i).2
  · have hu := uniform_ball hd hr
    have : ∀ _ : Fin n, SigmaFinite ((sphereDraw d).map fun p => spherePoint r p.1 p.2) := fun _ => by
      have := Measure.isProbabilityMeasure_map (μ := sphereDraw d) hf.aemeasurable
      change SigmaFinite ((sphereDraw d).map fun p => (r * p.2 ^ (1 / (d : ℝ)) / ‖p.1‖) • p.1)
      infer_instance
    have := Measure.pi_map_pi (μ := fun _ : Fin n => sphereDraw d) (f := fun _ p => spherePoint r p.1 p.2) fun _ => hf.aemeasurable
    rw [this]
    congr 1
    funext _
    exact hu

/-- **C90.** The uniform distribution on the ball gives every part of it its share of the volume, and is a probability distribution. -/
theorem C90_share (hd : d ≠ 0) {r : ℝ} (hr : 0 < r) :
    IsProbabilityMeasure (uniformBall d r) ∧ ∀ S, MeasurableSet S → S ⊆ Metric.ball 0 r →
      uniformBall d r S = volume S / volume (Metric.ball (0 : Vec d) r) := by
  constructor
  · have h0 : volume (Metric.ball (0 : Vec d) r) ≠ 0 := (Metric.measure_ball_pos _ _ hr).ne'
    have h1 : volume (Metric.ball (0 : Vec d) r) ≠ ⊤ := measure_ball_lt_top.ne
    exact ⟨by simp [uniformBall, ENNReal.inv_mul_cancel h0 h1]⟩
  · intro S hS hsub
    rw [uniformBall, Measure.smul_apply, Measure.restrict_apply hS, Set.inter_eq_left.2 hsub, smul_eq_mul, ENNReal.div_eq_inv_mul]

-- Five points in two clusters: two and three.
example : clusterSize 5 2 0 = 2 ∧ clusterSize 5 2 1 = 3 := by decide

example : ∃ pts labels, generateSyntheticDataset (d := 3) 5 2 100 1 (fun _ => EuclideanSpace.single 0 1) (fun _ => 1 / 2)
    (fun _ => EuclideanSpace.single 1 1) = .ok (pts, labels) := by
  obtain ⟨l, _, _, h⟩ := C89_dataset (d := 3) (n := 5) (k := 2) (ratio := 100) (r := 1) (by norm_num) (by norm_num) (by norm_num) one_pos
    (by norm_num)
  obtain ⟨c, _, _, h⟩ := h (fun _ => EuclideanSpace.single 0 1) (fun _ => 1 / 2) (fun _ => EuclideanSpace.single 1 1) fun _ => by norm_num
  exact ⟨_, _, h⟩

end Verif.Props
