import Verif.Proofs.ClusteringResult

/-!
# Labels, loss and metrics of a clustering (C72, C73)
-/

namespace Verif.Props
open Verif Verif.Clustering Verif.Spec

variable {d : ℕ}

lemma squaredDistance_eq (c x : Point d) : squaredDistance c x = dist c x ^ 2 := by
  rw [EuclideanSpace.dist_eq, Real.sq_sqrt (Finset.sum_nonneg fun i _ => sq_nonneg _)]
  unfold squaredDistance
  refine Finset.sum_congr rfl fun i _ => ?_
  rw [Real.dist_eq, sq_abs]

lemma mkResult_none {pts centers : List (Point d)} (hc : centers ≠ []) : ∃ rs, List.Forall₂ (IsClosest centers) pts rs ∧
    mkResult pts centers none none = .ok (rs.map Prod.fst, (rs.map Prod.snd).sum) := by
  obtain ⟨rs, h1, h2⟩ := closestCenters_ok hc pts
  refine ⟨rs, h2, ?_⟩
  unfold mkResult fillLabels
  rw [h1]
  change (if pts.length ≠ (rs.map Prod.fst).length then _ else if ¬ _ then _ else _) = _
  rw [if_neg (by simp [h2.length_eq]), if_neg]
  rw [not_not]
  intro l hl
  obtain ⟨r, hr, rfl⟩ := List.mem_map.1 hl
  obtain ⟨i, hi, rfl⟩ := List.mem_iff_getElem.1 hr
  obtain ⟨k, hk, h3, -⟩ := h2.get (i := i) (by rw [h2.length_eq]; exact hi) hi
  change rs[i].1 = k at h3
  rw [h3]
  exact ⟨by omega, by exact_mod_cast hk⟩

/-- C72: if there is a center, a clustering result labels every point with a closest center (the first one of several). -/
theorem C72_labels (pts centers : List (Point d)) (hc : centers ≠ []) : ∃ labels loss, mkResult pts centers none none = .ok (labels, loss) ∧
    labels.length = pts.length ∧ ∀ i (hi : i < pts.length), ∃ (k : ℕ) (hk : k < centers.length), labels[i]? = some (k : ℤ) ∧
      (∀ j (hj : j < centers.length), dist centers[k] pts[i] ≤ dist centers[j] pts[i]) ∧
      ∀ j (hj : j < centers.length), j < k → dist centers[k] pts[i] < dist centers[j] pts[i] := by
  obtain ⟨rs, h1, h2⟩ := mkResult_none hc (pts := pts)
  refine ⟨_, _, h2, by simp [h1.length_eq], fun i hi => ?_⟩
  have hi' : i < rs.length := h1.length_eq ▸ hi
  obtain ⟨k, hk, h3, h4, h5, h6⟩ := h1.get (i := i) hi hi'
  refine ⟨k, hk, ?_, fun j hj => ?_, fun j hj hjk => ?_⟩
  · rw [List.getElem?_map, List.getElem?_eq_getElem hi']
    exact congrArg some h3
  · have := h5 j hj
    rw [h4, squaredDistance_eq, squaredDistance_eq] at this
    exact (pow_le_pow_iff_left₀ dist_nonneg dist_nonneg two_ne_zero).1 this
  · have := h6 j hj hjk
    rw [h4, squaredDistance_eq, squaredDistance_eq] at this
    exact lt_of_pow_lt_pow_left₀ 2 dist_nonneg this

/-- C72: the loss is the k-means objective: the smallest sum of squared distances over all assignments of the points to centers. -/
theorem C72_loss (pts centers : List (Point d)) (hc : centers ≠ []) : ∃ labels loss, mkResult pts centers none none = .ok (labels, loss) ∧
    IsLeast {s | ∃ f : Fin pts.length → Fin centers.length, s = ∑ i, dist centers[f i] pts[i] ^ 2} loss := by
  obtain ⟨rs, h1, h2⟩ := mkResult_none hc (pts := pts)
  refine ⟨_, _, h2, ?_⟩
  have hl := h1.length_eq
  have hsum : (rs.map Prod.snd).sum = ∑ i : Fin pts.length, (rs[i.val]'(hl ▸ i.isLt)).2 := by
    have e : rs.map Prod.snd = List.ofFn fun i : Fin pts.length => (rs[i.val]'(hl ▸ i.isLt)).2 := by
      apply List.ext_getElem
      · simp [hl]
      · intro i h3 h4
        simp
    rw [e, List.sum_ofFn]
  rw [hsum]
  have hg : ∀ i : Fin pts.length, IsClosest centers pts[i.val] (rs[i.val]'(hl ▸ i.isLt)) := fun i => h1.get i.isLt (hl ▸ i.isLt)
  constructor
  · choose k hk h3 h4 _ using hg
    refine ⟨fun i => ⟨k i, hk i⟩, Finset.sum_congr rfl fun i _ => ?_⟩
    rw [h4 i, squaredDistance_eq]
    rfl
  · rintro s ⟨f, rfl⟩
    refine Finset.sum_le_sum fun i _ => ?_
    obtain ⟨k, hk, h3, h4, h5, _⟩ := hg i
    refine (h5 _ (f i).isLt).trans_eq ?_
    rw [squaredDistance_eq]
    rfl

/-- C72: labels and loss given by the caller are kept, and accepted exactly if there is one label for every point and every label is the
number of a center. -/
theorem C72_given (pts centers : List (Point d)) (labels : List ℤ) (loss : ℝ) :
    ((labels.length = pts.length ∧ ∀ l ∈ labels, 0 ≤ l ∧ l < centers.length) →
      mkResult pts centers (some labels) (some loss) = .ok (labels, loss)) ∧
    (¬ (labels.length = pts.length ∧ ∀ l ∈ labels, 0 ≤ l ∧ l < centers.length) →
      mkResult pts centers (some labels) (some loss) = .error .valueError) := by
  unfold mkResult fillLabels
  change (_ → (if _ then _ else if _ then _ else _) = _) ∧ (_ → (if _ then _ else if _ then _ else _) = _)
  constructor
  · rintro ⟨h1, h2⟩
    rw [if_neg (by rw [h1]; simp), if_neg (not_not.2 h2)]
  · intro h
    by_cases h1 : labels.length = pts.length
    · rw [if_neg (by rw [h1]; simp), if_pos fun h2 => h ⟨h1, h2⟩]
    · rw [if_pos fun h2 => h1 h2.symm]

/-- C72: giving only one of labels and loss is an error, and so is clustering points without centers. -/
theorem C72_raises (pts centers : List (Point d)) (labels : List ℤ) (loss : ℝ) :
    mkResult pts centers (some labels) none = .error .valueError ∧ mkResult pts centers none (some loss) = .error .valueError ∧
    (pts ≠ [] → mkResult pts [] none none = .error .valueError) := by
  refine ⟨rfl, rfl, fun h => ?_⟩
  cases pts with
  | nil => exact absurd rfl h
  | cons x xs => rfl

/-- Two points and two centers. -/
example : ∃ labels loss, mkResult (d := 1) [WithLp.toLp 2 ![3], WithLp.toLp 2 ![0]] [WithLp.toLp 2 ![0], WithLp.toLp 2 ![2]] none none = .ok (labels, loss) ∧ labels.length = 2 := by
  obtain ⟨l, s, h1, h2, _⟩ := C72_labels (d := 1) [WithLp.toLp 2 ![3], WithLp.toLp 2 ![0]] [WithLp.toLp 2 ![0], WithLp.toLp 2 ![2]] (by simp)
  exact ⟨l, s, h1, h2⟩

/-- What the metrics of points with clusters `c` and true labels `t` should be. A fraction without any pair is NaN. -/
structure MetricsRight {n : ℕ} (c t : Fin n → ℤ) (m : Metrics) : Prop where
  numPoints : m.numPoints = n
  /-- The best labelling of the clusters predicts so many labels. -/
  dominant : IsGreatest {N | ∃ g : ℤ → ℤ, correctCount c t g = N} m.dominantLabelCorrectCount
  accuracy : m.dominantLabelAccuracy = .num ((m.dominantLabelCorrectCount / n : ℝ) : EReal)
  truePairs : m.truePairs = pairCount fun a b => t a = t b
  trueNonmatch : m.trueNonmatchCount = pairCount fun a b => t a = t b ∧ c a ≠ c b
  falsePairs : m.falsePairs = pairCount fun a b => t a ≠ t b
  falseMatch : m.falseMatchCount = pairCount fun a b => t a ≠ t b ∧ c a = c b
  trueNonmatchFrac : m.trueNonmatchFrac = if m.truePairs = 0 then .nan else .num ((m.trueNonmatchCount / m.truePairs : ℝ) : EReal)
  falseMatchFrac : m.falseMatchFrac = if m.falsePairs = 0 then .nan else .num ((m.falseMatchCount / m.falsePairs : ℝ) : EReal)

lemma npDiv_eq {a b : ℝ} (h : b = 0 → a = 0) : npDiv a b = if b = 0 then .nan else .num ((a / b : ℝ) : EReal) := by
  unfold npDiv
  by_cases hb : b = 0
  · rw [if_pos hb, if_pos (h hb), if_pos hb]
  · rw [if_neg hb, if_neg hb]

/-- C73: for one or more points with true labels that are not negative, the metrics count points and pairs of points as documented. -/
theorem C73_metrics {n : ℕ} (hn : 0 < n) (c t : Fin n → ℤ) (hc : ∀ a, 0 ≤ c a) (ht : ∀ a, 0 ≤ t a) :
    ∃ m, getClusteringMetrics (List.ofFn c) (some (List.ofFn t)) = .ok m ∧ MetricsRight c t m := by
  obtain ⟨K, L, hL, h1, h2, h3⟩ := histogram_ok hn (c := c) (t := t) ⟨⟨0, hn⟩, ht _⟩
  obtain ⟨c', rfl⟩ : ∃ c' : Fin n → ℕ, c = fun a => (c' a : ℤ) := ⟨fun a => (c a).toNat, funext fun a => (Int.toNat_of_nonneg (hc a)).symm⟩
  obtain ⟨t', rfl⟩ : ∃ t' : Fin n → ℕ, t = fun a => (t' a : ℤ) := ⟨fun a => (t a).toNat, funext fun a => (Int.toNat_of_nonneg (ht a)).symm⟩
  simp only [Nat.cast_inj] at h3
  have h1 : ∀ a, c' a < K := fun a => Nat.cast_lt (α := ℤ).1 (h1 a)
  have h2 : ∀ a, t' a < L := fun a => Nat.cast_lt (α := ℤ).1 (h2 a)
  unfold getClusteringMetrics
  rw [h3]
  change ∃ m, clusteringMetrics _ = _ ∧ _
  unfold clusteringMetrics
  rw [if_neg (by simp; omega)]
  -- the sums
  have s1 : ∑ i ∈ Finset.range K, ∑ j ∈ Finset.range L, (Finset.univ.filter fun a => c' a = i ∧ t' a = j).card = n := by
    simp only [cell_row _ h2]
    exact fibre_sum h1
  have s2 : ∀ j, ∑ i ∈ Finset.range K, ((Finset.univ.filter fun a => c' a = i ∧ t' a = j).card : ℝ) = (Finset.univ.filter fun a => t' a = j).card :=
    fun j => by exact_mod_cast cell_col j h1
  have s3 : ∀ i, ∑ j ∈ Finset.range L, ((Finset.univ.filter fun a => c' a = i ∧ t' a = j).card : ℝ) = (Finset.univ.filter fun a => c' a = i).card :=
    fun i => by exact_mod_cast cell_row i h2
  have s4 : ∑ i ∈ Finset.range K, ∑ j ∈ Finset.range L, ((Finset.univ.filter fun a => c' a = i ∧ t' a = j).card : ℝ) ^ 2 =
      n + 2 * (pairCount fun a b => c' a = c' b ∧ t' a = t' b : ℕ) := by exact_mod_cast cell_sq h1 h2
  have s5 : ∑ j ∈ Finset.range L, ((Finset.univ.filter fun a => t' a = j).card : ℝ) ^ 2 = n + 2 * (pairCount fun a b => t' a = t' b : ℕ) := by
    exact_mod_cast fibre_sq h2
  have s6 : ∑ i ∈ Finset.range K, ((Finset.univ.filter fun a => c' a = i).card : ℝ) ^ 2 = n + 2 * (pairCount fun a b => c' a = c' b : ℕ) := by
    exact_mod_cast fibre_sq h1
  have s7 : ∑ j ∈ Finset.range L, ((Finset.univ.filter fun a => t' a = j).card : ℝ) = n := by exact_mod_cast fibre_sum h2
  have s8 : ∑ j ∈ Finset.range L, ((Finset.univ.filter fun a => t' a = j).card : ℝ) * ((Finset.univ.filter fun a => t' a = j).card - 1) / 2 =
      (pairCount fun a b => t' a = t' b : ℕ) := by
    have : ∀ x : ℝ, x * (x - 1) / 2 = x ^ 2 / 2 - x / 2 := fun x => by ring
    simp only [this]
    rw [Finset.sum_sub_distrib, ← Finset.sum_div, ← Finset.sum_div, s5, s7]
    ring
  have p1 : (pairCount fun a b => t' a = t' b : ℕ) = ((pairCount fun a b => t' a = t' b ∧ c' a = c' b : ℕ) : ℝ) + (pairCount fun a b => t' a = t' b ∧ c' a ≠ c' b : ℕ) := by
    exact_mod_cast pairCount_split (fun a b => t' a = t' b) fun a b => c' a = c' b
  have p2 : (pairCount fun a b => c' a = c' b : ℕ) = ((pairCount fun a b => c' a = c' b ∧ t' a = t' b : ℕ) : ℝ) + (pairCount fun a b => c' a = c' b ∧ ¬ t' a = t' b : ℕ) := by
    exact_mod_cast pairCount_split (fun a b => c' a = c' b) fun a b => t' a = t' b
  have p3 : (pairCount fun _ _ : Fin n => True : ℕ) = ((pairCount fun a b => True ∧ t' a = t' b : ℕ) : ℝ) + (pairCount fun a b => True ∧ ¬ t' a = t' b : ℕ) := by
    exact_mod_cast pairCount_split (fun _ _ : Fin n => True) fun a b => t' a = t' b
  have p4 : (n : ℝ) * n = n + 2 * (pairCount fun _ _ : Fin n => True : ℕ) := by exact_mod_cast all_pairs (n := n)
  simp only [true_and] at p3
  have q1 : (pairCount fun a b => t' a = t' b ∧ c' a = c' b) = pairCount fun a b => c' a = c' b ∧ t' a = t' b := by simp only [and_comm]
  have q2 : (pairCount fun a b => t' a ≠ t' b ∧ c' a = c' b) = pairCount fun a b => c' a = c' b ∧ ¬ t' a = t' b := by simp only [and_comm, ne_eq]
  rw [q1] at p1
  have v1 : ((n : ℝ) + 2 * (pairCount fun a b => t' a = t' b : ℕ) - (n + 2 * (pairCount fun a b => c' a = c' b ∧ t' a = t' b : ℕ))) / 2 =
      (pairCount fun a b => t' a = t' b ∧ c' a ≠ c' b : ℕ) := by rw [p1]; ring
  have v2 : (n : ℝ) * (n - 1) / 2 - (pairCount fun a b => t' a = t' b : ℕ) = (pairCount fun a b => t' a ≠ t' b : ℕ) := by
    have : (n : ℝ) * (n - 1) / 2 = (pairCount fun _ _ : Fin n => True : ℕ) := by linarith
    rw [this, p3]
    simp
  have v3 : ((n : ℝ) + 2 * (pairCount fun a b => c' a = c' b : ℕ) - (n + 2 * (pairCount fun a b => c' a = c' b ∧ t' a = t' b : ℕ))) / 2 =
      (pairCount fun a b => t' a ≠ t' b ∧ c' a = c' b : ℕ) := by rw [p2, q2]; ring
  simp only [s1, s2, s3, s4, s5, s6, s8, v1, v2, v3]
  refine ⟨_, rfl, rfl, ?_, ?_, ?_, ?_, ?_, ?_, ?_, ?_⟩
  · obtain ⟨⟨g, hg⟩, hm⟩ := dominant_greatest hL h1 h2
    refine ⟨⟨fun z => (g z.toNat : ℤ), ?_⟩, ?_⟩
    · rw [← hg]
      unfold correctCount
      simp
    · rintro N ⟨g, rfl⟩
      refine le_trans ?_ (hm ⟨fun i => (g i).toNat, rfl⟩)
      unfold correctCount
      refine Finset.card_le_card fun a ha => ?_
      simp only [Finset.mem_filter, Finset.mem_univ, true_and] at ha ⊢
      rw [ha]
      simp
  · have : (n : ℝ) ≠ 0 := by exact_mod_cast hn.ne'
    simp only []
    rw [npDiv, if_neg this]
  · simp
  · simp
  · simp
  · simp
  · refine npDiv_eq fun h => ?_
    have h : (pairCount fun a b => t' a = t' b) = 0 := by exact_mod_cast h
    have := pairCount_mono (r := fun a b => t' a = t' b ∧ c' a ≠ c' b) (q := fun a b => t' a = t' b) fun _ _ h => h.1
    exact_mod_cast Nat.le_zero.1 (this.trans_eq h)
  · refine npDiv_eq fun h => ?_
    have h : (pairCount fun a b => t' a ≠ t' b) = 0 := by exact_mod_cast h
    have := pairCount_mono (r := fun a b => t' a ≠ t' b ∧ c' a = c' b) (q := fun a b => t' a ≠ t' b) fun _ _ h => h.1
    exact_mod_cast Nat.le_zero.1 (this.trans_eq h)

/-- C73: with a pair of equal and a pair of different labels, both fractions and the accuracy are numbers between zero and one. -/
theorem C73_fractions {n : ℕ} (c t : Fin n → ℤ) {m : Metrics} (hm : MetricsRight c t m) {a b a' b' : Fin n} (hab : a < b) (h : t a = t b)
    (hab' : a' < b') (h' : t a' ≠ t b') :
    (∃ x ∈ Set.Icc (0 : ℝ) 1, m.trueNonmatchFrac = .num x) ∧ (∃ x ∈ Set.Icc (0 : ℝ) 1, m.falseMatchFrac = .num x) ∧
      ∃ x ∈ Set.Icc (0 : ℝ) 1, m.dominantLabelAccuracy = .num x := by
  classical
  have pos : ∀ {r : Fin n → Fin n → Prop} {a b : Fin n}, a < b → r a b → 0 < pairCount r := fun {r a b} hab h =>
    Finset.card_pos.2 ⟨(a, b), by simpa using ⟨hab, h⟩⟩
  have k1 : (0 : ℝ) < (pairCount fun a b => t a = t b : ℕ) := by exact_mod_cast pos hab h
  have k2 : (0 : ℝ) < (pairCount fun a b => t a ≠ t b : ℕ) := by exact_mod_cast pos hab' h'
  have l1 : ((pairCount fun a b => t a = t b ∧ c a ≠ c b : ℕ) : ℝ) ≤ (pairCount fun a b => t a = t b : ℕ) := by
    exact_mod_cast pairCount_mono (r := fun a b => t a = t b ∧ c a ≠ c b) (q := fun a b => t a = t b) fun _ _ h => h.1
  have l2 : ((pairCount fun a b => t a ≠ t b ∧ c a = c b : ℕ) : ℝ) ≤ (pairCount fun a b => t a ≠ t b : ℕ) := by
    exact_mod_cast pairCount_mono (r := fun a b => t a ≠ t b ∧ c a = c b) (q := fun a b => t a ≠ t b) fun _ _ h => h.1
  refine ⟨⟨_, ?_, hm.trueNonmatchFrac.trans (if_neg (by rw [hm.truePairs]; exact k1.ne'))⟩,
    ⟨_, ?_, hm.falseMatchFrac.trans (if_neg (by rw [hm.falsePairs]; exact k2.ne'))⟩, ⟨_, ?_, hm.accuracy⟩⟩
  · rw [hm.truePairs, hm.trueNonmatch]
    exact ⟨by positivity, div_le_one_of_le₀ l1 k1.le⟩
  · rw [hm.falsePairs, hm.falseMatch]
    exact ⟨by positivity, div_le_one_of_le₀ l2 k2.le⟩
  · obtain ⟨⟨g, hg⟩, -⟩ := hm.dominant
    refine ⟨by positivity, div_le_one_of_le₀ ?_ (by positivity)⟩
    rw [← hg]
    unfold correctCount
    have := Finset.card_le_univ (Finset.univ.filter fun a => g (c a) = t a)
    rw [Fintype.card_fin] at this
    exact_mod_cast this

/-- The example of the documentation: the metrics exist. -/
example : ∃ m, getClusteringMetrics (List.ofFn ![0, 0, 1, 1, 2, 2]) (some (List.ofFn ![0, 0, 0, 1, 1, 1])) = .ok m ∧
    MetricsRight ![0, 0, 1, 1, 2, 2] ![0, 0, 0, 1, 1, 1] m :=
  C73_metrics (by norm_num) _ _ (by decide) (by decide)

/-- C73: data without labels or without points have no metrics. -/
theorem C73_raises (labels : List ℤ) (t : List ℤ) : getClusteringMetrics labels none = .error .valueError ∧
    getClusteringMetrics [] (some t) = .error .valueError := ⟨rfl, rfl⟩

/-- C73 fails for negative true labels, which are silently left out: of two points with labels 0 and -1 in one cluster only one is counted,
and the accuracy is reported to be one although no labelling of the cluster predicts both. -/
theorem C73_negative_violated : ∃ m, getClusteringMetrics [0, 0] (some [0, -1]) = .ok m ∧ m.numPoints = 1 ∧ m.dominantLabelAccuracy = .num 1 ∧
    ∀ g, correctCount ![0, 0] ![0, -1] g ≤ 1 := by
  have hcell : ∀ i j : ℕ, (([0, 0] : List ℤ).zip [0, -1]).countP (fun p => p.1 = (i : ℤ) ∧ p.2 = (j : ℤ)) = if i = 0 ∧ j = 0 then 1 else 0 := by
    intro i j
    have h : ¬ (-1 : ℤ) = j := by omega
    by_cases hi : i = 0 <;> by_cases hj : j = 0 <;> simp [hi, hj, h, eq_comm]
  unfold getClusteringMetrics
  change ∃ m, clusteringMetrics ⟨1, 1, fun i j => (([0, 0] : List ℤ).zip [0, -1]).countP (fun p => p.1 = (i : ℤ) ∧ p.2 = (j : ℤ))⟩ = _ ∧ _
  unfold clusteringMetrics
  simp only [hcell]
  refine ⟨_, by rw [if_neg (by simp)], by simp [Finset.range_one, Finset.filter_singleton], by simp [npDiv, Finset.range_one, Finset.filter_singleton], fun g => ?_⟩
  unfold correctCount
  rw [Finset.card_filter, Fin.sum_univ_two]
  simp only [Matrix.cons_val_zero, Matrix.cons_val_one]
  by_cases h1 : g 0 = 0 <;> by_cases h2 : g 0 = -1 <;> simp [h1, h2]

end Verif.Props
