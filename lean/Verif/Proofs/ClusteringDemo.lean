import Verif.Model.ClusteringDemo
import Verif.Spec.ClusteringDemo
import Verif.Proofs.UniformBall

/-!
# Helper lemmas about the data generator of the clustering demo
-/

namespace Verif.Clustering
open Verif.Spec

variable {d : ℕ}

lemma norm_spherePoint {r u : ℝ} (z : Point d) (hr : 0 ≤ r) (h0 : 0 ≤ u) (h1 : u ≤ 1) : ‖spherePoint r z u‖ ≤ r := by
  unfold spherePoint
  rw [norm_smul, norm_div, norm_norm, norm_mul, Real.norm_of_nonneg hr, Real.norm_of_nonneg (Real.rpow_nonneg h0 _)]
  have h2 : u ^ (1 / (d : ℝ)) ≤ 1 := Real.rpow_le_one h0 h1 (by positivity)
  by_cases hz : ‖z‖ = 0
  · simp [hz, hr]
  · rw [div_mul_cancel₀ _ hz]
    exact mul_le_of_le_one_right hr h2

lemma norm_spherePoint_eq {r u : ℝ} {z : Point d} (hz : z ≠ 0) (h0 : 0 ≤ u) : ‖spherePoint r z u‖ = |r| * u ^ (1 / (d : ℝ)) := by
  unfold spherePoint
  rw [norm_smul, norm_div, norm_norm, norm_mul, Real.norm_eq_abs, Real.norm_of_nonneg (Real.rpow_nonneg h0 _),
    div_mul_cancel₀ _ (by simpa using hz)]

lemma sample_ok (hd : d ≠ 0) {n : ℕ} (hn : n ≠ 0) {r : ℝ} (z : Fin n → Point d) {u : Fin n → ℝ}
    (h : ∀ i, ‖spherePoint r (z i) (u i)‖ ≤ r) :
    sampleUniformSphere n r z u = .ok (List.ofFn fun i => spherePoint r (z i) (u i)) := by
  unfold sampleUniformSphere
  rw [if_neg hd]
  dsimp only
  rw [if_neg (by simpa using hn), if_neg]
  rintro ⟨x, hx, hlt⟩
  obtain ⟨i, rfl⟩ := List.mem_ofFn.1 hx
  exact absurd (h i) (not_le.2 hlt)

lemma sample_assert (hd : d ≠ 0) {n : ℕ} {r : ℝ} {z : Fin n → Point d} {u : Fin n → ℝ} (i : Fin n)
    (h : r < ‖spherePoint r (z i) (u i)‖) : sampleUniformSphere n r z u = .error .assertionError := by
  unfold sampleUniformSphere
  rw [if_neg hd]
  dsimp only
  rw [if_neg (by have := i.pos; simp; omega), if_pos ⟨_, List.mem_ofFn.2 ⟨i, rfl⟩, h⟩]

lemma clip_toBall {r : ℝ} (hr : 0 < r) (x : Point d) : clipScale r x • x = toBall r x := by
  unfold clipScale toBall
  split_ifs with h
  · rw [max_eq_right h, div_self hr.ne', one_smul]
  · rw [max_eq_left (not_le.1 h).le]

/-- The clusters of the points. -/
def labelList (n k : ℕ) : List (Fin k) := (List.finRange k).flatMap fun c => List.replicate (clusterSize n k c) c

lemma size_eq (n k : ℕ) (c : Fin k) :
    n / k + (if c.1 + 1 = k then n % k else 0) = clusterSize n k c := by
  unfold clusterSize
  have h : n % k = n - k * (n / k) := by have := Nat.mod_add_div n k; omega
  have h2 : c.1 + 1 = k ↔ c.1 = k - 1 := by have := c.2; omega
  simp only [h, h2]

lemma sizes_eq (n k : ℕ) : clusterSizes n k = List.ofFn (clusterSize n k) := by
  refine List.ext_getElem (by simp [clusterSizes]) fun i h1 h2 => ?_
  simp only [clusterSizes, List.length_map, List.length_range] at h1
  simp only [clusterSizes, List.getElem_map, List.getElem_range, List.getElem_ofFn]
  exact size_eq n k ⟨i, h1⟩

lemma sum_sizes (n : ℕ) {k : ℕ} (hk : k ≠ 0) : ∑ c, clusterSize n k c = n := by
  have h : n = k * (n / k) + (n - k * (n / k)) := by have := Nat.mod_add_div n k; omega
  have h2 : ∀ c : Fin k, c.1 = k - 1 ↔ c = ⟨k - 1, by omega⟩ := fun c => by rw [Fin.ext_iff]
  simp only [clusterSize, h2]
  rw [Finset.sum_add_distrib, Finset.sum_ite_eq' Finset.univ, if_pos (Finset.mem_univ _)]
  simpa using h.symm

lemma length_labels (n : ℕ) {k : ℕ} (hk : k ≠ 0) : (labelList n k).length = n := by
  unfold labelList
  rw [List.length_flatMap]
  simp only [List.length_replicate]
  rw [← List.ofFn_eq_map, List.sum_ofFn, sum_sizes n hk]

lemma count_labels (n k : ℕ) (c : Fin k) : (labelList n k).count c = clusterSize n k c := by
  unfold labelList
  rw [List.count_flatMap]
  have : (List.count c ∘ fun c' : Fin k => List.replicate (clusterSize n k c') c') = fun c' => if c' = c then clusterSize n k c' else 0 := by
    funext c'
    simp only [Function.comp, List.count_replicate, beq_iff_eq]
  rw [this, ← List.ofFn_eq_map, List.sum_ofFn, Finset.sum_ite_eq' Finset.univ, if_pos (Finset.mem_univ _)]

lemma sorted_labels (n k : ℕ) : (labelList n k).Pairwise (· ≤ ·) := by
  unfold labelList
  rw [List.pairwise_flatMap]
  refine ⟨fun c _ => List.pairwise_replicate.2 (Or.inr le_rfl), ?_⟩
  refine (List.pairwise_lt_finRange k).imp fun {a b} hab x hx y hy => ?_
  rw [(List.mem_replicate.1 hx).2, (List.mem_replicate.1 hy).2]
  exact hab.le

lemma labels_eq (n k : ℕ) :
    ((clusterSizes n k).zipIdx.map fun p => List.replicate p.1 (p.2 : ℤ)).flatten = (labelList n k).map fun c => (c.1 : ℤ) := by
  unfold labelList
  rw [List.map_flatMap, List.flatMap_def]
  congr 1
  rw [sizes_eq]
  refine List.ext_getElem (by simp) fun i h1 h2 => ?_
  simp

lemma shift_eq (n k : ℕ) (c : Fin k → Point d) :
    (List.zipWith List.replicate (clusterSizes n k) (List.ofFn c)).flatten = (labelList n k).map c := by
  unfold labelList
  rw [List.map_flatMap, List.flatMap_def]
  congr 1
  rw [sizes_eq]
  refine List.ext_getElem (by simp) fun i h1 h2 => ?_
  simp

/-- The cluster of point `i`. -/
def labelOf (n : ℕ) {k : ℕ} (hk : k ≠ 0) (i : Fin n) : Fin k := (labelList n k)[i.1]'(by rw [length_labels n hk]; exact i.2)

lemma labelList_eq (n : ℕ) {k : ℕ} (hk : k ≠ 0) : labelList n k = List.ofFn (labelOf n hk) := by
  refine List.ext_getElem (by simp [length_labels n hk]) fun i h1 h2 => ?_
  simp [labelOf]

lemma labelOf_mono (n : ℕ) {k : ℕ} (hk : k ≠ 0) : Monotone (labelOf n hk) := by
  intro i j hij
  rcases hij.eq_or_lt with rfl | h
  · exact le_rfl
  · have := sorted_labels n k
    rw [labelList_eq n hk, List.pairwise_ofFn] at this
    exact this h

lemma card_labelOf (n : ℕ) {k : ℕ} (hk : k ≠ 0) (c : Fin k) :
    (Finset.univ.filter fun i => labelOf n hk i = c).card = clusterSize n k c := by
  rw [← count_labels, labelList_eq n hk, List.ofFn_eq_map, List.count, List.countP_map, List.countP_eq_length_filter,
    ← List.toFinset_card_of_nodup ((List.nodup_finRange n).filter _)]
  congr 1
  ext i
  simp

lemma generate_ok (hd : d ≠ 0) {n k : ℕ} (hn : n ≠ 0) (hk : k ≠ 0) {ratio r : ℝ} (hr : 0 < r) (hc : 0 < ratio)
    {zc : Fin k → Point d} {uc : Fin k → ℝ} (z : Fin n → Point d) {centers : Fin k → Point d}
    (h : sampleUniformSphere k (r * (1 - 1 / ratio)) zc uc = .ok (List.ofFn centers)) :
    generateSyntheticDataset n k ratio r zc uc z =
      .ok (List.ofFn fun i => toBall r (centers (labelOf n hk i) + spread d ratio r • z i), List.ofFn fun i => ((labelOf n hk i).1 : ℤ)) := by
  have hs : ¬ spread d ratio r < 0 := by unfold spread; exact not_lt.2 (by positivity)
  have hz : List.zipWith (· + ·) (List.ofFn fun i => spread d ratio r • z i) (List.ofFn fun i => centers (labelOf n hk i)) =
      List.ofFn fun i => spread d ratio r • z i + centers (labelOf n hk i) := by
    refine List.ext_getElem (by simp) fun i h1 h2 => ?_
    simp
  unfold generateSyntheticDataset
  rw [if_neg hc.ne', h]
  simp only [bind, Except.bind, if_neg hs, pure, Except.pure]
  simp only [labels_eq, shift_eq, labelList_eq n hk, List.map_ofFn, Function.comp_def, hz]
  simp only [checkLabels, clipByRadius, liftErr, List.length_ofFn, ne_eq, not_true_eq_false,
    if_false, List.isEmpty_iff, List.ofFn_eq_nil_iff, hn, List.length_map]
  simp only [List.map_ofFn, Function.comp_def, clip_toBall hr, add_comm]

end Verif.Clustering
