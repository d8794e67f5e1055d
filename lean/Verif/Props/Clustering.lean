import Verif.Proofs.ClusteringTree
import Mathlib.Data.Set.Card
import Mathlib.LinearAlgebra.Ray

/-!
# C45, C46: clipping and the LSH tree of the clustering algorithm

`hashOf`, `InPrefix` and `TreeOk` are in `Verif/Spec/Clustering.lean`. Everything holds for all data sets, all projection vectors and
all outcomes of the noise (`Env`: parameters and draws of one run).
-/

namespace Verif.Props
open Verif Verif.Clustering Verif.Spec
open scoped RealInnerProductSpace

variable {d : ℕ}

/-- **C45.** On a non-empty data set `clip_by_radius` returns one point per record: of norm at most the radius, the record itself if it
is within the radius, and otherwise the point of norm exactly the radius in the same direction. -/
theorem C45_clip {r : ℝ} (hr : 0 < r) (pts : List (Point d)) (hne : pts ≠ []) :
    ∃ out, clipByRadius r pts = .ok out ∧
      List.Forall₂ (fun x y => ‖y‖ ≤ r ∧ (‖x‖ ≤ r → y = x) ∧ (r < ‖x‖ → ‖y‖ = r ∧ SameRay ℝ x y)) pts out := by
  refine ⟨pts.map fun x => clipScale r x • x, by unfold clipByRadius; rw [if_neg (by simpa using hne)], ?_⟩
  rw [List.forall₂_map_right_iff, List.forall₂_same]
  intro x _
  have hin : ‖x‖ ≤ r → clipScale r x • x = x := by
    intro h
    unfold clipScale
    rw [max_eq_right h, div_self hr.ne', one_smul]
  have hout : r < ‖x‖ → ‖clipScale r x • x‖ = r ∧ SameRay ℝ x (clipScale r x • x) := by
    intro h
    have hx : 0 < ‖x‖ := hr.trans h
    unfold clipScale
    rw [max_eq_left h.le]
    refine ⟨?_, SameRay.nonneg_smul_right (SameRay.refl x) (by positivity)⟩
    rw [norm_smul, Real.norm_eq_abs, abs_of_pos (by positivity), div_mul_cancel₀ _ hx.ne']
  refine ⟨?_, hin, hout⟩
  rcases le_or_gt ‖x‖ r with h | h
  · rw [hin h]; exact h
  · exact (hout h).1.le

/-- **C45, finding.** On an empty data set `clip_by_radius` raises (`np.min` of an empty array). -/
theorem C45_clip_empty_raises (r : ℝ) : clipByRadius r ([] : List (Point d)) = .error .valueError := rfl

/-- A point of norm 5 is scaled down to norm 2, a point of norm 1 is kept. -/
example : ∃ out, clipByRadius 2 [EuclideanSpace.single (0 : Fin 1) (5 : ℝ), EuclideanSpace.single 0 1] = .ok out ∧ out.length = 2 := by
  obtain ⟨out, h1, h2⟩ := C45_clip (d := 1) two_pos [EuclideanSpace.single (0 : Fin 1) (5 : ℝ), EuclideanSpace.single 0 1] (by simp)
  exact ⟨out, h1, h2.length_eq.symm⟩

/-- **C46 (grouping).** `group_by_next_hash` raises `ValueError` exactly if the prefix is not strictly shorter than the maximal hash length;
otherwise every point is in exactly one of the two groups, by the sign of its projection on the vector of that position. -/
theorem C46_group (maxHashLen : ℤ) (v : ℕ → Point d) (pts : List (Point d)) (pre : List Bool) :
    (maxHashLen ≤ pre.length → groupByNextHash maxHashLen v pts pre = .error .valueError) ∧
    ((pre.length : ℤ) < maxHashLen → ∃ A B, groupByNextHash maxHashLen v pts pre = .ok [(false, A), (true, B)] ∧ (A ++ B).Perm pts ∧
      (∀ x ∈ A, 0 ≤ ⟪x, v pre.length⟫) ∧ ∀ x ∈ B, ⟪x, v pre.length⟫ < 0) := by
  classical
  unfold groupByNextHash
  refine ⟨fun h => if_pos h, fun h => ⟨_, _, if_neg (not_le.2 h), ?_, ?_, ?_⟩⟩
  · have := List.filter_append_perm (fun x : Point d => decide (⟪x, v pre.length⟫ ≥ 0)) pts
    refine List.Perm.trans (List.Perm.of_eq ?_) this
    congr 1
    refine List.filter_congr fun x _ => ?_
    rw [← decide_not]
    exact decide_eq_decide.2 not_le.symm
  · intro x hx
    simpa using (List.mem_filter.1 hx).2
  · intro x hx
    simpa using (List.mem_filter.1 hx).2

/-- **C46 (averages).** `get_private_average` raises `ValueError` exactly for a private count that is not positive; otherwise count times
average is the sum of the points plus the noise. -/
theorem C46_average (pts : List (Point d)) (privateCount : ℤ) (stdDev : ℝ) (noise : Point d) :
    (privateCount ≤ 0 → getPrivateAverage pts privateCount stdDev noise = .error .valueError) ∧
    (0 < privateCount → ∃ a, getPrivateAverage pts privateCount stdDev noise = .ok a ∧ (privateCount : ℝ) • a = pts.sum + stdDev • noise) := by
  unfold getPrivateAverage
  refine ⟨fun h => if_pos (by omega), fun h => ⟨_, if_neg (by omega), ?_⟩⟩
  rw [smul_smul, mul_inv_cancel₀ (by exact_mod_cast h.ne'), one_smul]

example : ∃ A B, groupByNextHash 2 (fun _ => EuclideanSpace.single 0 1) [EuclideanSpace.single (0 : Fin 1) (5 : ℝ), EuclideanSpace.single 0 (-1)]
    [true] = .ok [(false, A), (true, B)] ∧ (A ++ B).length = 2 := by
  obtain ⟨A, B, h1, h2, -⟩ := (C46_group 2 (fun _ => EuclideanSpace.single 0 1)
    [EuclideanSpace.single (0 : Fin 1) (5 : ℝ), EuclideanSpace.single 0 (-1)] [true]).2 (by norm_num)
  exact ⟨A, B, h1, h2.length_eq⟩

/-- **C46, the tree is built.** For every non-negative depth and every root count of at least one, the construction does not raise:
`group_by_next_hash` never runs out of bits. -/
theorem C46_tree_built (E : Env d) (hD : 0 ≤ E.tree.maxDepth) (pts : List (Point d)) {r : ℤ} (hr : 1 ≤ r) :
    ∃ tree, lshTree E ⟨[], pts, r⟩ = .ok tree := by
  obtain ⟨T, h, _⟩ := lshTree_spec E pts hr hD
  exact ⟨T, h⟩

/-- What `lshTree_spec` says about a given tree. -/
lemma tree_facts {E : Env d} {pts : List (Point d)} {r : ℤ} {tree : List (List (Node d))} (h : lshTree E ⟨[], pts, r⟩ = .ok tree)
    (hD : 0 ≤ E.tree.maxDepth) : 1 ≤ r ∧ (∀ (j : ℕ) (M : List (Node d)), tree[j]? = some M → ∀ n ∈ M, GoodNode E pts n ∧ n.pre.length = j) ∧
      tree.map (List.map key) = skeleton E.tree (noisy E pts) r := by
  have hr : 1 ≤ r := by
    by_contra hc
    unfold lshTree at h
    rw [if_pos (by show r < 1; omega)] at h
    cases h
  obtain ⟨T, h1, h2, h3⟩ := lshTree_spec E pts hr hD
  rw [h] at h1
  cases h1
  exact ⟨hr, h2, h3⟩

/-- **C46, depth.** There are at most `max_depth + 1` levels; the nodes of level `j` have prefixes of length `j`. -/
theorem C46_depth {E : Env d} {pts : List (Point d)} {r : ℤ} {tree : List (List (Node d))} (h : lshTree E ⟨[], pts, r⟩ = .ok tree)
    (hD : 0 ≤ E.tree.maxDepth) :
    (tree.length : ℤ) ≤ E.tree.maxDepth + 1 ∧ ∀ (j : ℕ) (level : List (Node d)), tree[j]? = some level → ∀ n ∈ level, n.pre.length = j := by
  obtain ⟨_, h2, h3⟩ := tree_facts h hD
  refine ⟨?_, fun j M hj n hn => (h2 j M hj n hn).2⟩
  have := (skeleton_ok E.tree (noisy E pts) r).2.2.1
  rw [← h3, List.length_map] at this
  omega

open Classical in
/-- **C46, contents.** Every node holds exactly the records (with multiplicity) that hash to its prefix, and its private count is the
number of these records with the noise of the prefix (the root: the count passed in). -/
theorem C46_contents {E : Env d} {pts : List (Point d)} {r : ℤ} {tree : List (List (Node d))} (h : lshTree E ⟨[], pts, r⟩ = .ok tree)
    (hD : 0 ≤ E.tree.maxDepth) (level : List (Node d)) (hl : level ∈ tree) (n : Node d) (hn : n ∈ level) :
    n.points = pts.filter (fun x => decide (InPrefix E.proj n.pre x)) ∧
      (n.pre = [] → n.privateCount = r) ∧
      (n.pre ≠ [] → n.privateCount = getPrivateCount n.points.length E.pcalc.laplaceParam (E.countNoise n.pre)) := by
  obtain ⟨_, h2, h3⟩ := tree_facts h hD
  obtain ⟨j, hj⟩ := List.mem_iff_getElem?.1 hl
  obtain ⟨hg, hlen⟩ := h2 j level hj n hn
  refine ⟨hg.points, fun h0 => ?_, hg.count⟩
  rw [h0] at hlen
  have hj0 : j = 0 := by simpa using hlen.symm
  subst hj0
  have h0' := (skeleton_ok E.tree (noisy E pts) r).2.1
  rw [← h3, List.getElem?_map, hj] at h0'
  have : key n ∈ [(([] : List Bool), r)] := by
    have e : level.map key = [([], r)] := by simpa using h0'
    rw [← e]; exact List.mem_map_of_mem hn
  have := List.mem_singleton.1 this
  exact congrArg Prod.snd this

/-- **C46, prefixes.** No prefix occurs twice in the tree: at most one count and one average is drawn per prefix. -/
theorem C46_prefixes_once {E : Env d} {pts : List (Point d)} {r : ℤ} {tree : List (List (Node d))} (h : lshTree E ⟨[], pts, r⟩ = .ok tree)
    (hD : 0 ≤ E.tree.maxDepth) : (tree.flatten.map Node.pre).Nodup := by
  obtain ⟨_, _, h3⟩ := tree_facts h hD
  have := (skeleton_ok E.tree (noisy E pts) r).1.all_nodup
  rw [← h3, ← List.map_flatten, List.map_map] at this
  exact this

/-- At most one element of a list with distinct prefixes satisfies a property that determines the prefix. -/
lemma filter_le_one {α β : Type*} (f : α → β) (q : α → Bool) {l : List α} (h : (l.map f).Nodup)
    (hq : ∀ a ∈ l, ∀ b ∈ l, q a = true → q b = true → f a = f b) : (l.filter q).length ≤ 1 := by
  have hnd : ((l.filter q).map f).Nodup := h.sublist (List.filter_sublist.map f)
  match hf : l.filter q with
  | [] => simp
  | [a] => simp
  | a :: b :: t =>
    exfalso
    rw [hf] at hnd
    have ha : a ∈ l.filter q := by rw [hf]; simp
    have hb : b ∈ l.filter q := by rw [hf]; simp
    rw [List.mem_filter] at ha hb
    have := hq a ha.1 b hb.1 ha.2 hb.2
    simp [this] at hnd

open Classical in
lemma mem_points {E : Env d} {pts : List (Point d)} {r : ℤ} {tree : List (List (Node d))} (h : lshTree E ⟨[], pts, r⟩ = .ok tree)
    (hD : 0 ≤ E.tree.maxDepth) {level : List (Node d)} (hl : level ∈ tree) {n : Node d} (hn : n ∈ level) {x : Point d} (hx : x ∈ n.points) :
    InPrefix E.proj n.pre x := by
  rw [(C46_contents h hD level hl n hn).1, List.mem_filter] at hx
  simpa using hx.2

open Classical in
/-- **C46, one node per level.** A record is in at most one node of every level. -/
theorem C46_one_node_per_level {E : Env d} {pts : List (Point d)} {r : ℤ} {tree : List (List (Node d))}
    (h : lshTree E ⟨[], pts, r⟩ = .ok tree) (hD : 0 ≤ E.tree.maxDepth) (level : List (Node d)) (hl : level ∈ tree) (x : Point d) :
    (level.filter fun n => decide (x ∈ n.points)).length ≤ 1 := by
  obtain ⟨j, hj⟩ := List.mem_iff_getElem?.1 hl
  refine filter_le_one Node.pre _ ?_ ?_
  · refine (C46_prefixes_once h hD).sublist (List.Sublist.map _ ?_)
    exact List.sublist_flatten_of_mem hl
  · intro a ha b hb hxa hxb
    have hxa : x ∈ a.points := by simpa using hxa
    have hxb : x ∈ b.points := by simpa using hxb
    exact inPrefix_unique (mem_points h hD hl ha hxa) (mem_points h hD hl hb hxb) (by
      rw [(C46_depth h hD).2 j level hj a ha, (C46_depth h hD).2 j level hj b hb])

open Classical in
/-- **C46, counts.** A record is in at most `max_depth + 1` nodes of the tree. -/
theorem C46_counted_nodes {E : Env d} {pts : List (Point d)} {r : ℤ} {tree : List (List (Node d))} (h : lshTree E ⟨[], pts, r⟩ = .ok tree)
    (hD : 0 ≤ E.tree.maxDepth) (x : Point d) : ((tree.flatten.filter fun n => decide (x ∈ n.points)).length : ℤ) ≤ E.tree.maxDepth + 1 := by
  refine le_trans ?_ (C46_depth h hD).1
  have key : ∀ T : List (List (Node d)), (∀ M ∈ T, (M.filter fun n => decide (x ∈ n.points)).length ≤ 1) →
      (T.flatten.filter fun n => decide (x ∈ n.points)).length ≤ T.length := by
    intro T hT
    induction T with
    | nil => simp
    | cons M T ih =>
      rw [List.flatten_cons, List.filter_append, List.length_append, List.length_cons]
      have h1 := hT M List.mem_cons_self
      have h2 := ih fun N hN => hT N (List.mem_cons_of_mem _ hN)
      omega
  exact_mod_cast key tree fun M hM => C46_one_node_per_level h hD M hM x

/-- **C46, draws.** The prefixes for which a count is ever drawn have at most `max_depth` bits: the coreset does not depend on the
noise of other prefixes. Exactly `max_depth + 1` of these prefixes are prefixes of the hash of a given record. -/
theorem C46_count_draws (E : Env d) (pts : List (Point d)) (c : Option ℤ) (ht : TreeOk E.tree) (hD : 0 ≤ E.tree.maxDepth)
    (noise : List Bool → ℤ) (hnoise : ∀ p, (p.length : ℤ) ≤ E.tree.maxDepth → noise p = E.countNoise p) (x : Point d) :
    getPrivateCoreset { E with countNoise := noise } pts c = getPrivateCoreset E pts c ∧
      ({p : List Bool | (p.length : ℤ) ≤ E.tree.maxDepth ∧ InPrefix E.proj p x}.ncard : ℤ) = E.tree.maxDepth + 1 := by
  constructor
  · have hn : ∀ p : List Bool, p.length ≤ E.tree.maxDepth.toNat → noisy { E with countNoise := noise } pts p = noisy E pts p := by
      intro p hp
      unfold noisy
      simp only
      rw [hnoise p (by omega)]
    have hr : rootCount { E with countNoise := noise } pts c = rootCount E pts c := by
      unfold rootCount
      rw [hn [] (by simp)]
    refine (coreset_spec { E with countNoise := noise } pts c ht hD).trans (Eq.trans ?_ (coreset_spec E pts c ht hD).symm)
    rw [hr]
    have : skeleton E.tree (noisy { E with countNoise := noise } pts) (rootCount E pts c) = skeleton E.tree (noisy E pts) (rootCount E pts c) :=
      skelLevels_congr E.tree _ _ E.tree.maxDepth.toNat hn _ 0 _ (by omega) (by simp)
    simp only [this]
  · have : {p : List Bool | (p.length : ℤ) ≤ E.tree.maxDepth ∧ InPrefix E.proj p x} =
        (fun n => hashOf E.proj x n) '' (Finset.range (E.tree.maxDepth.toNat + 1) : Set ℕ) := by
      ext p
      simp only [Set.mem_setOf_eq, Set.mem_image, Finset.coe_range, Set.mem_Iio]
      constructor
      · rintro ⟨h1, h2⟩
        exact ⟨p.length, by omega, h2⟩
      · rintro ⟨n, hn, rfl⟩
        refine ⟨by rw [hashOf_length]; omega, ?_⟩
        unfold InPrefix
        rw [hashOf_length]
    rw [this, Set.ncard_image_of_injective, Set.ncard_coe_finset, Finset.card_range]
    · omega
    · intro a b hab
      have := congrArg List.length hab
      simpa [hashOf_length] using this

open Classical in
/-- **C46, one leaf.** A record is in at most one leaf, so in at most one private average. -/
theorem C46_one_leaf {E : Env d} {pts : List (Point d)} {r : ℤ} {tree : List (List (Node d))} (h : lshTree E ⟨[], pts, r⟩ = .ok tree)
    (hD : 0 ≤ E.tree.maxDepth) (x : Point d) : ((leaves tree).filter fun n => decide (x ∈ n.points)).length ≤ 1 := by
  have h3 := (tree_facts h hD).2.2
  have hok := (skeleton_ok E.tree (noisy E pts) r).1
  have hsub : (leaves tree).Sublist tree.flatten := by
    unfold leaves
    generalize isLeaf tree = f
    clear h h3
    induction tree with
    | nil => simp
    | cons M T ih =>
      rw [List.flatMap_cons, List.flatten_cons]
      exact List.filter_sublist.append ih
  have hmem : ∀ n ∈ leaves tree, ∃ level ∈ tree, n ∈ level := by
    intro n hn
    obtain ⟨M, hM, hnM⟩ := List.mem_flatMap.1 hn
    exact ⟨M, hM, List.mem_of_mem_filter hnM⟩
  refine filter_le_one Node.pre _ ((C46_prefixes_once h hD).sublist (hsub.map _)) ?_
  intro a ha b hb hxa hxb
  have hxa : x ∈ a.points := by simpa using hxa
  have hxb : x ∈ b.points := by simpa using hxb
  obtain ⟨M, hM, haM⟩ := hmem a ha
  obtain ⟨N, hN, hbN⟩ := hmem b hb
  have pa := mem_points h hD hM haM hxa
  have pb := mem_points h hD hN hbN hxb
  have ka : key a ∈ skelLeaves (skeleton E.tree (noisy E pts) r) := by rw [← h3, ← leaves_key]; exact List.mem_map_of_mem ha
  have kb : key b ∈ skelLeaves (skeleton E.tree (noisy E pts) r) := by rw [← h3, ← leaves_key]; exact List.mem_map_of_mem hb
  have comp : ∀ p q : List Bool, InPrefix E.proj p x → InPrefix E.proj q x → p.length ≤ q.length → p <+: q := by
    intro p q hp hq hl
    rw [List.prefix_iff_eq_take]
    exact inPrefix_unique hp (inPrefix_take hq _) (by rw [List.length_take]; omega)
  rcases le_total a.pre.length b.pre.length with hle | hle
  · exact congrArg Prod.fst (leaf_unique hok ka kb (comp _ _ pa pb hle))
  · exact (congrArg Prod.fst (leaf_unique hok kb ka (comp _ _ pb pa hle))).symm

/-- **C46, averages.** The coreset is always produced, whatever the noise (in particular `get_private_average` is never called with
a count below one): it has at least one point, its weights are at least one and its points are within the radius. -/
theorem C46_coreset_succeeds (E : Env d) (pts : List (Point d)) (c : Option ℤ) (ht : TreeOk E.tree) (hD : 0 ≤ E.tree.maxDepth)
    (hr : 0 < E.radius) :
    ∃ out, getPrivateCoreset E pts c = .ok out ∧ out ≠ [] ∧ ∀ p ∈ out, ‖p.1‖ ≤ E.radius ∧ 1 ≤ p.2 := by
  refine ⟨_, coreset_spec E pts c ht hD, by simpa using skelLeaves_ne_nil _ _ _, ?_⟩
  intro p hp
  obtain ⟨k, hk, rfl⟩ := List.mem_map.1 hp
  refine ⟨?_, skelLeaves_count ht (le_max_left _ _) hk⟩
  set y := (k.2 : ℝ)⁻¹ • (prefixSum E.proj pts k.1 + E.pcalc.stdDev • E.sumNoise k.1)
  obtain ⟨out, h1, h2⟩ := C45_clip hr [y] (by simp)
  unfold clipByRadius at h1
  rw [if_neg (by simp)] at h1
  cases h1
  simp only [List.map_cons, List.map_nil, List.forall₂_cons, List.forall₂_nil_left_iff, and_true] at h2
  exact h2.1

/-- The defaults (`max_depth = 20`) satisfy the hypotheses, for any data and any draws. -/
example (pts : List (Point 3)) (v : ℕ → Point 3) (n : List Bool → ℤ) (g : List Bool → Point 3) :
    ∃ out, getPrivateCoreset ⟨⟨2, 1, .float 0.5⟩, ⟨15, 5, 20⟩, 1, v, n, g⟩ pts none = .ok out ∧ out ≠ [] := by
  obtain ⟨out, h1, h2, _⟩ := C46_coreset_succeeds ⟨⟨2, 1, .float 0.5⟩, ⟨15, 5, 20⟩, 1, v, n, g⟩ pts none ⟨by norm_num, by norm_num⟩
    (by norm_num) one_pos
  exact ⟨out, h1, h2⟩

end Verif.Props
