import Verif.Proofs.RdpTree
import Verif.Props.RdpGaussian

/-!
# C41: tree aggregation

`tree orders noise stepCounts` is the model of `_compute_rdp_single_epoch_tree_aggregation`. `IsTreeNode`, `Below`,
`TreePair` (the protocol, with adaptively chosen inputs): `Verif/Spec/Mechanisms.lean`.
-/

namespace Verif.Props
open Verif Verif.Spec Verif.Rdp MeasureTheory ProbabilityTheory

/-- The number of nodes of a tree over `n` steps above step `t`. -/
noncomputable def nodesAbove (n t : ℕ) : ℕ := Set.ncard {v | IsTreeNode n v ∧ Below t v}

/-- **C41 (depth).** In a tree over `n` steps no step is below more than `ceil(log2(n+1))` nodes, and step 0 is below exactly
that many: the depth that the code charges for is the worst case. -/
theorem C41_depth (n : ℕ) : (∀ t, (nodesAbove n t : ℤ) ≤ ⌈Real.logb 2 ((n : ℝ) + 1)⌉) ∧
    (nodesAbove n 0 : ℤ) = ⌈Real.logb 2 ((n : ℝ) + 1)⌉ := by
  have hd := depth_eq n
  rw [Int.cast_natCast] at hd
  rw [hd]
  have hset : ∀ t, {v | IsTreeNode n v ∧ Below t v} ⊆ (fun j => (j, t / 2 ^ j)) '' ((Finset.range (Nat.clog 2 (n + 1)) : Finset ℕ) : Set ℕ) := by
    rintro t ⟨j, i⟩ ⟨h1, h2⟩
    exact ⟨j, by simpa using level_lt h1, by rw [(below_iff t j i).1 h2]⟩
  have hle : ∀ t, nodesAbove n t ≤ Nat.clog 2 (n + 1) := by
    intro t
    unfold nodesAbove
    refine (Set.ncard_le_ncard (hset t) ((Finset.finite_toSet _).image _)).trans ?_
    refine (Set.ncard_image_le (Finset.finite_toSet _)).trans ?_
    rw [Set.ncard_coe_finset, Finset.card_range]
  refine ⟨fun t => by exact_mod_cast hle t, ?_⟩
  congr 1
  refine le_antisymm (hle 0) ?_
  have : (fun j : ℕ => (j, 0)) '' ((Finset.range (Nat.clog 2 (n + 1)) : Finset ℕ) : Set ℕ) ⊆ {v | IsTreeNode n v ∧ Below 0 v} := by
    rintro _ ⟨j, hj, rfl⟩
    simp only [Finset.coe_range, Set.mem_Iio] at hj
    have := Nat.pow_lt_of_lt_clog hj
    exact ⟨by unfold IsTreeNode; simp only; omega, (below_iff 0 j 0).2 (by simp)⟩
  have hfin : Set.Finite {v | IsTreeNode n v ∧ Below 0 v} := ((Finset.finite_toSet _).image _).subset (hset 0)
  have h1 := Set.ncard_le_ncard this hfin
  rw [Set.ncard_image_of_injective _ (fun a b h => by simpa using h), Set.ncard_coe_finset, Finset.card_range] at h1
  exact h1

/-- **C41 (mechanism).** Whatever the order of releases, whatever is aggregated depending on earlier releases, and wherever
the record is used (at most once across all trees), the Rényi divergence of everything released by the trees is at most the
value computed for the `SingleEpochTreeAggregationDpEvent`. -/
theorem C41_mechanism {n : ℕ} (orders : Fin n → EReal) (noise : PyNum) (z : ℝ) (hs : noise.val = (z : EReal)) (hz : 0 < z)
    (counts : List ℕ) (arr : Arr n) (h : tree orders noise (.inr (counts.map fun c : ℕ => (c : ℤ))) = .ok arr) (i : Fin n) (α : ℝ)
    (hα : 1 ≤ α) (hi : orders i = (α : EReal)) {Ω : Type} [MeasurableSpace Ω] (P Q : Measure Ω) (hPQ : TreePair z counts Ω P Q) :
    renyiDiv α P Q ≤ arr i := by
  unfold tree at h
  have h1 : ¬ noise.val < 0 := by rw [hs, not_lt]; exact_mod_cast hz.le
  have h2 : ¬ noise.val = 0 := by rw [hs]; exact_mod_cast hz.ne'
  rw [if_neg h1, if_neg h2] at h
  by_cases h3 : (Sum.inr (counts.map fun c : ℕ => (c : ℤ)) : ℤ ⊕ List ℤ) = .inl 0 ∨
      (Sum.inr (counts.map fun c : ℕ => (c : ℤ)) : ℤ ⊕ List ℤ) = .inr []
  · rw [if_pos h3] at h; simp at h
  rw [if_neg h3] at h
  dsimp only at h
  split_ifs at h with h4
  simp only [Except.ok.injEq] at h
  rw [← h]
  dsimp only
  rw [hi, foldr_max_cast, depth_eq, halfInvSq_eq hs]
  set N := counts.foldr max 0 with hN
  have hv : 0 ≤ α * (1 / (2 * z ^ 2)) := by positivity
  cases hPQ with
  | mk l hl hn T₀ t₀ P Q h =>
    have hcl := C37_sequence α hα (l.map fun v => if v.1 = T₀ ∧ Below t₀ v.2 then ((α * (1 / (2 * z ^ 2)) : ℝ) : EReal) else 0) P Q
      (by
        refine h.mono ?_
        rw [List.map_map, List.forall₂_map_left_iff, List.forall₂_map_right_iff, List.forall₂_same]
        intro v hv Ω _ P Q _ _ hc
        simp only [Function.comp] at hc ⊢
        split_ifs at hc ⊢ with hb
        · refine ⟨inferInstance, inferInstance, ?_⟩
          refine C39_gaussian_mechanism (fun _ _ _ => 0) noise z hs hz α hα P Q hc _ ?_
          rw [C39_gaussian_exact _ noise z hs hz α hα, renyi_gaussian' hα 1 (by simpa using hz.ne'), Real.coe_toNNReal _ (sq_nonneg z)]
          congr 2; ring
        · cases hc with
          | mk P => exact ⟨inferInstance, inferInstance, by rw [RdpConv.renyi_self α hα]⟩)
    refine hcl.trans ?_
    have hsum : ∀ l : List (ℕ × ℕ × ℕ), (l.map fun v => if v.1 = T₀ ∧ Below t₀ v.2 then ((α * (1 / (2 * z ^ 2)) : ℝ) : EReal) else 0).sum =
        (((l.filter fun v => v.1 = T₀ ∧ Below t₀ v.2).length * (α * (1 / (2 * z ^ 2))) : ℝ) : EReal) := by
      intro l
      induction l with
      | nil => simp
      | cons v l ih =>
        rw [List.map_cons, List.sum_cons, ih, List.filter_cons]
        by_cases hb : v.1 = T₀ ∧ Below t₀ v.2
        · simp only [hb, and_self, if_true, decide_true, List.length_cons]
          rw [← EReal.coe_add]
          congr 1
          push_cast; ring
        · simp only [hb, if_false, decide_false, zero_add, Bool.false_eq_true]
    rw [hsum, ← EReal.coe_mul, ← EReal.coe_mul, EReal.coe_le_coe_iff]
    have hcount : (l.filter fun v => v.1 = T₀ ∧ Below t₀ v.2).length ≤ Nat.clog 2 (N + 1) := by
      set f := l.filter fun v => v.1 = T₀ ∧ Below t₀ v.2 with hf
      have hmem : ∀ v ∈ f, v ∈ l ∧ v.1 = T₀ ∧ Below t₀ v.2 := by
        intro v hv
        have := List.mem_filter.1 hv
        exact ⟨this.1, by simpa using this.2⟩
      have := count_above_le N t₀ (f.map Prod.snd) ((hl.filter _).map_on fun v hv w hw h => Prod.ext
        ((hmem v hv).2.1.trans (hmem w hw).2.1.symm) h) (by
          intro x hx
          obtain ⟨v, hv, rfl⟩ := List.mem_map.1 hx
          obtain ⟨n, hn1, hn2⟩ := hn v (hmem v hv).1
          exact hn2.trans (le_foldr_max (List.mem_of_getElem? hn1))) (by
          intro x hx
          obtain ⟨v, hv, rfl⟩ := List.mem_map.1 hx
          exact (hmem v hv).2.2)
      simpa using this
    have : ((l.filter fun v => v.1 = T₀ ∧ Below t₀ v.2).length : ℝ) ≤ Nat.clog 2 (N + 1) := by exact_mod_cast hcount
    push_cast
    rw [mul_right_comm, mul_comm, Real.coe_toNNReal _ (sq_nonneg z)]
    exact mul_le_mul_of_nonneg_left this hv

/-- A concrete case: a tree over 5 steps charges for 3 levels. -/
example : tree (fun _ : Fin 1 => ((2 : ℝ) : EReal)) (.float 1) (.inr [5]) = .ok fun _ => ((3 : ℝ) : EReal) := by
  unfold tree
  rw [if_neg (by simp [PyNum.val]), if_neg (by simp [PyNum.val]), if_neg (by simp), if_neg (by simp)]
  dsimp only
  congr 1
  funext i
  have h := depth_eq 5
  have h5 : Nat.clog 2 (5 + 1) = 3 := by decide
  rw [h5] at h
  simp only [List.foldr_cons, List.foldr_nil]
  rw [show (max 5 0 : ℤ) = ((5 : ℕ) : ℤ) by norm_num, h, halfInvSq, ← EReal.coe_mul, ← EReal.coe_mul]
  norm_num

example : nodesAbove 5 0 = 3 := by
  have h := (C41_depth 5).2
  have h' := depth_eq 5
  rw [Int.cast_natCast] at h'
  rw [h'] at h
  have h5 : Nat.clog 2 (5 + 1) = 3 := by decide
  rw [h5] at h
  exact_mod_cast h

end Verif.Props
