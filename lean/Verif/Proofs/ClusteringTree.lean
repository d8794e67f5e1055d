import Verif.Spec.Clustering
import Mathlib.Data.List.Basic
import Mathlib.Data.List.Range
import Mathlib.Data.List.Infix

/-! # The LSH tree: structure -/

namespace Verif.Clustering
open Verif.Spec
open scoped RealInnerProductSpace

variable {d : ℕ}

/-! ### Hashes -/

lemma hashOf_length (v : ℕ → Point d) (x : Point d) (n : ℕ) : (hashOf v x n).length = n := by simp [hashOf]

open Classical in
lemma hashOf_succ (v : ℕ → Point d) (x : Point d) (n : ℕ) : hashOf v x (n + 1) = hashOf v x n ++ [decide (⟪x, v n⟫ < 0)] := by
  simp [hashOf, List.range_succ]

open Classical in
lemma inPrefix_snoc (v : ℕ → Point d) (p : List Bool) (b : Bool) (x : Point d) :
    InPrefix v (p ++ [b]) x ↔ InPrefix v p x ∧ decide (⟪x, v p.length⟫ < 0) = b := by
  unfold InPrefix
  rw [List.length_append, List.length_singleton, hashOf_succ]
  constructor
  · intro h
    have := List.append_inj' h rfl
    exact ⟨this.1, by simpa using this.2⟩
  · rintro ⟨h1, h2⟩
    rw [h1, h2]

lemma inPrefix_nil (v : ℕ → Point d) (x : Point d) : InPrefix v [] x := by simp [InPrefix, hashOf]

lemma inPrefix_take {v : ℕ → Point d} {p : List Bool} {x : Point d} (h : InPrefix v p x) (n : ℕ) : InPrefix v (p.take n) x := by
  unfold InPrefix at *
  conv_rhs => rw [← h]
  simp only [hashOf, ← List.map_take, List.length_take, List.take_range]

lemma inPrefix_unique {v : ℕ → Point d} {p q : List Bool} {x : Point d} (hp : InPrefix v p x) (hq : InPrefix v q x)
    (h : p.length = q.length) : p = q := by
  unfold InPrefix at *
  rw [← hp, ← hq, h]

/-! ### The skeleton: prefixes and counts -/

/-- Prefix and private count of a node. -/
def key (n : Node d) : List Bool × ℤ := (n.pre, n.privateCount)

/-- The children of the branching nodes with enough points. -/
def skelNext (t : TreeParam) (c : List Bool → ℤ) (L : List (List Bool × ℤ)) : List (List Bool × ℤ) :=
  ((L.filter fun k => k.2 ≥ t.minBranching).flatMap fun k =>
    [(k.1 ++ [false], c (k.1 ++ [false])), (k.1 ++ [true], c (k.1 ++ [true]))]).filter fun k => k.2 ≥ t.minNode

/-- The levels of the tree. -/
def skelLevels (t : TreeParam) (c : List Bool → ℤ) : ℕ → List (List Bool × ℤ) → List (List (List Bool × ℤ))
  | 0, L => [L]
  | n + 1, L => if (skelNext t c L).isEmpty then [L] else L :: skelLevels t c n (skelNext t c L)

/-- No node of the level below extends the prefix. -/
def skelIsLeaf (T : List (List (List Bool × ℤ))) (k : List Bool × ℤ) : Bool :=
  if k.1.length + 1 > T.length - 1 then true
  else !((T.getD (k.1.length + 1) []).any fun c => k.1 = c.1.dropLast)

/-- The leaves of the tree. -/
def skelLeaves (T : List (List (List Bool × ℤ))) : List (List Bool × ℤ) := T.flatMap fun L => L.filter (skelIsLeaf T)

lemma isLeaf_key (tree : List (List (Node d))) (n : Node d) : isLeaf tree n = skelIsLeaf (tree.map (List.map key)) (key n) := by
  unfold isLeaf skelIsLeaf
  rw [List.length_map]
  have : (tree.map (List.map key)).getD (n.pre.length + 1) [] = (tree.getD (n.pre.length + 1) []).map key := by
    rw [List.getD_eq_getElem?_getD, List.getD_eq_getElem?_getD, List.getElem?_map]
    cases tree[n.pre.length + 1]? <;> rfl
  show _ = if n.pre.length + 1 > tree.length - 1 then true else !((List.map (List.map key) tree).getD (n.pre.length + 1) []).any _
  rw [this, List.any_map]
  rfl

lemma leaves_key (tree : List (List (Node d))) : (leaves tree).map key = skelLeaves (tree.map (List.map key)) := by
  unfold leaves skelLeaves
  rw [List.map_flatMap, List.flatMap_map]
  congr 1
  funext L
  rw [List.filter_map]
  congr 2
  funext n
  exact isLeaf_key tree n

open Classical in
/-- What a node of the tree for the points `pts` contains. -/
structure GoodNode (E : Env d) (pts : List (Point d)) (n : Node d) : Prop where
  points : n.points = pts.filter fun x => decide (InPrefix E.proj n.pre x)
  count : n.pre ≠ [] → n.privateCount = getPrivateCount n.points.length E.pcalc.laplaceParam (E.countNoise n.pre)

open Classical in
/-- The private count of a prefix. -/
noncomputable def noisy (E : Env d) (pts : List (Point d)) (p : List Bool) : ℤ :=
  getPrivateCount (pts.filter fun x => decide (InPrefix E.proj p x)).length E.pcalc.laplaceParam (E.countNoise p)

open Classical in
lemma children_spec (E : Env d) (pts : List (Point d)) (n : Node d) (h : GoodNode E pts n) (hl : (n.pre.length : ℤ) < E.tree.maxDepth) :
    ∃ cs, children E n = .ok cs ∧ (∀ c ∈ cs, GoodNode E pts c ∧ c.pre.length = n.pre.length + 1) ∧
      cs.map key = [(n.pre ++ [false], noisy E pts (n.pre ++ [false])), (n.pre ++ [true], noisy E pts (n.pre ++ [true]))] := by
  have hf : ∀ b : Bool, (pts.filter fun x => decide (InPrefix E.proj (n.pre ++ [b]) x)) =
      n.points.filter fun x => decide (⟪x, E.proj n.pre.length⟫ < 0) = b := by
    intro b
    rw [h.points, List.filter_filter]
    refine List.filter_congr fun x _ => ?_
    rw [← Bool.coe_iff_coe]
    simp only [decide_eq_true_eq, Bool.and_eq_true]
    rw [inPrefix_snoc]
    tauto
  have h0 : (n.points.filter fun x => decide (⟪x, E.proj n.pre.length⟫ ≥ 0)) = pts.filter fun x => decide (InPrefix E.proj (n.pre ++ [false]) x) := by
    rw [hf]
    refine List.filter_congr fun x _ => ?_
    rw [← Bool.coe_iff_coe]
    simp
  have h1 : (n.points.filter fun x => decide (⟪x, E.proj n.pre.length⟫ < 0)) = pts.filter fun x => decide (InPrefix E.proj (n.pre ++ [true]) x) := by
    rw [hf]
    refine List.filter_congr fun x _ => ?_
    rw [← Bool.coe_iff_coe]
    simp
  have hc : children E n = .ok [mkNode E (n.pre ++ [false]) (pts.filter fun x => decide (InPrefix E.proj (n.pre ++ [false]) x)),
      mkNode E (n.pre ++ [true]) (pts.filter fun x => decide (InPrefix E.proj (n.pre ++ [true]) x))] := by
    unfold children groupByNextHash
    rw [if_neg (by omega), h0, h1]
    rfl
  refine ⟨_, hc, ?_, rfl⟩
  intro c hcm
  simp only [List.mem_cons, List.not_mem_nil, or_false] at hcm
  rcases hcm with rfl | rfl <;> exact ⟨⟨rfl, fun _ => rfl⟩, by simp [mkNode]⟩

lemma flattenChildren_spec (E : Env d) (pts : List (Point d)) (i : ℕ) (hi : (i : ℤ) < E.tree.maxDepth) (L : List (Node d))
    (h : ∀ n ∈ L, GoodNode E pts n ∧ n.pre.length = i) :
    ∃ cs, flattenChildren E L = .ok cs ∧ (∀ c ∈ cs, GoodNode E pts c ∧ c.pre.length = i + 1) ∧
      cs.map key = (L.map key).flatMap fun k =>
        [(k.1 ++ [false], noisy E pts (k.1 ++ [false])), (k.1 ++ [true], noisy E pts (k.1 ++ [true]))] := by
  induction L with
  | nil => exact ⟨[], rfl, by simp, rfl⟩
  | cons n L ih =>
    obtain ⟨cs, h1, h2, h3⟩ := ih fun m hm => h m (List.mem_cons_of_mem _ hm)
    obtain ⟨hg, hln⟩ := h n List.mem_cons_self
    obtain ⟨c, g1, g2, g3⟩ := children_spec E pts n hg (by rw [hln]; exact hi)
    refine ⟨c ++ cs, by unfold flattenChildren; rw [g1, h1]; rfl, ?_, ?_⟩
    · intro m hm
      rcases List.mem_append.1 hm with hm | hm
      · exact ⟨(g2 m hm).1, by rw [(g2 m hm).2, hln]⟩
      · exact h2 m hm
    · rw [List.map_append, g3, h3]
      rfl

lemma filter_key (L : List (Node d)) (b : ℤ) : (L.filter fun n => n.privateCount ≥ b).map key = (L.map key).filter fun k => k.2 ≥ b := by
  rw [List.filter_map]; rfl

lemma getNextLevel_spec (E : Env d) (pts : List (Point d)) (i : ℕ) (hi : (i : ℤ) < E.tree.maxDepth) (L : List (Node d))
    (h : ∀ n ∈ L, GoodNode E pts n ∧ n.pre.length = i) :
    ∃ N, getNextLevel E (filterBranching E L) = .ok N ∧ (∀ c ∈ N, GoodNode E pts c ∧ c.pre.length = i + 1) ∧
      N.map key = skelNext E.tree (noisy E pts) (L.map key) := by
  obtain ⟨cs, h1, h2, h3⟩ := flattenChildren_spec E pts i hi (filterBranching E L) fun n hn => h n (List.mem_of_mem_filter hn)
  refine ⟨cs.filter fun n => n.privateCount ≥ E.tree.minNode, by unfold getNextLevel; rw [h1]; rfl,
    fun c hc => h2 c (List.mem_of_mem_filter hc), ?_⟩
  rw [filter_key, h3]
  unfold skelNext filterBranching
  rw [filter_key]

/-- The levels: no exception, and prefixes and counts are those of the skeleton. -/
lemma levels_spec (E : Env d) (pts : List (Point d)) (fuel : ℕ) : ∀ (i : ℕ) (L : List (Node d)), (i : ℤ) + fuel ≤ E.tree.maxDepth →
    (∀ n ∈ L, GoodNode E pts n ∧ n.pre.length = i) →
    ∃ T, levels E fuel L = .ok T ∧ (∀ (j : ℕ) (M : List (Node d)), T[j]? = some M → ∀ n ∈ M, GoodNode E pts n ∧ n.pre.length = i + j) ∧
      T.map (List.map key) = skelLevels E.tree (noisy E pts) fuel (L.map key) := by
  induction fuel with
  | zero =>
    intro i L _ h
    refine ⟨[L], rfl, ?_, rfl⟩
    intro j M hj n hn
    cases j with
    | zero => simp at hj; subst hj; exact h n hn
    | succ j => simp at hj
  | succ fuel ih =>
    intro i L hi h
    push_cast at hi
    obtain ⟨N, h1, h2, h3⟩ := getNextLevel_spec E pts i (by omega) L h
    have hemp : (skelNext E.tree (noisy E pts) (L.map key)).isEmpty = N.isEmpty := by rw [← h3]; simp
    by_cases hN : N.isEmpty = true
    · refine ⟨[L], ?_, ?_, ?_⟩
      · unfold levels; rw [h1]; show (if N.isEmpty = true then _ else _) = _; rw [if_pos hN]
      · intro j M hj n hn
        cases j with
        | zero => simp at hj; subst hj; exact h n hn
        | succ j => simp at hj
      · unfold skelLevels; rw [hemp, if_pos hN]; rfl
    · obtain ⟨T, g1, g2, g3⟩ := ih (i + 1) N (by push_cast; omega) h2
      refine ⟨L :: T, ?_, ?_, ?_⟩
      · unfold levels; rw [h1]; show (if N.isEmpty = true then _ else _) = _; rw [if_neg hN, g1]; rfl
      · intro j M hj n hn
        cases j with
        | zero => simp at hj; subst hj; exact h n hn
        | succ j =>
          have := g2 j M (by simpa using hj) n hn
          exact ⟨this.1, by omega⟩
      · unfold skelLevels; rw [hemp, if_neg hN, ← h3, ← g3]; rfl

/-! ### Facts about the skeleton -/

lemma mem_skelNext {t : TreeParam} {c : List Bool → ℤ} {L : List (List Bool × ℤ)} {k : List Bool × ℤ} (h : k ∈ skelNext t c L) :
    k.1 ≠ [] ∧ k.2 = c k.1 ∧ k.2 ≥ t.minNode ∧ k.1.dropLast ∈ L.map Prod.fst := by
  unfold skelNext at h
  rw [List.mem_filter, List.mem_flatMap] at h
  obtain ⟨⟨p, hp, hk⟩, hn⟩ := h
  have hpL : p.1 ∈ L.map Prod.fst := List.mem_map_of_mem (List.mem_of_mem_filter hp)
  simp only [List.mem_cons, List.not_mem_nil, or_false] at hk
  rcases hk with rfl | rfl <;> exact ⟨by simp, rfl, by simpa using hn, by simpa using hpL⟩

lemma skelNext_nodup {t : TreeParam} {c : List Bool → ℤ} {L : List (List Bool × ℤ)} (h : (L.map Prod.fst).Nodup) :
    ((skelNext t c L).map Prod.fst).Nodup := by
  unfold skelNext
  refine List.Nodup.sublist (List.filter_sublist.map Prod.fst) ?_
  rw [List.map_flatMap]
  have h' : ((L.filter fun k => k.2 ≥ t.minBranching).map Prod.fst).Nodup := h.sublist (List.filter_sublist.map Prod.fst)
  generalize L.filter (fun k => k.2 ≥ t.minBranching) = M at h'
  induction M with
  | nil => simp
  | cons k M ih =>
    rw [List.map_cons, List.nodup_cons] at h'
    rw [List.flatMap_cons, List.nodup_append]
    refine ⟨by simp, ih h'.2, ?_⟩
    intro a ha b hb hab
    subst hab
    rw [List.mem_flatMap] at hb
    obtain ⟨m, hm, hb⟩ := hb
    apply h'.1
    refine List.mem_map.2 ⟨m, hm, ?_⟩
    simp only [List.map_cons, List.map_nil, List.mem_cons, List.not_mem_nil, or_false] at ha hb
    rcases ha with rfl | rfl <;> rcases hb with hb | hb <;> simpa using (List.append_inj' hb rfl).1.symm

/-- Facts about the levels, for a start level at depth `i`. -/
structure SkelOk (t : TreeParam) (c : List Bool → ℤ) (i : ℕ) (T : List (List (List Bool × ℤ))) : Prop where
  len : ∀ (j : ℕ) (M : List (List Bool × ℤ)), T[j]? = some M → ∀ k ∈ M, k.1.length = i + j
  nodup : ∀ (j : ℕ) (M : List (List Bool × ℤ)), T[j]? = some M → (M.map Prod.fst).Nodup
  parent : ∀ (j : ℕ) (M : List (List Bool × ℤ)), T[j + 1]? = some M → ∀ k ∈ M, ∃ M', T[j]? = some M' ∧ k.1.dropLast ∈ M'.map Prod.fst
  count : ∀ (j : ℕ) (M : List (List Bool × ℤ)), T[j + 1]? = some M → ∀ k ∈ M, k.2 = c k.1 ∧ k.2 ≥ t.minNode

lemma skelLevels_ok (t : TreeParam) (c : List Bool → ℤ) (fuel : ℕ) : ∀ (i : ℕ) (L : List (List Bool × ℤ)), (L.map Prod.fst).Nodup →
    (∀ k ∈ L, k.1.length = i) → SkelOk t c i (skelLevels t c fuel L) ∧ (skelLevels t c fuel L)[0]? = some L ∧
      (skelLevels t c fuel L).length ≤ fuel + 1 ∧ (L ≠ [] → ∀ M ∈ skelLevels t c fuel L, M ≠ []) := by
  have single : ∀ (i : ℕ) (L : List (List Bool × ℤ)), (L.map Prod.fst).Nodup → (∀ k ∈ L, k.1.length = i) → SkelOk t c i [L] := by
    intro i L hn hl
    refine ⟨?_, ?_, ?_, ?_⟩
    · intro j M hj k hk
      cases j with
      | zero => simp at hj; subst hj; exact hl k hk
      | succ j => simp at hj
    · intro j M hj
      cases j with
      | zero => simp at hj; subst hj; exact hn
      | succ j => simp at hj
    · intro j M hj; simp at hj
    · intro j M hj; simp at hj
  induction fuel with
  | zero => exact fun i L hn hl => ⟨single i L hn hl, rfl, by simp [skelLevels], by simp [skelLevels]⟩
  | succ fuel ih =>
    intro i L hn hl
    unfold skelLevels
    split_ifs with he
    · exact ⟨single i L hn hl, rfl, by simp, by simp⟩
    · have hnext : ∀ k ∈ skelNext t c L, k.1.length = i + 1 := by
        intro k hk
        obtain ⟨h1, _, _, h4⟩ := mem_skelNext hk
        obtain ⟨m, hm, hmk⟩ := List.mem_map.1 h4
        have := hl m hm
        have hp : 0 < k.1.length := List.length_pos_iff.2 h1
        rw [hmk, List.length_dropLast] at this
        omega
      obtain ⟨g1, g2, g3, g4⟩ := ih (i + 1) (skelNext t c L) (skelNext_nodup hn) hnext
      refine ⟨⟨?_, ?_, ?_, ?_⟩, rfl, by simpa using g3, ?_⟩
      · intro j M hj k hk
        cases j with
        | zero => simp at hj; subst hj; exact hl k hk
        | succ j => have := g1.len j M (by simpa using hj) k hk; omega
      · intro j M hj
        cases j with
        | zero => simp at hj; subst hj; exact hn
        | succ j => exact g1.nodup j M (by simpa using hj)
      · intro j M hj k hk
        have hj' : (skelLevels t c fuel (skelNext t c L))[j]? = some M := by simpa using hj
        cases j with
        | zero =>
          rw [g2] at hj'
          cases hj'
          exact ⟨L, rfl, (mem_skelNext hk).2.2.2⟩
        | succ j =>
          obtain ⟨M', h1, h2⟩ := g1.parent j M hj' k hk
          exact ⟨M', by simpa using h1, h2⟩
      · intro j M hj k hk
        have hj' : (skelLevels t c fuel (skelNext t c L))[j]? = some M := by simpa using hj
        cases j with
        | zero =>
          rw [g2] at hj'
          cases hj'
          exact ⟨(mem_skelNext hk).2.1, (mem_skelNext hk).2.2.1⟩
        | succ j => exact g1.count j M hj' k hk
      · intro hL M hM
        rcases List.mem_cons.1 hM with rfl | hM
        · exact hL
        · refine g4 ?_ M hM
          intro h0; rw [h0] at he; simp at he

/-- Ancestors: the prefixes of a prefix in the tree are in the tree. -/
lemma SkelOk.ancestor {t : TreeParam} {c : List Bool → ℤ} {T : List (List (List Bool × ℤ))} (h : SkelOk t c 0 T) {j : ℕ}
    {M : List (List Bool × ℤ)} (hj : T[j]? = some M) {k : List Bool × ℤ} (hk : k ∈ M) : ∀ i ≤ j, ∃ M', T[i]? = some M' ∧
      k.1.take i ∈ M'.map Prod.fst := by
  induction j generalizing M k with
  | zero =>
    intro i hi
    have : i = 0 := by omega
    subst this
    have := h.len 0 M hj k hk
    exact ⟨M, hj, List.mem_map.2 ⟨k, hk, by rw [List.take_zero, List.length_eq_zero_iff.1 (by omega : k.1.length = 0)]⟩⟩
  | succ j ih =>
    intro i hi
    have hlen := h.len (j + 1) M hj k hk
    rcases Nat.lt_or_ge i (j + 1) with hlt | hge
    · obtain ⟨M', h1, h2⟩ := h.parent j M hj k hk
      obtain ⟨k', hk', hke⟩ := List.mem_map.1 h2
      obtain ⟨M'', g1, g2⟩ := ih h1 hk' i (by omega)
      refine ⟨M'', g1, ?_⟩
      rw [hke, List.dropLast_eq_take, List.take_take, min_eq_left (by omega)] at g2
      exact g2
    · have : i = j + 1 := by omega
      subst this
      exact ⟨M, hj, List.mem_map.2 ⟨k, hk, by rw [List.take_of_length_le (by omega)]⟩⟩

lemma mem_skelLeaves {T : List (List (List Bool × ℤ))} {k : List Bool × ℤ} :
    k ∈ skelLeaves T ↔ ∃ (j : ℕ) (M : List (List Bool × ℤ)), T[j]? = some M ∧ k ∈ M ∧ skelIsLeaf T k = true := by
  unfold skelLeaves
  rw [List.mem_flatMap]
  constructor
  · rintro ⟨M, hM, hk⟩
    obtain ⟨j, hj⟩ := List.mem_iff_getElem?.1 hM
    rw [List.mem_filter] at hk
    exact ⟨j, M, hj, hk.1, hk.2⟩
  · rintro ⟨j, M, hj, hk, hl⟩
    exact ⟨M, List.mem_iff_getElem?.2 ⟨j, hj⟩, List.mem_filter.2 ⟨hk, hl⟩⟩

/-- A leaf is not above another node. -/
lemma leaf_not_above {t : TreeParam} {c : List Bool → ℤ} {T : List (List (List Bool × ℤ))} (h : SkelOk t c 0 T) {k k' : List Bool × ℤ}
    (hk : k ∈ skelLeaves T) {j : ℕ} {M : List (List Bool × ℤ)} (hj : T[j]? = some M) (hk' : k' ∈ M) (hp : k.1 <+: k'.1) :
    k.1 = k'.1 := by
  obtain ⟨i, N, hi, hkN, hleaf⟩ := mem_skelLeaves.1 hk
  have l1 := h.len i N hi k hkN
  have l2 := h.len j M hj k' hk'
  rw [zero_add] at l1 l2
  by_contra hne
  have hlt : k.1.length < k'.1.length := by
    refine lt_of_le_of_ne hp.length_le fun he => hne (hp.eq_of_length he)
  obtain ⟨M', g1, g2⟩ := h.ancestor hj hk' (k.1.length + 1) (by omega)
  have hTl : k.1.length + 1 < T.length := by
    by_contra hc
    rw [List.getElem?_eq_none (by omega)] at g1
    cases g1
  unfold skelIsLeaf at hleaf
  rw [if_neg (by omega)] at hleaf
  rw [List.getD_eq_getElem?_getD, g1, Option.getD_some] at hleaf
  simp only [Bool.not_eq_true', List.any_eq_false, decide_eq_true_eq] at hleaf
  obtain ⟨q, hq, hqe⟩ := List.mem_map.1 g2
  refine hleaf q hq ?_
  rw [hqe, List.dropLast_eq_take, List.length_take, List.take_take, min_eq_left (by omega)]
  rw [show min (k.1.length + 1) k'.1.length - 1 = k.1.length by omega]
  exact (List.prefix_iff_eq_take.1 hp)

/-- Two leaves whose prefixes are comparable are the same. -/
lemma leaf_unique {t : TreeParam} {c : List Bool → ℤ} {T : List (List (List Bool × ℤ))} (h : SkelOk t c 0 T) {k k' : List Bool × ℤ}
    (hk : k ∈ skelLeaves T) (hk' : k' ∈ skelLeaves T) (hp : k.1 <+: k'.1) : k = k' := by
  obtain ⟨j, M, hj, hkM, _⟩ := mem_skelLeaves.1 hk'
  obtain ⟨i, N, hi, hkN, _⟩ := mem_skelLeaves.1 hk
  have he := leaf_not_above h hk hj hkM hp
  have l1 := h.len i N hi k hkN
  have l2 := h.len j M hj k' hkM
  have hij : i = j := by rw [he] at l1; omega
  subst hij
  rw [hi] at hj
  cases hj
  have := List.inj_on_of_nodup_map (h.nodup i _ hi) hkN hkM he
  exact this

lemma flatMap_nodup {α β : Type*} {f : α → List β} {l : List α} (h1 : ∀ (j : ℕ) a, l[j]? = some a → (f a).Nodup)
    (h2 : ∀ (i j : ℕ) a b, i < j → l[i]? = some a → l[j]? = some b → ∀ x ∈ f a, x ∉ f b) : (l.flatMap f).Nodup := by
  induction l with
  | nil => simp
  | cons a l ih =>
    rw [List.flatMap_cons, List.nodup_append]
    refine ⟨h1 0 a rfl, ih (fun j b hj => h1 (j + 1) b (by simpa using hj))
      fun i j a b hij ha hb => h2 (i + 1) (j + 1) a b (by omega) (by simpa using ha) (by simpa using hb), ?_⟩
    intro x hx y hy hxy
    subst hxy
    obtain ⟨b, hb, hxb⟩ := List.mem_flatMap.1 hy
    obtain ⟨j, hj⟩ := List.mem_iff_getElem?.1 hb
    exact h2 0 (j + 1) a b (by omega) rfl (by simpa using hj) x hx hxb

/-- No prefix twice in the whole tree. -/
lemma SkelOk.all_nodup {t : TreeParam} {c : List Bool → ℤ} {T : List (List (List Bool × ℤ))} (h : SkelOk t c 0 T) :
    (T.flatten.map Prod.fst).Nodup := by
  rw [← List.flatMap_id, List.map_flatMap]
  refine flatMap_nodup (fun j M hj => h.nodup j M hj) ?_
  intro i j M N hij hM hN x hx hx'
  obtain ⟨k, hk, rfl⟩ := List.mem_map.1 hx
  obtain ⟨k', hk', he⟩ := List.mem_map.1 hx'
  have l1 := h.len i M hM k hk
  have l2 := h.len j N hN k' hk'
  rw [he] at l2
  omega

lemma skelLeaves_sublist (T : List (List (List Bool × ℤ))) : (skelLeaves T).Sublist T.flatten := by
  unfold skelLeaves
  generalize skelIsLeaf T = f
  induction T with
  | nil => simp
  | cons M T ih =>
    rw [List.flatMap_cons, List.flatten_cons]
    exact List.filter_sublist.append ih

end Verif.Clustering

namespace Verif.Clustering
open Verif.Spec
variable {d : ℕ}

/-! ### The whole tree -/

/-- The skeleton of the tree with root count `r`. -/
def skeleton (t : TreeParam) (c : List Bool → ℤ) (r : ℤ) : List (List (List Bool × ℤ)) := skelLevels t c t.maxDepth.toNat [([], r)]

lemma skeleton_ok (t : TreeParam) (c : List Bool → ℤ) (r : ℤ) : SkelOk t c 0 (skeleton t c r) ∧ (skeleton t c r)[0]? = some [([], r)] ∧
    (skeleton t c r).length ≤ t.maxDepth.toNat + 1 ∧ ∀ M ∈ skeleton t c r, M ≠ [] := by
  obtain ⟨h1, h2, h3, h4⟩ := skelLevels_ok t c t.maxDepth.toNat 0 [([], r)] (by simp) (by simp)
  exact ⟨h1, h2, h3, h4 (by simp)⟩

lemma goodRoot (E : Env d) (pts : List (Point d)) (r : ℤ) : GoodNode E pts ⟨[], pts, r⟩ := by
  refine ⟨?_, fun h => absurd rfl h⟩
  rw [List.filter_eq_self.2]
  intro x _
  simpa using inPrefix_nil E.proj x

lemma lshTree_spec (E : Env d) (pts : List (Point d)) {r : ℤ} (hr : 1 ≤ r) (hD : 0 ≤ E.tree.maxDepth) :
    ∃ T, lshTree E ⟨[], pts, r⟩ = .ok T ∧ (∀ (j : ℕ) (M : List (Node d)), T[j]? = some M → ∀ n ∈ M, GoodNode E pts n ∧ n.pre.length = j) ∧
      T.map (List.map key) = skeleton E.tree (noisy E pts) r := by
  unfold lshTree
  rw [if_neg (by simpa using hr)]
  obtain ⟨T, h1, h2, h3⟩ := levels_spec E pts E.tree.maxDepth.toNat 0 [⟨[], pts, r⟩] (by push_cast; omega) (by
    intro n hn
    rw [List.mem_singleton.1 hn]
    exact ⟨goodRoot E pts r, rfl⟩)
  exact ⟨T, h1, fun j M hj n hn => ⟨(h2 j M hj n hn).1, by rw [(h2 j M hj n hn).2, zero_add]⟩, h3⟩

lemma skelLeaves_count {t : TreeParam} {c : List Bool → ℤ} {r : ℤ} (ht : TreeOk t) (hr : 1 ≤ r) {k : List Bool × ℤ}
    (hk : k ∈ skelLeaves (skeleton t c r)) : 1 ≤ k.2 := by
  obtain ⟨j, M, hj, hkM, _⟩ := mem_skelLeaves.1 hk
  obtain ⟨h1, h2, _, _⟩ := skeleton_ok t c r
  cases j with
  | zero =>
    rw [h2] at hj
    cases hj
    rw [List.mem_singleton.1 hkM]; exact hr
  | succ j => exact ht.1.trans (h1.count j M hj k hkM).2

lemma skelLeaves_ne_nil (t : TreeParam) (c : List Bool → ℤ) (r : ℤ) : skelLeaves (skeleton t c r) ≠ [] := by
  obtain ⟨h1, h2, _, h4⟩ := skeleton_ok t c r
  set T := skeleton t c r
  have hlen : 0 < T.length := by
    by_contra h
    rw [List.getElem?_eq_none (by omega)] at h2
    cases h2
  have hlast : T[T.length - 1]? = some (T[T.length - 1]'(by omega)) := List.getElem?_eq_getElem (by omega)
  obtain ⟨k, hk⟩ := List.exists_mem_of_ne_nil _ (h4 _ (List.getElem_mem (by omega : T.length - 1 < T.length)))
  have hkl := h1.len _ _ hlast k hk
  refine List.ne_nil_of_mem (mem_skelLeaves.2 ⟨_, _, hlast, hk, ?_⟩ : k ∈ _)
  unfold skelIsLeaf
  rw [if_pos (by omega)]

/-- The averages never raise. -/
lemma averages_spec (E : Env d) (L : List (Node d)) (h : ∀ n ∈ L, 1 ≤ n.privateCount) :
    averages E L = .ok (L.map fun n => (n.privateCount : ℝ)⁻¹ • (n.points.sum + E.pcalc.stdDev • E.sumNoise n.pre)) := by
  induction L with
  | nil => rfl
  | cons n L ih =>
    unfold averages
    rw [ih fun m hm => h m (List.mem_cons_of_mem _ hm)]
    have : getPrivateAverage n.points n.privateCount E.pcalc.stdDev (E.sumNoise n.pre) =
        .ok ((n.privateCount : ℝ)⁻¹ • (n.points.sum + E.pcalc.stdDev • E.sumNoise n.pre)) := by
      unfold getPrivateAverage
      rw [if_neg (by have := h n List.mem_cons_self; omega)]
    rw [this]
    rfl

open Classical in
/-- The sum of the points with a prefix, as used for the private average. -/
noncomputable def prefixSum (v : ℕ → Point d) (pts : List (Point d)) (p : List Bool) : Point d :=
  (pts.filter fun x => decide (InPrefix v p x)).sum

/-- The root count: given, or drawn; at least one. -/
noncomputable def rootCount (E : Env d) (pts : List (Point d)) (c : Option ℤ) : ℤ := max 1 (c.getD (noisy E pts []))

lemma noisy_nil (E : Env d) (pts : List (Point d)) : noisy E pts [] = getPrivateCount pts.length E.pcalc.laplaceParam (E.countNoise []) := by
  unfold noisy
  rw [List.filter_eq_self.2]
  intro x _
  simpa using inPrefix_nil E.proj x

/-- The coreset in terms of the noisy counts and the noisy sums of the leaves. -/
lemma coreset_spec (E : Env d) (pts : List (Point d)) (c : Option ℤ) (ht : TreeOk E.tree) (hD : 0 ≤ E.tree.maxDepth) :
    getPrivateCoreset E pts c = .ok ((skelLeaves (skeleton E.tree (noisy E pts) (rootCount E pts c))).map fun k =>
      (let y := (k.2 : ℝ)⁻¹ • (prefixSum E.proj pts k.1 + E.pcalc.stdDev • E.sumNoise k.1)
       (clipScale E.radius y • y, k.2))) := by
  have hroot : ∃ r, rootNode E pts c = .ok ⟨[], pts, r⟩ ∧ max 1 r = rootCount E pts c := by
    unfold rootNode rootCount
    rw [if_neg (by omega)]
    cases c with
    | none => exact ⟨_, rfl, by rw [Option.getD_none, noisy_nil]⟩
    | some c => exact ⟨c, rfl, rfl⟩
  obtain ⟨r, hr, hrc⟩ := hroot
  have hr1 : 1 ≤ max 1 r := le_max_left _ _
  obtain ⟨T, h1, h2, h3⟩ := lshTree_spec E pts hr1 hD
  have hkeys := leaves_key T
  rw [h3, hrc] at hkeys
  have hcount : ∀ n ∈ leaves T, 1 ≤ n.privateCount := by
    intro n hn
    have : key n ∈ skelLeaves (skeleton E.tree (noisy E pts) (rootCount E pts c)) := by
      rw [← hkeys]; exact List.mem_map_of_mem hn
    exact skelLeaves_count ht (hrc ▸ hr1) this
  have hpts : ∀ n ∈ leaves T, n.points.sum = prefixSum E.proj pts n.pre := by
    intro n hn
    obtain ⟨M, hM, hnM⟩ := List.mem_flatMap.1 hn
    obtain ⟨j, hj⟩ := List.mem_iff_getElem?.1 hM
    have := (h2 j M hj n (List.mem_of_mem_filter hnM)).1.points
    rw [this]; rfl
  have hne : leaves T ≠ [] := by
    intro h0
    rw [h0] at hkeys
    exact skelLeaves_ne_nil _ _ _ hkeys.symm
  have havg := averages_spec E (leaves T) hcount
  unfold getPrivateCoreset
  rw [hr]
  show (lshTree E ⟨[], pts, max 1 r⟩ >>= _) = _
  rw [h1]
  show (averages E (leaves T) >>= _) = _
  rw [havg]
  show (clipByRadius E.radius _ >>= _) = _
  unfold clipByRadius
  rw [if_neg (by simpa using hne)]
  show Except.ok _ = _
  congr 1
  rw [← hkeys, List.map_map, List.map_map]
  have : ∀ L : List (Node d), (∀ n ∈ L, n.points.sum = prefixSum E.proj pts n.pre) →
      (L.map ((fun x => clipScale E.radius x • x) ∘ fun n => (n.privateCount : ℝ)⁻¹ • (n.points.sum + E.pcalc.stdDev • E.sumNoise n.pre))).zip
        (L.map Node.privateCount) = L.map ((fun k => (let y := (k.2 : ℝ)⁻¹ • (prefixSum E.proj pts k.1 + E.pcalc.stdDev • E.sumNoise k.1)
       (clipScale E.radius y • y, k.2))) ∘ key) := by
    intro L hL
    induction L with
    | nil => rfl
    | cons n L ih =>
      rw [List.map_cons, List.map_cons, List.map_cons, List.zip_cons_cons, ih fun m hm => hL m (List.mem_cons_of_mem _ hm)]
      congr 1
      simp only [Function.comp_apply, key, hL n List.mem_cons_self]
  exact this (leaves T) hpts

/-- Only the counts of the prefixes up to the maximal depth matter. -/
lemma skelLevels_congr (t : TreeParam) (c c' : List Bool → ℤ) (N : ℕ) (h : ∀ p : List Bool, p.length ≤ N → c p = c' p) (fuel : ℕ) :
    ∀ (i : ℕ) (L : List (List Bool × ℤ)), i + fuel ≤ N → (∀ k ∈ L, k.1.length = i) → skelLevels t c fuel L = skelLevels t c' fuel L := by
  induction fuel with
  | zero => intros; rfl
  | succ fuel ih =>
    intro i L hi hl
    have : skelNext t c L = skelNext t c' L := by
      unfold skelNext
      congr 1
      rw [List.flatMap_congr]
      intro k hk
      have := hl k (List.mem_of_mem_filter hk)
      rw [h, h] <;> simp <;> omega
    unfold skelLevels
    rw [this]
    split_ifs with he
    · rfl
    · congr 1
      refine ih (i + 1) _ (by omega) fun k hk => ?_
      obtain ⟨h1, _, _, h4⟩ := mem_skelNext hk
      obtain ⟨m, hm, hmk⟩ := List.mem_map.1 h4
      have := hl m hm
      have hp : 0 < k.1.length := List.length_pos_iff.2 h1
      rw [hmk, List.length_dropLast] at this
      omega

end Verif.Clustering
