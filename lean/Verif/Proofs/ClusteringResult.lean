import Verif.Model.ClusteringResult
import Verif.Spec.ClusteringResult
import Mathlib.Algebra.BigOperators.Ring.Finset
import Mathlib.Algebra.Order.BigOperators.Group.Finset
import Mathlib.Data.List.OfFn
import Mathlib.Tactic.Linarith
import Mathlib.Tactic.Ring
import Mathlib.Tactic.FieldSimp

/-! # Lemmas on the labels and the metrics of a clustering -/

namespace Verif.Clustering
open Verif.Spec

variable {d : ℕ}

lemma argmin_spec : ∀ {l : List ℝ} {i : ℕ} {v : ℝ}, argmin l = some (i, v) →
    ∃ h : i < l.length, l[i] = v ∧ (∀ j (hj : j < l.length), v ≤ l[j]) ∧ ∀ j (hj : j < l.length), j < i → v < l[j]
  | [], _, _, h => by simp [argmin] at h
  | x :: xs, i, v, h => by
    unfold argmin at h
    cases hx : argmin xs with
    | none =>
      rw [hx] at h
      simp only [Option.some.injEq, Prod.mk.injEq] at h
      obtain ⟨rfl, rfl⟩ := h
      have : xs = [] := by
        cases xs with
        | nil => rfl
        | cons y ys => unfold argmin at hx; split at hx <;> [skip; split_ifs at hx] <;> cases hx
      subst this
      refine ⟨by simp, by simp, fun j hj => ?_, fun j _ hj => absurd hj (by omega)⟩
      obtain rfl : j = 0 := by simp at hj; omega
      simp
    | some p =>
      obtain ⟨k, y⟩ := p
      rw [hx] at h
      obtain ⟨hk, h1, h2, h3⟩ := argmin_spec hx
      simp only [] at h
      split_ifs at h with hle
      · simp only [Option.some.injEq, Prod.mk.injEq] at h
        obtain ⟨rfl, rfl⟩ := h
        refine ⟨by simp, by simp, fun j hj => ?_, fun j _ hj => absurd hj (by omega)⟩
        cases j with
        | zero => simp
        | succ j => simpa using hle.trans (h2 j (by simpa using hj))
      · simp only [Option.some.injEq, Prod.mk.injEq] at h
        obtain ⟨rfl, rfl⟩ := h
        refine ⟨by simpa using hk, by simpa using h1, fun j hj => ?_, fun j hj hji => ?_⟩
        · cases j with
          | zero => simpa using (not_le.1 hle).le
          | succ j => simpa using h2 j (by simpa using hj)
        · cases j with
          | zero => simpa using not_le.1 hle
          | succ j => simpa using h3 j (by simpa using hj) (by omega)

lemma argmin_some {l : List ℝ} (h : l ≠ []) : ∃ p, argmin l = some p := by
  cases l with
  | nil => exact absurd rfl h
  | cons x xs =>
    unfold argmin
    split
    · exact ⟨_, rfl⟩
    · split_ifs <;> exact ⟨_, rfl⟩

/-- A closest center, the first one of several. -/
def IsClosest (centers : List (Point d)) (x : Point d) (r : ℤ × ℝ) : Prop :=
  ∃ (i : ℕ) (h : i < centers.length), r.1 = i ∧ r.2 = squaredDistance centers[i] x ∧ (∀ j (hj : j < centers.length), r.2 ≤ squaredDistance centers[j] x) ∧
    ∀ j (hj : j < centers.length), j < i → r.2 < squaredDistance centers[j] x

lemma closestCenter_ok {centers : List (Point d)} (hc : centers ≠ []) (x : Point d) : ∃ r, closestCenter centers x = .ok r ∧ IsClosest centers x r := by
  obtain ⟨⟨i, v⟩, hp⟩ := argmin_some (l := centers.map fun c => squaredDistance c x) (by simpa using hc)
  obtain ⟨h, h1, h2, h3⟩ := argmin_spec hp
  refine ⟨((i : ℤ), v), by unfold closestCenter; rw [hp], i, by simpa using h, rfl, by simpa using h1.symm, fun j hj => ?_, fun j hj hji => ?_⟩
  · have := h2 j (by simpa using hj)
    rwa [List.getElem_map] at this
  · have := h3 j (by simpa using hj) hji
    rwa [List.getElem_map] at this

lemma closestCenters_ok {centers : List (Point d)} (hc : centers ≠ []) : ∀ pts : List (Point d),
    ∃ rs, closestCenters centers pts = .ok rs ∧ List.Forall₂ (IsClosest centers) pts rs
  | [] => ⟨[], rfl, .nil⟩
  | x :: xs => by
    obtain ⟨r, h1, h2⟩ := closestCenter_ok hc x
    obtain ⟨rs, h3, h4⟩ := closestCenters_ok hc xs
    refine ⟨r :: rs, ?_, .cons h2 h4⟩
    unfold closestCenters
    rw [h1, h3]
    rfl

/-! ## Counting pairs -/

section pairs
variable {n : ℕ}

lemma sq_fibres {ι : Type*} [DecidableEq ι] (f : Fin n → ι) (S : Finset ι) (hf : ∀ a, f a ∈ S) :
    ∑ s ∈ S, ((Finset.univ.filter fun a => f a = s).card) ^ 2 = (Finset.univ.filter fun p : Fin n × Fin n => f p.1 = f p.2).card := by
  classical
  rw [Finset.card_eq_sum_card_fiberwise (f := fun p : Fin n × Fin n => f p.1) (t := S) (fun p _ => hf p.1)]
  refine Finset.sum_congr rfl fun s _ => ?_
  rw [pow_two, ← Finset.card_product]
  congr 1
  ext ⟨a, b⟩
  simp only [Finset.mem_product, Finset.mem_filter, Finset.mem_univ, true_and]
  constructor
  · rintro ⟨h1, h2⟩; exact ⟨h1.trans h2.symm, h1⟩
  · rintro ⟨h1, h2⟩; exact ⟨h2, h1 ▸ h2⟩

lemma ordered_pairs {r : Fin n → Fin n → Prop} [DecidableRel r] (hs : ∀ a b, r a b → r b a) (hd : ∀ a, r a a) :
    (Finset.univ.filter fun p : Fin n × Fin n => r p.1 p.2).card = n + 2 * pairCount r := by
  classical
  have h1 : (Finset.univ.filter fun p : Fin n × Fin n => p.2 < p.1 ∧ r p.1 p.2).card = pairCount r := by
    unfold pairCount
    refine Finset.card_bij (fun p _ => (p.2, p.1)) ?_ ?_ ?_
    · rintro ⟨a, b⟩ h
      simp only [Finset.mem_filter, Finset.mem_univ, true_and] at h ⊢
      exact ⟨h.1, hs _ _ h.2⟩
    · rintro ⟨a, b⟩ _ ⟨a', b'⟩ _ h
      simp only [Prod.mk.injEq] at h ⊢
      exact ⟨h.2, h.1⟩
    · rintro ⟨a, b⟩ h
      simp only [Finset.mem_filter, Finset.mem_univ, true_and] at h
      exact ⟨(b, a), by simp only [Finset.mem_filter, Finset.mem_univ, true_and]; exact ⟨h.1, hs _ _ h.2⟩, rfl⟩
  have h2 : (Finset.univ.filter fun p : Fin n × Fin n => p.1 = p.2).card = n := by
    have : (Finset.univ.filter fun p : Fin n × Fin n => p.1 = p.2) = Finset.univ.image fun a : Fin n => (a, a) := by
      ext ⟨a, b⟩
      simp only [Finset.mem_filter, Finset.mem_univ, true_and, Finset.mem_image, Prod.mk.injEq]
      constructor
      · rintro rfl; exact ⟨a, rfl, rfl⟩
      · rintro ⟨c, rfl, rfl⟩; rfl
    rw [this, Finset.card_image_of_injective _ (fun a b h => (Prod.mk.inj h).1), Finset.card_univ, Fintype.card_fin]
  have e : (Finset.univ.filter fun p : Fin n × Fin n => r p.1 p.2) =
      ((Finset.univ.filter fun p : Fin n × Fin n => p.1 = p.2) ∪ (Finset.univ.filter fun p : Fin n × Fin n => p.1 < p.2 ∧ r p.1 p.2)) ∪
        (Finset.univ.filter fun p : Fin n × Fin n => p.2 < p.1 ∧ r p.1 p.2) := by
    ext ⟨a, b⟩
    simp only [Finset.mem_filter, Finset.mem_univ, true_and, Finset.mem_union]
    constructor
    · intro h
      rcases lt_trichotomy a b with k | k | k
      · exact .inl (.inr ⟨k, h⟩)
      · exact .inl (.inl k)
      · exact .inr ⟨k, h⟩
    · rintro ((h | h) | h)
      · exact h ▸ hd a
      · exact h.2
      · exact h.2
  rw [e, Finset.card_union_of_disjoint, Finset.card_union_of_disjoint, h1, h2]
  · have h3 : (Finset.univ.filter fun p : Fin n × Fin n => p.1 < p.2 ∧ r p.1 p.2).card = pairCount r := by
      unfold pairCount
      congr
    rw [h3]
    ring
  · rw [Finset.disjoint_left]
    rintro ⟨a, b⟩ h k
    simp only [Finset.mem_filter, Finset.mem_univ, true_and] at h k
    exact absurd k.1 (by rw [h]; exact lt_irrefl _)
  · rw [Finset.disjoint_left]
    rintro ⟨a, b⟩ h k
    simp only [Finset.mem_filter, Finset.mem_univ, true_and, Finset.mem_union] at h k
    rcases h with h | h
    · exact absurd k.1 (by rw [h]; exact lt_irrefl _)
    · exact absurd k.1 (not_lt.2 h.1.le)

lemma pairCount_split (r q : Fin n → Fin n → Prop) :
    pairCount r = pairCount (fun a b => r a b ∧ q a b) + pairCount (fun a b => r a b ∧ ¬ q a b) := by
  classical
  unfold pairCount
  rw [← Finset.card_union_of_disjoint]
  · congr 1
    ext p
    simp only [Finset.mem_filter, Finset.mem_univ, true_and, Finset.mem_union]
    tauto
  · rw [Finset.disjoint_left]
    intro p h k
    simp only [Finset.mem_filter, Finset.mem_univ, true_and] at h k
    exact k.2.2 h.2.2

lemma pairCount_mono {r q : Fin n → Fin n → Prop} (h : ∀ a b, r a b → q a b) : pairCount r ≤ pairCount q := by
  classical
  unfold pairCount
  refine Finset.card_le_card fun p hp => ?_
  simp only [Finset.mem_filter, Finset.mem_univ, true_and] at hp ⊢
  exact ⟨hp.1, h _ _ hp.2⟩

end pairs

/-! ## The histogram -/

lemma npMax_spec : ∀ {l : List ℤ}, l ≠ [] → ∃ M, npMax l = .ok M ∧ M ∈ l ∧ ∀ x ∈ l, x ≤ M
  | [], h => absurd rfl h
  | x :: xs, _ => by
    have key : ∀ (xs : List ℤ) (x : ℤ), xs.foldl max x ∈ x :: xs ∧ ∀ y ∈ x :: xs, y ≤ xs.foldl max x := by
      intro xs
      induction xs with
      | nil => intro x; simp
      | cons y ys ih =>
        intro x
        obtain ⟨h1, h2⟩ := ih (max x y)
        simp only [List.foldl_cons]
        refine ⟨?_, fun z hz => ?_⟩
        · rcases List.mem_cons.1 h1 with h | h
          · rw [h]
            rcases max_choice x y with k | k <;> rw [k] <;> simp
          · simp [h]
        · rcases List.mem_cons.1 hz with rfl | hz
          · exact (le_max_left z y).trans (h2 _ (by simp))
          · rcases List.mem_cons.1 hz with rfl | hz
            · exact (le_max_right x z).trans (h2 _ (by simp))
            · exact h2 _ (by simp [hz])
    exact ⟨_, rfl, (key xs x).1, (key xs x).2⟩

lemma countP_ofFn {α : Type*} (p : α → Bool) : ∀ {n : ℕ} (f : Fin n → α), (List.ofFn f).countP p = (Finset.univ.filter fun a => p (f a) = true).card
  | 0, f => by simp
  | n + 1, f => by
    classical
    rw [List.ofFn_succ, List.countP_cons, countP_ofFn p, Finset.card_filter, Finset.card_filter, Fin.sum_univ_succ, add_comm]

lemma zip_ofFn {α β : Type*} : ∀ {n : ℕ} (f : Fin n → α) (g : Fin n → β), (List.ofFn f).zip (List.ofFn g) = List.ofFn fun a => (f a, g a)
  | 0, _, _ => by simp
  | n + 1, f, g => by simp [List.ofFn_succ, zip_ofFn]

variable {n : ℕ}

/-- The histogram of the points with clusters `c` and labels `t`. -/
lemma histogram_ok (hn : 0 < n) {c t : Fin n → ℤ} (ht : ∃ a, 0 ≤ t a) : ∃ K L : ℕ, 0 < L ∧ (∀ a, c a < K) ∧ (∀ a, t a < L) ∧
    crossLabelHistogram (List.ofFn c) (some (List.ofFn t)) =
      .ok ⟨K, L, fun i j => (Finset.univ.filter fun a => c a = (i : ℤ) ∧ t a = (j : ℤ)).card⟩ := by
  have hne : ∀ f : Fin n → ℤ, List.ofFn f ≠ [] := by
    intro f h
    have := congrArg List.length h
    simp at this
    omega
  obtain ⟨M, h1, _, h2⟩ := npMax_spec (hne c)
  obtain ⟨M', h3, _, h4⟩ := npMax_spec (hne t)
  have h2 : ∀ a, c a ≤ M := fun a => h2 _ (List.mem_ofFn.2 ⟨a, rfl⟩)
  have h4 : ∀ a, t a ≤ M' := fun a => h4 _ (List.mem_ofFn.2 ⟨a, rfl⟩)
  obtain ⟨a0, ha0⟩ := ht
  have hM' : 0 ≤ M' := ha0.trans (h4 a0)
  refine ⟨(M + 1).toNat, (M' + 1).toNat, by omega, fun a => by have := h2 a; omega, fun a => by have := h4 a; omega, ?_⟩
  unfold crossLabelHistogram
  simp only [h1, h3]
  change (if M' < -1 then _ else _) = _
  rw [if_neg (by omega), zip_ofFn]
  simp only [countP_ofFn, decide_eq_true_eq]

section counts
variable {K L : ℕ} {c t : Fin n → ℕ} (hc : ∀ a, c a < K) (ht : ∀ a, t a < L)

lemma cell_row (i : ℕ) (ht : ∀ a, t a < L) : ∑ j ∈ Finset.range L, (Finset.univ.filter fun a => c a = i ∧ t a = j).card = (Finset.univ.filter fun a => c a = i).card := by
  rw [Finset.card_eq_sum_card_fiberwise (f := t) (t := Finset.range L) (fun a _ => by simpa using ht a)]
  refine Finset.sum_congr rfl fun j _ => ?_
  rw [Finset.filter_filter]

lemma cell_col (j : ℕ) (hc : ∀ a, c a < K) : ∑ i ∈ Finset.range K, (Finset.univ.filter fun a => c a = i ∧ t a = j).card = (Finset.univ.filter fun a => t a = j).card := by
  rw [Finset.card_eq_sum_card_fiberwise (f := c) (t := Finset.range K) (fun a _ => by simpa using hc a)]
  refine Finset.sum_congr rfl fun i _ => ?_
  rw [Finset.filter_filter]
  congr 1
  ext a
  simp [and_comm]

lemma fibre_sum (hc : ∀ a, c a < K) : ∑ i ∈ Finset.range K, (Finset.univ.filter fun a => c a = i).card = n := by
  have := Finset.card_eq_sum_card_fiberwise (s := (Finset.univ : Finset (Fin n))) (f := c) (t := Finset.range K) (fun a _ => by simpa using hc a)
  rw [← this, Finset.card_univ, Fintype.card_fin]

lemma fibre_sq (hc : ∀ a, c a < K) : ∑ i ∈ Finset.range K, ((Finset.univ.filter fun a => c a = i).card) ^ 2 = n + 2 * pairCount fun a b => c a = c b := by
  rw [sq_fibres c (Finset.range K) (fun a => by simpa using hc a), ordered_pairs (r := fun a b => c a = c b) (fun a b h => h.symm) (fun a => rfl)]

lemma cell_sq (hc : ∀ a, c a < K) (ht : ∀ a, t a < L) :
    ∑ i ∈ Finset.range K, ∑ j ∈ Finset.range L, ((Finset.univ.filter fun a => c a = i ∧ t a = j).card) ^ 2 =
      n + 2 * pairCount fun a b => c a = c b ∧ t a = t b := by
  have h := sq_fibres (fun a => (c a, t a)) (Finset.range K ×ˢ Finset.range L) (fun a => by simp [hc a, ht a])
  rw [Finset.sum_product] at h
  simp only [Prod.mk.injEq] at h
  rw [h, ordered_pairs (r := fun a b => c a = c b ∧ t a = t b) (fun a b h => ⟨h.1.symm, h.2.symm⟩) (fun a => ⟨rfl, rfl⟩)]

lemma all_pairs : n * n = n + 2 * pairCount fun _ _ : Fin n => True := by
  rw [← ordered_pairs (r := fun _ _ : Fin n => True) (fun _ _ _ => trivial) (fun _ => trivial)]
  simp

lemma dominant_greatest (hL : 0 < L) (hc : ∀ a, c a < K) (ht : ∀ a, t a < L) :
    IsGreatest {N | ∃ g : ℕ → ℕ, (Finset.univ.filter fun a => g (c a) = t a).card = N}
      (∑ i ∈ Finset.range K, (Finset.range L).sup fun j => (Finset.univ.filter fun a => c a = i ∧ t a = j).card) := by
  have key : ∀ g : ℕ → ℕ, (Finset.univ.filter fun a => g (c a) = t a).card =
      ∑ i ∈ Finset.range K, (Finset.univ.filter fun a => c a = i ∧ t a = g i).card := by
    intro g
    rw [Finset.card_eq_sum_card_fiberwise (f := c) (t := Finset.range K) (fun a _ => by simpa using hc a)]
    refine Finset.sum_congr rfl fun i _ => ?_
    rw [Finset.filter_filter]
    congr 1
    ext a
    simp only [Finset.mem_filter, Finset.mem_univ, true_and]
    constructor
    · rintro ⟨h1, h2⟩; exact ⟨h2, by rw [← h1, h2]⟩
    · rintro ⟨h1, h2⟩; exact ⟨by rw [h1, h2], h1⟩
  constructor
  · have : ∀ i, ∃ j ∈ Finset.range L, ((Finset.range L).sup fun j => (Finset.univ.filter fun a => c a = i ∧ t a = j).card) =
        (Finset.univ.filter fun a => c a = i ∧ t a = j).card :=
      fun i => Finset.exists_mem_eq_sup _ ⟨0, by simpa using hL⟩ _
    choose g _ hg using this
    refine ⟨g, ?_⟩
    rw [key]
    exact Finset.sum_congr rfl fun i _ => (hg i).symm
  · rintro N ⟨g, rfl⟩
    rw [key]
    refine Finset.sum_le_sum fun i _ => ?_
    by_cases h : g i < L
    · exact Finset.le_sup (f := fun j => (Finset.univ.filter fun a => c a = i ∧ t a = j).card) (by simpa using h)
    · rw [Finset.card_eq_zero.2]
      · exact Nat.zero_le _
      · rw [Finset.filter_eq_empty_iff]
        rintro a - ⟨_, h2⟩
        exact h (h2 ▸ ht a)

end counts

end Verif.Clustering
