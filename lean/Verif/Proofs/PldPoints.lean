import Verif.Proofs.PldEpsilon

/-! From stored PMFs to their points. -/

namespace Verif
open Spec

namespace PyDict

lemma map_get_keys {d : PyDict} (h : d.keys.Nodup) : (d.keys.map fun k => (k, d.get k)) = d := by
  induction d with
  | nil => rfl
  | cons x d ih =>
    obtain ⟨k, v⟩ := x
    have hn : k ∉ keys d ∧ (keys d).Nodup := by simpa [keys] using h
    have e1 : keys ((k, v) :: d) = k :: keys d := rfl
    rw [e1, List.map_cons]
    congr 1
    · simp [get]
    · conv_rhs => rw [← ih hn.2]
      apply List.map_congr_left
      intro j hj
      have : k ≠ j := fun e => hn.1 (e ▸ hj)
      simp [get, this]

lemma sortedKeys_perm (d : PyDict) : d.sortedKeys.Perm d.keys := List.mergeSort_perm _ _

lemma sortedKeys_sorted (d : PyDict) : d.sortedKeys.Pairwise (· ≤ ·) := by
  have := List.pairwise_mergeSort (le := fun a b : ℤ => decide (a ≤ b))
    (by intro a b c h1 h2; simp only [decide_eq_true_eq] at *; omega)
    (by intro a b; simp only [Bool.or_eq_true, decide_eq_true_eq]; omega) d.keys
  unfold sortedKeys
  exact this.imp (by simp)

lemma sorted_points_perm {d : PyDict} (h : d.keys.Nodup) :
    (d.sortedKeys.map fun k => (k, d.get k)).Perm d := by
  have := (sortedKeys_perm d).map (fun k => (k, d.get k))
  rwa [map_get_keys h] at this

end PyDict

/-- Points with real losses. -/
noncomputable def scalePts (disc : ℝ) (pts : List (ℤ × ℝ)) : List (ℝ × ℝ) := pts.map fun x => ((x.1 : ℝ) * disc, x.2)

lemma hsum_scalePts (e : EReal) (disc : ℝ) (pts : List (ℤ × ℝ)) :
    hsum e (scalePts disc pts) = expect pts fun k => hinge e (k * disc) := by
  simp [hsum, scalePts, expect, Function.comp_def]

lemma scalePts_perm {disc : ℝ} {a b : List (ℤ × ℝ)} (h : a.Perm b) : (scalePts disc a).Perm (scalePts disc b) :=
  h.map _

lemma Dense.points_length (d : Dense) : d.points.length = d.probs.length := by simp [Dense.points]

lemma Dense.zip_eq (d : Dense) : d.losses.zip d.probs = scalePts d.disc d.points := by
  apply List.ext_getElem
  · simp [Dense.losses, Dense.keys, scalePts, Dense.points]
  · intro i h1 h2
    have hi : i < d.probs.length := by simpa [scalePts, Dense.points] using h2
    simp [Dense.losses, Dense.keys, scalePts, Dense.points, hi, add_comm]

lemma Dense.reversedLosses_eq (d : Dense) : d.reversedLosses = d.losses.reverse := by
  apply List.ext_getElem
  · simp [Dense.losses, Dense.keys, Dense.reversedLosses]
  · intro i h1 h2
    have hi : i < d.probs.length := by simpa [Dense.reversedLosses] using h1
    simp only [Dense.reversedLosses, Dense.losses, Dense.keys, List.getElem_map, List.getElem_range,
      List.getElem_reverse, List.length_map, List.length_range]
    have : ((d.probs.length - 1 - i : ℕ) : ℝ) = (d.probs.length : ℝ) - 1 - i := by
      rw [Nat.cast_sub (by omega), Nat.cast_sub (by omega)]; simp
    push_cast
    rw [this]; ring

lemma zip_reverse {α β : Type} (a : List α) (b : List β) (h : a.length = b.length) :
    a.reverse.zip b.reverse = (a.zip b).reverse := by
  apply List.ext_getElem
  · simp
  · intro i h1 h2
    simp [h]

lemma Dense.losses_length (d : Dense) : d.losses.length = d.probs.length := by simp [Dense.losses, Dense.keys]

lemma Dense.losses_sorted (d : Dense) (h : 0 ≤ d.disc) : d.losses.Pairwise (· ≤ ·) := by
  unfold Dense.losses Dense.keys
  rw [List.map_map, List.pairwise_map]
  refine List.pairwise_lt_range.imp ?_
  intro a b hab
  simp only [Function.comp]
  apply mul_le_mul_of_nonneg_right _ h
  have : (a : ℝ) ≤ b := by exact_mod_cast hab.le
  push_cast
  linarith

lemma Sparse.zip_eq (s : Sparse) :
    s.losses.zip s.sortedProbs = scalePts s.disc (s.lossProbs.sortedKeys.map fun k => (k, s.lossProbs.get k)) := by
  unfold Sparse.losses Sparse.sortedProbs scalePts
  rw [List.map_map]
  exact List.zip_map'

lemma Sparse.zip_perm (s : Sparse) (h : s.lossProbs.keys.Nodup) :
    (s.losses.zip s.sortedProbs).Perm (scalePts s.disc s.lossProbs) := by
  rw [Sparse.zip_eq]
  exact scalePts_perm (PyDict.sorted_points_perm h)

lemma Sparse.losses_sorted (s : Sparse) (h : 0 ≤ s.disc) : s.losses.Pairwise (· ≤ ·) := by
  unfold Sparse.losses
  rw [List.pairwise_map]
  refine (PyDict.sortedKeys_sorted _).imp ?_
  intro a b hab
  apply mul_le_mul_of_nonneg_right _ h
  exact_mod_cast hab

lemma Dense.getDelta_eq_hs (d : Dense) (e : EReal) :
    d.getDeltaForEpsilon e = (Pmf.dense d).hs e := by
  unfold Dense.getDeltaForEpsilon Pmf.hs hockeyStick
  rw [getDelta_eq, Dense.zip_eq, hsum_scalePts]; rfl

lemma Sparse.getDelta_eq_hs (s : Sparse) (h : s.lossProbs.keys.Nodup) (e : EReal) :
    s.getDeltaForEpsilon e = (Pmf.sparse s).hs e := by
  unfold Sparse.getDeltaForEpsilon Pmf.hs hockeyStick
  rw [getDelta_eq, hsum_perm (s.zip_perm h), hsum_scalePts]; rfl

lemma Pmf.getDelta_eq_hs (m : Pmf) (h : m.WF) (e : EReal) : m.getDeltaForEpsilon e = m.hs e := by
  cases m with
  | dense d => exact d.getDelta_eq_hs e
  | sparse s => exact s.getDelta_eq_hs h.2 e

lemma Pmf.getDeltas_eq (m : Pmf) (h : m.WF) (es : List EReal) (hs : es.Pairwise (· ≤ ·)) :
    m.getDeltaForEpsilons es = .ok (es.map m.hs) := by
  cases m with
  | dense d =>
    have h1 : 0 < d.disc := h
    simp only [Pmf.getDeltaForEpsilons, Dense.getDeltaForEpsilons]
    rw [getDeltaVectorized_eq _ _ _ _ (d.losses_sorted h1.le) hs]
    congr 1; apply List.map_congr_left; intro e _; exact d.getDelta_eq_hs e
  | sparse s =>
    have h1 : 0 < s.disc := h.1
    simp only [Pmf.getDeltaForEpsilons, Sparse.getDeltaForEpsilons]
    rw [getDeltaVectorized_eq _ _ _ _ (s.losses_sorted h1.le) hs]
    congr 1; apply List.map_congr_left; intro e _; exact s.getDelta_eq_hs h.2 e

lemma Pmf.getDeltas_unsorted (m : Pmf) (es : List EReal) (hs : ¬ es.Pairwise (· ≤ ·)) :
    m.getDeltaForEpsilons es = .error .valueError := by
  have : ¬ es.IsChain (· ≤ ·) := fun h => hs (List.isChain_iff_pairwise.1 h)
  cases m <;>
    simp [Pmf.getDeltaForEpsilons, Dense.getDeltaForEpsilons, Sparse.getDeltaForEpsilons,
      PldPmf.getDeltaVectorized, this]

lemma hs_mono_of_nonneg {m : Pmf} (h : m.NonNeg) {e1 e2 : EReal} (he : e1 ≤ e2) : m.hs e2 ≤ m.hs e1 := by
  unfold Pmf.hs hockeyStick
  have := expect_mono h.2 (φ := fun k => hinge e2 (k * m.disc)) (ψ := fun k => hinge e1 (k * m.disc))
    (fun x _ => hinge_antitone he _)
  linarith

/-- `_get_epsilon_for_delta` on a stored PMF, in terms of its meaning. `head` is the mass at the largest key. -/
lemma Pmf.getEpsilon_spec (m : Pmf) (h : m.WF) (hn : m.NonNeg) (δ : ℝ) :
    (m.getEpsilonForDelta δ = ⊤ ↔ δ < m.infinityMass) ∧
    (m.infinityMass ≤ δ → ∃ r : ℝ, m.getEpsilonForDelta δ = (r : EReal) ∧ 0 ≤ r ∧ m.hs r ≤ δ ∧
      ((m.infinityMass < δ ∨ ∀ x ∈ m.points, (∀ y ∈ m.points, y.1 ≤ x.1) → 0 < x.2) →
        ∀ e : ℝ, 0 ≤ e → e < r → δ < m.hs e)) := by
  cases m with
  | dense d =>
    have h1 : 0 < d.disc := h
    have hpr : ∀ p ∈ d.probs.reverse, 0 ≤ p := by
      intro p hp
      obtain ⟨i, hi, rfl⟩ := List.mem_iff_getElem.1 (List.mem_reverse.1 hp)
      have := hn.2 (d.lowerLoss + (i : ℤ), d.probs.getD i 0)
        (List.mem_map.2 ⟨i, List.mem_range.2 hi, rfl⟩)
      simpa [hi] using this
    have hz : ∀ e, d.infinityMass + hsum e (d.reversedLosses.zip d.probs.reverse) = (Pmf.dense d).hs e := by
      intro e
      rw [Dense.reversedLosses_eq, zip_reverse _ _ d.losses_length, hsum_perm (List.reverse_perm _),
        Dense.zip_eq, hsum_scalePts]; rfl
    have key := Verif.getEpsilon_spec δ d.infinityMass d.reversedLosses d.probs.reverse hpr
      (by rw [Dense.reversedLosses_eq, List.pairwise_reverse]; exact d.losses_sorted h1.le)
    refine ⟨key.1, fun hle => ?_⟩
    obtain ⟨r, hr1, hr2, hr3, hr4⟩ := key.2 hle
    refine ⟨r, hr1, hr2, by rwa [hz] at hr3, fun hc e h1 h2 => ?_⟩
    rw [← hz]
    refine hr4 ?_ e h1 h2
    rcases hc with hc | hc
    · exact Or.inl hc
    · right
      intro x hx
      rw [Dense.reversedLosses_eq, zip_reverse _ _ d.losses_length, List.head?_reverse, Dense.zip_eq] at hx
      simp only [scalePts, List.getLast?_map, Option.mem_def, Option.map_eq_some_iff] at hx
      obtain ⟨y, hy, rfl⟩ := hx
      refine hc y (List.mem_of_getLast? hy) ?_
      intro z hz
      have hlast : y = (d.lowerLoss + ((d.probs.length - 1 : ℕ) : ℤ), d.probs.getD (d.probs.length - 1) 0) := by
        have hne : d.probs.length ≠ 0 := by
          intro h0; simp [Dense.points, h0] at hy
        rw [List.getLast?_eq_getElem?] at hy
        simp only [Dense.points, List.length_map, List.length_range] at hy
        rw [List.getElem?_map, List.getElem?_range (by omega)] at hy
        simpa using hy.symm
      obtain ⟨i, hi, rfl⟩ := List.mem_map.1 hz
      have := List.mem_range.1 hi
      rw [hlast]; simp only; omega
  | sparse s =>
    have h1 : 0 < s.disc := h.1
    have hperm := PyDict.sorted_points_perm h.2
    have hpr : ∀ p ∈ s.sortedProbs.reverse, 0 ≤ p := by
      intro p hp
      obtain ⟨k, hk, rfl⟩ := List.mem_map.1 (List.mem_reverse.1 hp)
      exact hn.2 (k, s.lossProbs.get k) (hperm.mem_iff.1 (List.mem_map.2 ⟨k, hk, rfl⟩))
    have hlen : s.losses.length = s.sortedProbs.length := by simp [Sparse.losses, Sparse.sortedProbs]
    have hz : ∀ e, s.infinityMass + hsum e (s.losses.reverse.zip s.sortedProbs.reverse) = (Pmf.sparse s).hs e := by
      intro e
      rw [zip_reverse _ _ hlen, hsum_perm (List.reverse_perm _), hsum_perm (s.zip_perm h.2), hsum_scalePts]; rfl
    have key := Verif.getEpsilon_spec δ s.infinityMass s.losses.reverse s.sortedProbs.reverse hpr
      (by rw [List.pairwise_reverse]; exact s.losses_sorted h1.le)
    refine ⟨key.1, fun hle => ?_⟩
    obtain ⟨r, hr1, hr2, hr3, hr4⟩ := key.2 hle
    refine ⟨r, hr1, hr2, by rwa [hz] at hr3, fun hc e h1 h2 => ?_⟩
    rw [← hz]
    refine hr4 ?_ e h1 h2
    rcases hc with hc | hc
    · exact Or.inl hc
    · right
      intro x hx
      rw [zip_reverse _ _ hlen, List.head?_reverse, Sparse.zip_eq] at hx
      simp only [scalePts, List.getLast?_map, Option.mem_def, Option.map_eq_some_iff] at hx
      obtain ⟨y, ⟨k, hk, rfl⟩, rfl⟩ := hx
      have hmem := hperm.mem_iff.1 (List.mem_map.2 ⟨k, List.mem_of_getLast? hk, rfl⟩)
      refine hc _ hmem ?_
      intro z hz
      have hz' : z.1 ∈ s.lossProbs.sortedKeys :=
        (PyDict.sortedKeys_perm _).mem_iff.2 (List.mem_map.2 ⟨z, hz, rfl⟩)
      obtain ⟨l, hl⟩ : ∃ l, s.lossProbs.sortedKeys = l ++ [k] := List.getLast?_eq_some_iff.1 hk
      have hso := PyDict.sortedKeys_sorted s.lossProbs
      rw [hl] at hso hz'
      rcases List.mem_append.1 hz' with hz' | hz'
      · exact (List.pairwise_append.1 hso).2.2 _ hz' k (by simp)
      · simp at hz'; simp [hz']

end Verif
