import Verif.Proofs.ConnectDots

/-! # The fixed-gap variant of connect-the-dots -/

namespace Verif.PldPmf
open Verif Verif.Spec

lemma gap_probs {h : ℝ} (hh : 0 < h) (c x : ℝ) (xs : List ℝ) :
    List.zipWith (fun a b => max 0 (a + b)) (c :: (x :: xs).map fun d => d / (Real.exp (-h) - 1))
      ((x :: xs).map (fun d => d / (Real.exp h - 1)) ++ [0]) =
    ((c + x / (Real.exp h - 1)) :: List.zipWith (fun a b => (a - b * Real.exp h) / (Real.exp h - 1)) xs (x :: xs).dropLast ++
      [(x :: xs).getLastD 0 / (Real.exp (-h) - 1)]).map fun p => max 0 p := by
  induction xs generalizing c x with
  | nil => simp
  | cons y ys ih =>
    have := ih (x / (Real.exp (-h) - 1)) y
    rw [List.map_cons, List.map_cons (l := y :: ys), List.cons_append, List.zipWith_cons_cons, this]
    have e1 : x / (Real.exp (-h) - 1) + y / (Real.exp h - 1) = (y - x * Real.exp h) / (Real.exp h - 1) := by
      have p : Real.exp h - 1 ≠ 0 := by
        have := Real.add_one_lt_exp hh.ne'; intro h0; linarith
      have p' : (1 : ℝ) - Real.exp h ≠ 0 := fun h0 => p (by linarith)
      have : Real.exp (-h) - 1 = (1 - Real.exp h) / Real.exp h := by
        rw [Real.exp_neg]; field_simp
      rw [this, div_div_eq_mul_div]
      field_simp
      ring
    rw [e1]
    simp

lemma npDiff_range (a : ℤ) (n : ℕ) : npDiff ((List.range n).map fun (i : ℕ) => a + (i : ℤ)) = List.replicate (n - 1) 1 := by
  induction n generalizing a with
  | zero => rfl
  | succ n ih =>
    rw [List.range_succ_eq_map, List.map_cons, List.map_map]
    have h : ((List.range n).map ((fun (i : ℕ) => a + (i : ℤ)) ∘ Nat.succ)) = (List.range n).map fun (i : ℕ) => (a + 1) + (i : ℤ) := by
      apply List.map_congr_left; intro i _; simp; ring
    rw [h]
    cases n with
    | zero => rfl
    | succ n =>
      have h1 := ih (a + 1)
      rw [List.range_succ_eq_map, List.map_cons] at h1 ⊢
      rw [npDiff, h1]
      simp [List.replicate_succ]

lemma zipWith_replicate (f : ℝ → ℝ → ℝ) (x : ℝ) (l : List ℝ) (n : ℕ) (hn : l.length = n) :
    List.zipWith f l (List.replicate n x) = l.map fun a => f a x := by
  subst hn
  induction l with
  | nil => rfl
  | cons a l ih => simp [List.replicate_succ, ih]

lemma fixedGap_eq {disc : ℝ} (hd : 0 < disc) (lower upper : ℤ) (deltas : List ℝ) :
    connectDotsFixedGap disc lower upper deltas = connectDots disc (PldCommon.pyRange lower (upper + 1)) deltas := by
  unfold connectDotsFixedGap connectDots
  have hlen : (PldCommon.pyRange lower (upper + 1)).length = (upper + 1 - lower).toNat := by simp [PldCommon.pyRange]
  by_cases h1 : upper < lower
  · rw [if_pos h1, if_pos (Or.inr (by rw [hlen]; omega))]
  rw [if_neg h1]
  by_cases h2 : (deltas.length : ℤ) ≠ upper - lower + 1
  · rw [if_pos h2, if_pos (Or.inl (by rw [hlen]; omega))]
  rw [if_neg h2]
  push Not at h2
  rw [if_neg (c := (PldCommon.pyRange lower (upper + 1)).length ≠ deltas.length ∨ _) (by rw [hlen]; omega)]
  have hdiff : (npDiff (PldCommon.pyRange lower (upper + 1))).map (fun (k : ℤ) => (k : ℝ) * disc) =
      List.replicate (deltas.length - 1) disc := by
    unfold PldCommon.pyRange
    rw [npDiff_range, List.map_replicate]
    congr 1
    · omega
    · simp
  simp only [hdiff]
  rw [if_neg (c := ∃ x ∈ List.replicate (deltas.length - 1) disc, x ≤ 0) (by
    rintro ⟨x, hx, h0⟩; rw [List.eq_of_mem_replicate hx] at h0; linarith)]
  by_cases h3 : (∃ d ∈ deltas, d < 0) ∨ ∃ d ∈ deltas, d > 1
  · rw [if_pos h3, if_pos h3]
  rw [if_neg h3, if_neg h3]
  rw [zipWith_replicate _ _ _ _ (npDiff_length deltas), zipWith_replicate _ _ _ _ (npDiff_length deltas)]
  by_cases h4 : lower = upper
  · subst h4
    rw [if_pos rfl]
    obtain ⟨d, rfl⟩ : ∃ d, deltas = [d] := List.length_eq_one_iff.1 (by omega)
    push Not at h3
    have : d ≤ 1 := h3.2 d (by simp)
    simp [npDiff, PldCommon.pyRange, dictOfZip, PyDict.set, this]
  · rw [if_neg h4]
    by_cases h5 : ∃ x ∈ npDiff deltas, x > 0
    · rw [if_pos h5, if_pos h5]
    rw [if_neg h5, if_neg h5]
    have hne : npDiff deltas ≠ [] := by
      intro h
      have := npDiff_length deltas
      rw [h] at this; simp at this; omega
    obtain ⟨x, xs, hx⟩ := List.exists_cons_of_ne_nil hne
    rw [hx, gap_probs hd]
    simp

end Verif.PldPmf
