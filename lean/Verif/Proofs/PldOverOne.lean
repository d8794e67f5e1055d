import Verif.Props.Pld

/-! # Proofs: a truncated self-composition whose infinity mass exceeds one -/

namespace Verif
open Verif.Spec Verif.PldPmf Verif.Pld PldCommon

/-- loss 0 with mass 1/2, infinite loss with mass 1/2, stored densely -/
noncomputable def halfInf : Dense := ⟨1, 0, [1/2], 1/2, true⟩

lemma halfInf_ok : (Pmf.dense halfInf).WF ∧ (Pmf.dense halfInf).NonNeg ∧ totalMass (.dense halfInf) = 1 ∧
    0 < finiteMass halfInf.points := by
  have e : finiteMass halfInf.points = 1/2 := by
    unfold finiteMass; simp [halfInf, Dense.points, expect]
  refine ⟨by simp [Pmf.WF, halfInf], ⟨by simp [Pmf.infinityMass, halfInf], ?_⟩, ?_, by rw [e]; norm_num⟩
  · intro x hx
    have hx' : x ∈ halfInf.points := hx
    simp [halfInf, Dense.points] at hx'
    rw [hx']; norm_num
  · unfold totalMass
    have h1 : (Pmf.dense halfInf).infinityMass = 1/2 := rfl
    have h2 : finiteMass (Pmf.dense halfInf).points = 1/2 := e
    rw [h1, h2]; norm_num

lemma log_two_thirds : -1 < Real.log (2/3) ∧ Real.log (2/3) < 0 := by
  refine ⟨?_, Real.log_neg (by norm_num) (by norm_num)⟩
  rw [Real.lt_log_iff_exp_lt (by norm_num), Real.exp_neg]
  have : (2 : ℝ) < Real.exp 1 := by
    have := Real.add_one_lt_exp (x := 1) (by norm_num); linarith
  rw [inv_lt_comm₀ (Real.exp_pos _) (by norm_num)]
  linarith

lemma boundsLoop_half (orders : List ℝ) (h : ∀ o ∈ orders, 1 ≤ o ∨ o ≤ -1) : boundsLoop [1/2] 2 (3/4) orders 0 0 = .ok (0, 0) := by
  induction orders with
  | nil => rfl
  | cons o os ih =>
    have ho := h o (by simp)
    have e : mgf o 0 [1/2] = 1/2 := by simp [mgf]
    have e2 : ((2 : ℕ) : ℝ) * Real.log (1/2) + Real.log (2 / (3/4)) = Real.log (2/3) := by
      push_cast
      have : (2 : ℝ) * Real.log (1/2) = Real.log ((1/2)^2) := by rw [Real.log_pow]; norm_num
      rw [this, ← Real.log_mul (by norm_num) (by norm_num)]; norm_num
    obtain ⟨l1, l2⟩ := log_two_thirds
    rw [boundsLoop, if_neg (by norm_num), if_neg (by rcases ho with h | h <;> linarith), e, if_neg (by norm_num), if_neg (by norm_num)]
    simp only [e2]
    rcases ho with ho | ho
    · rw [if_pos (by linarith)]
      have : ⌈Real.log (2/3) / o⌉ = 0 := by
        rw [Int.ceil_eq_iff]
        constructor
        · rw [lt_div_iff₀ (by linarith)]; push_cast; nlinarith
        · rw [div_le_iff₀ (by linarith)]; push_cast; nlinarith
      rw [this]; exact ih fun x hx => h x (by simp [hx])
    · rw [if_neg (by linarith)]
      have : ⌊Real.log (2/3) / o⌋ = 0 := by
        rw [Int.floor_eq_iff]
        constructor
        · push_cast; exact div_nonneg_of_nonpos l2.le (by linarith)
        · rw [div_lt_iff_of_neg (by linarith)]; push_cast; nlinarith
      rw [this]; exact ih fun x hx => h x (by simp [hx])

lemma selfConvolve_half {nfl : ℕ → ℕ} (hnfl : ∀ k, k ≤ nfl k) : ∃ ps, ps ≠ [] ∧ selfConvolve nfl [1/2] 2 (3/4) = .ok (0, ps) := by
  unfold selfConvolve computeSelfConvolveBounds
  have e : (([(1/2 : ℝ)].length : ℤ) - 1) * ((2 : ℕ) : ℤ) = 0 := by simp
  rw [if_neg (by simp), if_neg (by norm_num), e, boundsLoop_half]
  · refine ⟨_, ?_, rfl⟩
    have h1 := hnfl 1
    simp only [sliceTo]
    rw [if_pos (by norm_num)]
    have : (max ((0 : ℤ) - 0 + 1) ([(1/2 : ℝ)].length : ℤ)).toNat = 1 := by simp
    rw [this]
    intro h0
    have := congrArg List.length h0
    simp at this
    omega
  · intro o ho
    unfold defaultOrders at ho
    obtain ⟨k, hk, rfl⟩ := List.mem_map.1 ho
    simp only [List.length_singleton, Nat.cast_one, div_one]
    have : k ≤ -1 ∨ 1 ≤ k := by
      simp only [pyRange, List.mem_append, List.mem_map, List.mem_range] at hk
      rcases hk with ⟨a, h1, h2⟩ | ⟨a, h1, h2⟩
      · left; simp at h1; omega
      · right; omega
    rcases this with h | h
    · right; exact_mod_cast h
    · left; exact_mod_cast h

lemma exists_big (pts : List (ℤ × ℝ)) (disc : ℝ) : ∃ e : ℝ, expect pts (fun k => hinge (e : EReal) (k * disc)) = 0 ∧ 0 ≤ e := by
  suffices h : ∃ e : ℝ, 0 ≤ e ∧ ∀ x ∈ pts, (x.1 : ℝ) * disc ≤ e by
    obtain ⟨e, h0, h⟩ := h
    refine ⟨e, ?_, h0⟩
    have : expect pts (fun k => hinge (e : EReal) (k * disc)) = expect pts (fun _ => 0) := by
      refine expect_congr fun x hx => ?_
      rw [hinge_coe]
      have := h x hx
      apply max_eq_left
      have : 1 ≤ Real.exp (e - x.1 * disc) := Real.one_le_exp (by linarith)
      linarith
    rw [this]; simp
  induction pts with
  | nil => exact ⟨0, le_rfl, by simp⟩
  | cons a l ih =>
    obtain ⟨e, h0, h⟩ := ih
    refine ⟨max e (a.1 * disc), le_max_of_le_left h0, ?_⟩
    intro x hx
    rcases List.mem_cons.1 hx with rfl | hx
    · exact le_max_right _ _
    · exact (h x hx).trans (le_max_left _ _)

end Verif
