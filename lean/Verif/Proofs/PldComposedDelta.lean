import Verif.Proofs.PldCompose

/-! `get_delta_for_epsilon_for_composed_pld`. -/

namespace Verif
open Spec PldPmf PldCommon

namespace Dense

lemma lossAt_add (a b : Dense) (hd : a.disc = b.disc) (i j i' j' : ℤ) (h : i + j = i' + j') :
    a.lossAt i + b.lossAt j = a.lossAt i' + b.lossAt j' := by
  unfold lossAt
  rw [← hd]
  have : (i : ℝ) + j = i' + j' := by exact_mod_cast h
  linear_combination a.disc * this

lemma lossAt_mono (a : Dense) (h : 0 < a.disc) {i j : ℤ} (hij : i ≤ j) : a.lossAt i ≤ a.lossAt j := by
  unfold lossAt
  have : (i : ℝ) ≤ j := by exact_mod_cast hij
  nlinarith

/-- Σ_{k ≥ J} b_k -/
noncomputable def upperSum (b : Dense) (J : ℕ) : ℝ := ∑ k ∈ Finset.Ico J b.probs.length, b.probs.getD k 0

/-- Σ_{k ≥ J} b_k e^{-loss_k} -/
noncomputable def lowerSum (b : Dense) (J : ℕ) : ℝ :=
  ∑ k ∈ Finset.Ico J b.probs.length, b.probs.getD k 0 * Real.exp (-(b.lossAt k))

lemma upperSum_step (b : Dense) (J : ℕ) (h : J + 1 ≤ b.probs.length) :
    b.upperSum (J + 1) + b.probs.getD J 0 = b.upperSum J := by
  unfold upperSum; rw [Finset.sum_eq_sum_Ico_succ_bot (by omega : J < b.probs.length), add_comm]

lemma lowerSum_step (b : Dense) (J : ℕ) (h : J + 1 ≤ b.probs.length) :
    b.lowerSum (J + 1) + b.probs.getD J 0 * Real.exp (-(b.lossAt J)) = b.lowerSum J := by
  unfold lowerSum; rw [Finset.sum_eq_sum_Ico_succ_bot (by omega : J < b.probs.length), add_comm]

/-- loop invariant of the two-pointer sweep; `J = j + 1` -/
structure Inv (a b : Dense) (eps : ℝ) (i J : ℕ) (u l : ℝ) : Prop where
  le : J ≤ b.probs.length
  u : u = b.upperSum J
  l : l = b.lowerSum J
  ge : 1 ≤ J → eps ≤ a.lossAt i + b.lossAt ((J : ℤ) - 1)
  zero : J = 0 → 0 < b.probs.length → eps ≤ a.lossAt i + b.lossAt 0

lemma retreatJ_spec (a b : Dense) (hb : 0 < b.disc) (eps : ℝ) (i : ℕ) (J : ℕ) (u l : ℝ) (h : Inv a b eps i J u l) :
    let r := retreatJ a b eps i J u l
    Inv a b eps i r.1 r.2.1 r.2.2 ∧ (1 ≤ r.1 → a.lossAt i + b.lossAt ((r.1 : ℤ) - 2) < eps) := by
  induction J generalizing u l with
  | zero => simp only [retreatJ]; exact ⟨h, by omega⟩
  | succ J ih =>
    simp only [retreatJ]
    split_ifs with hc
    · apply ih
      refine ⟨by have := h.le; omega, ?_, ?_, ?_, ?_⟩
      · rw [h.u, upperSum_step b J h.le]
      · rw [h.l, lowerSum_step b J h.le]
      · intro _; exact hc
      · intro h0 _
        subst h0
        have := b.lossAt_mono hb (i := ((0 : ℕ) : ℤ) - 1) (j := 0) (by simp)
        have hc' : a.lossAt i + b.lossAt (((0 : ℕ) : ℤ) - 1) ≥ eps := hc
        linarith
    · refine ⟨h, fun _ => ?_⟩
      have e : (((J + 1 : ℕ) : ℤ)) - 2 = (J : ℤ) - 1 := by push_cast; ring
      rw [e]; exact not_le.1 hc

lemma hinge_sum (a b : Dense) (hb : 0 < b.disc) (eps : ℝ) (i J : ℕ) (hJ : J ≤ b.probs.length)
    (hge : ∀ k, J ≤ k → k < b.probs.length → eps ≤ a.lossAt i + b.lossAt k)
    (hlt : ∀ k : ℕ, k < J → a.lossAt i + b.lossAt k < eps) :
    ∑ k ∈ Finset.range b.probs.length, b.probs.getD k 0 * hinge (eps : EReal) (a.lossAt i + b.lossAt k) =
      b.upperSum J - Real.exp (eps - a.lossAt i) * b.lowerSum J := by
  rw [← Finset.sum_range_add_sum_Ico _ hJ]
  have h1 : ∑ k ∈ Finset.range J, b.probs.getD k 0 * hinge (eps : EReal) (a.lossAt i + b.lossAt k) = 0 := by
    apply Finset.sum_eq_zero
    intro k hk
    rw [hinge_of_le (by exact_mod_cast (hlt k (Finset.mem_range.1 hk)).le), mul_zero]
  rw [h1, zero_add]
  unfold upperSum lowerSum
  rw [Finset.mul_sum, ← Finset.sum_sub_distrib]
  apply Finset.sum_congr rfl
  intro k hk
  have hk' := Finset.mem_Ico.1 hk
  rw [hinge_coe, max_eq_right]
  · have : Real.exp (eps - (a.lossAt i + b.lossAt k)) = Real.exp (eps - a.lossAt i) * Real.exp (-(b.lossAt k)) := by
      rw [← Real.exp_add]; congr 1; ring
    rw [this]; ring
  · have := hge k hk'.1 hk'.2
    have : Real.exp (eps - (a.lossAt i + b.lossAt k)) ≤ 1 := by
      rw [Real.exp_le_one_iff]; linarith
    linarith

lemma sumI_spec (a b : Dense) (hd : a.disc = b.disc) (hb : 0 < b.disc) (eps : ℝ) (ps : List ℝ) (i J : ℕ) (u l delta : ℝ)
    (h : Inv a b eps i J u l) (hlt : 1 ≤ J → a.lossAt i + b.lossAt ((J : ℤ) - 2) < eps) :
    sumI a b eps ps i J u l delta = delta + wsum ps (fun m =>
      ∑ k ∈ Finset.range b.probs.length, b.probs.getD k 0 * hinge (eps : EReal) (a.lossAt ((i + m : ℕ) : ℤ) + b.lossAt k)) := by
  induction ps generalizing i J u l delta with
  | nil => simp [sumI]
  | cons p ps ih =>
    have ha : 0 < a.disc := hd ▸ hb
    have hstep : ∀ m : ℕ, i + 1 + m = i + (m + 1) := by intro m; omega
    cases J with
    | zero =>
      simp only [sumI, wsum_cons, add_zero]
      rw [ih (i + 1) (0 - 1) u l]
      · rw [hinge_sum a b hb eps i 0 (by omega)]
        · rw [h.u, h.l]
          simp only [hstep]
          ring
        · intro k _ hk
          have := h.zero rfl (by omega)
          have := b.lossAt_mono hb (i := 0) (j := (k : ℤ)) (by omega)
          linarith
        · intro k hk; omega
      · refine ⟨by simp, h.u, h.l, by simp, ?_⟩
        intro _ hpos
        have := h.zero rfl hpos
        have := a.lossAt_mono ha (i := (i : ℤ)) (j := ((i + 1 : ℕ) : ℤ)) (by omega)
        linarith
      · simp
    | succ J =>
      simp only [sumI, wsum_cons, add_zero, Nat.add_sub_cancel]
      have hJ := h.le
      have h1 := h.ge (by omega)
      have h2 := hlt (by omega)
      have e1 : (((J + 1 : ℕ) : ℤ)) - 1 = (J : ℤ) := by push_cast; ring
      have e2 : (((J + 1 : ℕ) : ℤ)) - 2 = (J : ℤ) - 1 := by push_cast; ring
      rw [e1] at h1
      rw [e2] at h2
      have hge : ∀ k, J ≤ k → k < b.probs.length → eps ≤ a.lossAt i + b.lossAt k := by
        intro k hk _
        have := b.lossAt_mono hb (i := (J : ℤ)) (j := (k : ℤ)) (by omega)
        linarith
      have hu' : u + b.probs.getD J 0 = b.upperSum J := by rw [h.u, upperSum_step b J hJ]
      have hl' : l + b.probs.getD J 0 * Real.exp (-(b.lossAt J)) = b.lowerSum J := by rw [h.l, lowerSum_step b J hJ]
      rw [ih (i + 1) J]
      · rw [hinge_sum a b hb eps i J (by omega) hge]
        · rw [hu', hl']
          simp only [hstep]
          ring
        · intro k hk
          have := b.lossAt_mono hb (i := (k : ℤ)) (j := (J : ℤ) - 1) (by omega)
          linarith
      · refine ⟨by omega, hu', hl', ?_, ?_⟩
        · intro _
          rw [lossAt_add a b hd ((i + 1 : ℕ) : ℤ) ((J : ℤ) - 1) i J (by push_cast; ring)]
          exact h1
        · intro h0 _
          subst h0
          have := a.lossAt_mono ha (i := (i : ℤ)) (j := ((i + 1 : ℕ) : ℤ)) (by omega)
          have h1' : eps ≤ a.lossAt i + b.lossAt 0 := h1
          linarith
      · intro _
        rw [lossAt_add a b hd ((i + 1 : ℕ) : ℤ) ((J : ℤ) - 2) i ((J : ℤ) - 1) (by push_cast; ring)]
        exact h2

lemma advanceI_spec (a b : Dense) (eps : ℝ) (j : ℤ) (fuel i : ℕ)
    (h : ∃ m, i ≤ m ∧ m < i + fuel ∧ eps ≤ a.lossAt m + b.lossAt j) :
    ∃ i', advanceI a b eps j fuel i = some i' ∧ i ≤ i' ∧ eps ≤ a.lossAt i' + b.lossAt j ∧
      ∀ k : ℕ, i ≤ k → k < i' → a.lossAt k + b.lossAt j < eps := by
  induction fuel generalizing i with
  | zero => obtain ⟨m, h1, h2, _⟩ := h; omega
  | succ fuel ih =>
    rw [advanceI]
    by_cases hc : a.lossAt i + b.lossAt j < eps
    · rw [if_pos hc]
      obtain ⟨m, h1, h2, h3⟩ := h
      have hne : m ≠ i := by rintro rfl; linarith
      obtain ⟨i', g1, g2, g3, g4⟩ := ih (i + 1) ⟨m, by omega, by omega, h3⟩
      refine ⟨i', g1, by omega, g3, fun k hk1 hk2 => ?_⟩
      rcases hk1.lt_or_eq with h | h
      · exact g4 k h hk2
      · subst h; exact hc
    · rw [if_neg hc]
      exact ⟨i, rfl, le_refl _, not_lt.1 hc, fun k h1 h2 => by omega⟩

lemma deltaForComposed_spec (a b : Dense) (hd : a.disc = b.disc) (hp : a.pessimistic = b.pessimistic) (hb : 0 < b.disc)
    (eps : ℝ) : a.deltaForComposed b eps = .ok (a.infinityMass + b.infinityMass - a.infinityMass * b.infinityMass +
      convE a.points b.points (fun k => hinge eps (k * a.disc))) := by
  have ha : 0 < a.disc := hd ▸ hb
  have hconv : convE a.points b.points (fun k => hinge eps (k * a.disc)) =
      wsum a.probs (fun m => ∑ k ∈ Finset.range b.probs.length,
        b.probs.getD k 0 * hinge (eps : EReal) (a.lossAt (m : ℤ) + b.lossAt k)) := by
    unfold convE
    rw [expect_dense_wsum]
    apply wsum_congr
    intro i _
    rw [expect_dense_wsum, wsum_eq_sum]
    apply Finset.sum_congr rfl
    intro k _
    congr 2
    unfold lossAt
    rw [← hd]; push_cast; ring
  rw [hconv]
  unfold deltaForComposed validateComposable
  rw [if_neg (not_not.2 hd), if_neg (not_not.2 hp)]
  simp only
  split_ifs with h0
  · congr 1
    have hz : wsum a.probs (fun m => ∑ k ∈ Finset.range b.probs.length,
        b.probs.getD k 0 * hinge (eps : EReal) (a.lossAt (m : ℤ) + b.lossAt k)) = 0 := by
      rw [wsum_congr (g := fun _ => 0), wsum_const, mul_zero]
      intro i hi
      apply Finset.sum_eq_zero
      intro k hk
      have hk' := Finset.mem_range.1 hk
      rw [hinge_of_le, mul_zero]
      have h1 := a.lossAt_mono ha (i := (i : ℤ)) (j := (a.probs.length : ℤ) - 1) (by omega)
      have h2 := b.lossAt_mono hb (i := (k : ℤ)) (j := (b.probs.length : ℤ) - 1) (by omega)
      have : a.lossAt i + b.lossAt k ≤ eps := by linarith
      exact_mod_cast this
    rw [hz, add_zero]
  · have h0' := not_le.1 h0
    obtain ⟨i, hi, -, hige, hilt⟩ := advanceI_spec a b eps ((b.probs.length : ℤ) - 1) (a.probs.length + 1) 0 (by
      by_cases hl : a.probs.length = 0
      · refine ⟨0, le_refl _, by omega, ?_⟩
        rw [hl] at h0'
        have := a.lossAt_mono ha (i := ((0 : ℕ) : ℤ) - 1) (j := ((0 : ℕ) : ℤ)) (by simp)
        linarith
      · refine ⟨a.probs.length - 1, by omega, by omega, ?_⟩
        have e : ((a.probs.length - 1 : ℕ) : ℤ) = (a.probs.length : ℤ) - 1 := by omega
        rw [e]; exact h0'.le)
    rw [hi]
    simp only
    have hinv : Inv a b eps i b.probs.length 0 0 := by
      refine ⟨le_refl _, by simp [upperSum], by simp [lowerSum], fun _ => hige, fun h1 h2 => by omega⟩
    have hr := retreatJ_spec a b hb eps i b.probs.length 0 0 hinv
    simp only at hr
    rw [sumI_spec a b hd hb eps _ i _ _ _ _ hr.1 hr.2]
    congr 1
    have hsplit : a.probs = a.probs.take i ++ a.probs.drop i := (List.take_append_drop _ _).symm
    conv_rhs => rw [hsplit, wsum_append]
    have hz : wsum (a.probs.take i) (fun m => ∑ k ∈ Finset.range b.probs.length,
        b.probs.getD k 0 * hinge (eps : EReal) (a.lossAt (m : ℤ) + b.lossAt k)) = 0 := by
      rw [wsum_congr (g := fun _ => 0), wsum_const, mul_zero]
      intro m hm
      have hm' : m < i := by simp at hm; omega
      apply Finset.sum_eq_zero
      intro k hk
      have hk' := Finset.mem_range.1 hk
      rw [hinge_of_le, mul_zero]
      have h1 := hilt m (by omega) hm'
      have h2 := b.lossAt_mono hb (i := (k : ℤ)) (j := (b.probs.length : ℤ) - 1) (by omega)
      have : a.lossAt m + b.lossAt k ≤ eps := by linarith
      exact_mod_cast this
    rw [hz, zero_add]
    by_cases hil : i ≤ a.probs.length
    · rw [List.length_take, min_eq_left hil]
      simp only [add_comm i]
    · rw [List.drop_eq_nil_of_le (by omega)]; simp

end Dense

lemma Pmf.deltaForComposed_spec {a b : Pmf} {eps : ℝ} {x : ℝ} (ha : a.WF) (hb : b.WF) (h : a.deltaForComposed b eps = .ok x) :
    a.disc = b.disc ∧ a.pessimistic = b.pessimistic ∧
    x = a.infinityMass + b.infinityMass - a.infinityMass * b.infinityMass +
      convE a.points b.points (fun k => hinge eps (k * a.disc)) := by
  unfold Pmf.deltaForComposed at h
  cases h1 : a.toDense with
  | error e => rw [h1] at h; simp at h
  | ok a' =>
    rw [h1] at h
    simp only at h
    cases h2 : b.toDense with
    | error e => rw [h2] at h; simp at h
    | ok b' =>
      rw [h2] at h
      simp only at h
      obtain ⟨a1, a2, a3, a4, a5, a6⟩ := Pmf.toDense_spec h1 ha
      obtain ⟨b1, b2, b3, b4, b5, b6⟩ := Pmf.toDense_spec h2 hb
      by_cases hd : a'.disc = b'.disc
      swap
      · unfold Dense.deltaForComposed Dense.validateComposable at h
        rw [if_pos hd] at h; simp at h
      by_cases hp : a'.pessimistic = b'.pessimistic
      swap
      · unfold Dense.deltaForComposed Dense.validateComposable at h
        rw [if_neg (not_not.2 hd), if_pos hp] at h; simp at h
      rw [Dense.deltaForComposed_spec a' b' hd hp b5] at h
      simp only [Except.ok.injEq] at h
      refine ⟨by rw [← a1, ← b1]; exact hd, by rw [← a3, ← b3]; exact hp, ?_⟩
      rw [← h, a2, b2, a1, convE_congr a4 b4]

end Verif
