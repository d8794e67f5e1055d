import Verif.Proofs.AdditiveNoisePld
import Verif.Proofs.Discretization

/-! # Privacy buckets of noise on the integers with two intervals -/

namespace Verif.Mech
open Verif.Spec Verif.Pld Verif.PldPmf Verif.PldCommon MeasureTheory ProbabilityTheory

section
variable {m : AdditiveNoise ℤ} {pess : Bool} {c c' ε : ℝ}

/-- Rounding with the interval `c` gives at most the contribution of rounding with `c'`. -/
def RoundLe (pess : Bool) (c c' ε : ℝ) : Prop :=
  ∀ L r r', roundDiv pess L c = .ok r → roundDiv pess L c' = .ok r' → hinge ε (r * c) ≤ hinge ε (r' * c')

lemma roundLe_pess {disc : ℝ} (hd : 0 < disc) {n : ℕ} (hn : 0 < n) (ε : ℝ) : RoundLe true (disc / n) disc ε := by
  intro L r r' h h'
  cases L using EReal.rec with
  | bot => exact absurd h (by intro c; cases c)
  | top => exact absurd h (by intro c; cases c)
  | coe l =>
    have e1 : ⌈l / (disc / n)⌉ = r := Except.ok.inj h
    have e2 : ⌈l / disc⌉ = r' := Except.ok.inj h'
    rw [← e1, ← e2]
    exact hinge_mono ε (ceil_refine hd hn l)

lemma roundLe_opt {disc : ℝ} (hd : 0 < disc) {n : ℕ} (hn : 0 < n) (ε : ℝ) : RoundLe false disc (disc / n) ε := by
  intro L r r' h h'
  cases L using EReal.rec with
  | bot => exact absurd h (by intro c; cases c)
  | top => exact absurd h (by intro c; cases c)
  | coe l =>
    have e1 : ⌊l / disc⌋ = r := Except.ok.inj h
    have e2 : ⌊l / (disc / n)⌋ = r' := Except.ok.inj h'
    rw [← e1, ← e2]
    exact hinge_mono ε (floor_refine hd hn l)

lemma roundTail_le (hR : RoundLe pess c c' ε) : ∀ (masses : List (EReal × ℝ)) (d d' e e' : PyDict), (∀ x ∈ masses, 0 ≤ x.2) →
    roundTail pess c masses d = .ok e → roundTail pess c' masses d' = .ok e' → d.keys.Nodup → d'.keys.Nodup →
    expect d (fun k => hinge ε (k * c)) ≤ expect d' (fun k => hinge ε (k * c')) →
    e.keys.Nodup ∧ e'.keys.Nodup ∧ expect e (fun k => hinge ε (k * c)) ≤ expect e' (fun k => hinge ε (k * c')) := by
  intro masses
  induction masses with
  | nil =>
    intro d d' e e' _ h h' n1 n2 hle
    cases (Except.ok.inj (show Except.ok d = Except.ok e from h))
    cases (Except.ok.inj (show Except.ok d' = Except.ok e' from h'))
    exact ⟨n1, n2, hle⟩
  | cons x l ih =>
    obtain ⟨k, v⟩ := x
    intro d d' e e' h0 h h' n1 n2 hle
    rw [roundTail] at h h'
    by_cases hk : k = ⊤
    · rw [if_pos hk] at h h'
      exact ih d d' e e' (fun x hx => h0 x (by simp [hx])) h h' n1 n2 hle
    · rw [if_neg hk, bind_ok] at h h'
      obtain ⟨r, hr, h⟩ := h
      obtain ⟨r', hr', h'⟩ := h'
      refine ih _ _ e e' (fun x hx => h0 x (by simp [hx])) h h' (PyDict.nodup_add n1 _ _) (PyDict.nodup_add n2 _ _) ?_
      rw [PyDict.expect_addK, PyDict.expect_addK]
      have := mul_le_mul_of_nonneg_left (hR _ _ _ hr hr') (h0 (k, v) (by simp))
      simp only [] at this
      linarith

lemma addMasses_le (hR : RoundLe pess c c' ε) (hm : ∀ x : ℤ, m.muUpperCdf (((x - 1 : ℤ) : ℝ) : EReal) ≤ m.muUpperCdf (((x : ℤ) : ℝ) : EReal)) :
    ∀ (xs : List ℤ) (d d' e e' : PyDict), addMasses m pess c xs d = .ok e → addMasses m pess c' xs d' = .ok e' → d.keys.Nodup → d'.keys.Nodup →
    expect d (fun k => hinge ε (k * c)) ≤ expect d' (fun k => hinge ε (k * c')) →
    e.keys.Nodup ∧ e'.keys.Nodup ∧ expect e (fun k => hinge ε (k * c)) ≤ expect e' (fun k => hinge ε (k * c')) := by
  intro xs
  induction xs with
  | nil =>
    intro d d' e e' h h' n1 n2 hle
    cases (Except.ok.inj (show Except.ok d = Except.ok e from h))
    cases (Except.ok.inj (show Except.ok d' = Except.ok e' from h'))
    exact ⟨n1, n2, hle⟩
  | cons x l ih =>
    intro d d' e e' h h' n1 n2 hle
    rw [addMasses, bind_ok] at h h'
    obtain ⟨L, hL, h⟩ := h
    obtain ⟨L', hL', h'⟩ := h'
    rw [hL] at hL'; cases hL'
    rw [bind_ok] at h h'
    obtain ⟨r, hr, h⟩ := h
    obtain ⟨r', hr', h'⟩ := h'
    refine ih _ _ e e' h h' (PyDict.nodup_add n1 _ _) (PyDict.nodup_add n2 _ _) ?_
    rw [PyDict.expect_addK, PyDict.expect_addK]
    have := mul_le_mul_of_nonneg_left (hR _ _ _ hr hr') (sub_nonneg.2 (hm x))
    linarith

/-- The curves of the PMFs of the same noise with two intervals. -/
lemma bucketsDiscrete_le (hR : RoundLe pess c c' ε) (hc : 0 < c) (hc' : 0 < c')
    (hm : ∀ x : ℤ, m.muUpperCdf (((x - 1 : ℤ) : ℝ) : EReal) ≤ m.muUpperCdf (((x : ℤ) : ℝ) : EReal)) {t : Tail ℤ} (h0 : ∀ x ∈ t.masses, 0 ≤ x.2)
    {p p' : Pmf} (hp : bucketsDiscrete m t pess c = .ok p) (hp' : bucketsDiscrete m t pess c' = .ok p') :
    p.getDeltaForEpsilon ε ≤ p'.getDeltaForEpsilon ε := by
  unfold bucketsDiscrete at hp hp'
  rw [bind_ok] at hp hp'
  obtain ⟨d, h1, hp⟩ := hp
  obtain ⟨d', h1', hp'⟩ := hp'
  rw [bind_ok] at hp hp'
  obtain ⟨e, h2, hp⟩ := hp
  obtain ⟨e', h2', hp'⟩ := hp'
  obtain ⟨n1, n2, hle⟩ := roundTail_le hR _ _ _ _ _ h0 h1 h1' (by simp [PyDict.keys]) (by simp [PyDict.keys]) (by simp [expect])
  obtain ⟨n3, n4, hle⟩ := addMasses_le hR hm _ _ _ _ _ h2 h2' n1 n2 hle
  obtain ⟨q, k1, k2, k3, k4, -, k6, -⟩ := createPmf_ok (inf := infinityMassOf t.masses) (pess := pess) n3 hc
  obtain ⟨q', k1', k2', k3', k4', -, k6', -⟩ := createPmf_ok (inf := infinityMassOf t.masses) (pess := pess) n4 hc'
  rw [hp] at k1; cases k1
  rw [hp'] at k1'; cases k1'
  rw [Pmf.getDelta_eq_hs _ k2, Pmf.getDelta_eq_hs _ k2']
  unfold Pmf.hs hockeyStick
  rw [k3, k4, k6, k3', k4', k6']
  linarith

lemma cdf_step {P Q : Measure ℤ} (h : LossPair m P Q) (x : ℤ) :
    m.muUpperCdf (((x - 1 : ℤ) : ℝ) : EReal) ≤ m.muUpperCdf (((x : ℤ) : ℝ) : EReal) :=
  h.cdf_mono (by rw [EReal.coe_le_coe_iff, Int.cast_le]; omega)

lemma cdf_range {P Q : Measure ℤ} (h : LossPair m P Q) (x : EReal) : 0 ≤ m.muUpperCdf x ∧ m.muUpperCdf x ≤ 1 := by
  have := h.probP
  rw [h.cdf]
  exact ⟨measureReal_nonneg, measureReal_le_one⟩

end

/-- A relation between the PMFs of each direction of two constructors with the same arguments. -/
lemma subsampled_two {single single' : Adj → Option (Except Err Pmf)} {q : ℝ} {p p' : Pld} {C : Pmf → Pmf → Prop}
    (hp : subsampledPld single q = some (.ok p)) (hp' : subsampledPld single' q = some (.ok p'))
    (hs : ∀ adj pmf pmf', single adj = some (.ok pmf) → single' adj = some (.ok pmf') → C pmf pmf') : C p.remove p'.remove ∧ C p.add p'.add := by
  classical
  have split : ∀ {single : Adj → Option (Except Err Pmf)} {p : Pld}, subsampledPld single q = some (.ok p) →
      single .remove = some (.ok p.remove) ∧ ((q = 1 ∧ p.add = p.remove) ∨ (q ≠ 1 ∧ single .add = some (.ok p.add))) := by
    intro single p hp
    unfold subsampledPld at hp
    cases k1 : single .remove with
    | none => rw [k1] at hp; simp at hp
    | some r =>
      cases r with
      | error e => rw [k1] at hp; simp at hp
      | ok r =>
        rw [k1] at hp
        simp only [] at hp
        by_cases hq : q = 1
        · rw [if_pos hq] at hp
          simp only [Option.some.injEq, Except.ok.injEq] at hp
          subst hp
          exact ⟨rfl, .inl ⟨hq, rfl⟩⟩
        · rw [if_neg hq] at hp
          cases h2 : single .add with
          | none => rw [h2] at hp; simp at hp
          | some a =>
            cases a with
            | error e => rw [h2] at hp; simp at hp
            | ok a =>
              rw [h2] at hp
              simp only [Option.some.injEq, Except.ok.injEq] at hp
              subst hp
              exact ⟨rfl, .inr ⟨hq, rfl⟩⟩
  obtain ⟨r, a⟩ := split hp
  obtain ⟨r', a'⟩ := split hp'
  have h1 := hs _ _ _ r r'
  refine ⟨h1, ?_⟩
  rcases a with ⟨_, ea⟩ | ⟨hq, ea⟩
  · rcases a' with ⟨_, ea'⟩ | ⟨hq', _⟩
    · rw [ea, ea']; exact h1
    · exact absurd (by assumption) hq'
  · rcases a' with ⟨hq', _⟩ | ⟨_, ea'⟩
    · exact absurd hq' hq
    · exact hs _ _ _ ea ea'

/-- Discrete Laplace noise. -/
lemma fromDiscreteLaplace_buckets {a q c c' : ℝ} {s : ℤ} {pess u u' : Bool} {p p' : Pld} (hc : 0 < c) (hc' : 0 < c')
    (hu : ¬ (u = true ∧ pess = true)) (hu' : ¬ (u' = true ∧ pess = true)) (h : fromDiscreteLaplace a s pess c q u = some (.ok p))
    (h' : fromDiscreteLaplace a s pess c' q u' = some (.ok p')) (hR : ∀ ε, RoundLe pess c c' ε) :
    (∀ e : ℝ, p.remove.getDeltaForEpsilon e ≤ p'.remove.getDeltaForEpsilon e) ∧ ∀ e : ℝ, p.add.getDeltaForEpsilon e ≤ p'.add.getDeltaForEpsilon e := by
  refine subsampled_two (C := fun x y => ∀ e : ℝ, x.getDeltaForEpsilon e ≤ y.getDeltaForEpsilon e) h h' ?_
  intro adj pmf pmf' k k' e
  rw [Option.some.injEq, bind_ok] at k k'
  obtain ⟨m, hm, k⟩ := k
  obtain ⟨m', hm', k'⟩ := k'
  rw [hm] at hm'; cases hm'
  have hl := (discreteLaplace_faithful hm).1.lossPair
  unfold createDiscrete at k k'
  rw [if_neg hu, bind_ok] at k
  rw [if_neg hu', bind_ok] at k'
  obtain ⟨t, ht, k⟩ := k
  obtain ⟨t', ht', k'⟩ := k'
  rw [ht] at ht'; cases ht'
  refine bucketsDiscrete_le (hR e) hc hc' (cdf_step hl) ?_ k k'
  unfold dLaplaceTail at ht
  rw [bind_ok] at ht
  obtain ⟨l1, -, ht⟩ := ht
  rw [bind_ok] at ht
  obtain ⟨l2, -, ht⟩ := ht
  cases ht
  intro x hx
  simp only [dictPair] at hx
  split_ifs at hx
  · simp only [List.mem_singleton] at hx
    subst hx
    have := cdf_range hl
    exact sub_nonneg.2 (this _).2
  · simp only [List.mem_cons, List.not_mem_nil, or_false] at hx
    rcases hx with rfl | rfl
    · exact (cdf_range hl _).1
    · exact sub_nonneg.2 (cdf_range hl _).2

/-- Discrete Gaussian noise. -/
lemma fromDiscreteGaussian_buckets {σ q c c' : ℝ} {s : ℤ} {bound : Option ℤ} {pess u u' : Bool} {p p' : Pld} (hc : 0 < c) (hc' : 0 < c')
    (hu : ¬ (u = true ∧ pess = true)) (hu' : ¬ (u' = true ∧ pess = true)) (h : fromDiscreteGaussian σ s bound pess c q u = some (.ok p))
    (h' : fromDiscreteGaussian σ s bound pess c' q u' = some (.ok p')) (hR : ∀ ε, RoundLe pess c c' ε) :
    (∀ e : ℝ, p.remove.getDeltaForEpsilon e ≤ p'.remove.getDeltaForEpsilon e) ∧ ∀ e : ℝ, p.add.getDeltaForEpsilon e ≤ p'.add.getDeltaForEpsilon e := by
  refine subsampled_two (C := fun x y => ∀ e : ℝ, x.getDeltaForEpsilon e ≤ y.getDeltaForEpsilon e) h h' ?_
  intro adj pmf pmf' k k' e
  rw [Option.some.injEq, bind_ok] at k k'
  obtain ⟨m, hm, k⟩ := k
  obtain ⟨m', hm', k'⟩ := k'
  rw [hm] at hm'; cases hm'
  have hl := (discreteGaussian_faithful hm).1.lossPair
  unfold createDiscrete at k k'
  rw [if_neg hu, bind_ok] at k
  rw [if_neg hu', bind_ok] at k'
  obtain ⟨t, ht, k⟩ := k
  obtain ⟨t', ht', k'⟩ := k'
  rw [ht] at ht'; cases ht'
  refine bucketsDiscrete_le (hR e) hc hc' (cdf_step hl) ?_ k k'
  cases ht
  intro x hx
  simp only [dGaussianTail, List.mem_singleton] at hx
  subst hx
  exact (cdf_range hl _).1

end Verif.Mech
