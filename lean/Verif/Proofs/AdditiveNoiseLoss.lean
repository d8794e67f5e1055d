import Verif.Proofs.AdditiveNoise

/-! # Additive noise mechanisms: the privacy loss -/

namespace Verif.Mech
open Verif Spec Pld MeasureTheory LogDomain

variable {X : Type} [AddCommGroup X] [MeasurableSpace X] [MeasurableAdd X] {m : AdditiveNoise X} {ν : Measure X}
  [ν.IsAddRightInvariant] {f : X → ℝ}

/-- `log(q e^b + 1 - q)` for extended `b`. -/
noncomputable def mixLog (q : ℝ) : EReal → EReal
  | ⊤ => ⊤
  | ⊥ => ((Real.log (1 - q) : ℝ) : EReal)
  | (b : ℝ) => ((Real.log (q * Real.exp b + (1 - q)) : ℝ) : EReal)

lemma logAExpBC_mix {q : ℝ} (q0 : 0 < q) (q1 : q < 1) (b : EReal) : logAExpBC q b (1 - q) = .ok (mixLog q b) := by
  cases b using EReal.rec with
  | bot => rfl
  | top => rfl
  | coe b => exact logAExpBC_real _ _ _ (by have := mul_pos q0 (Real.exp_pos b); linarith)

lemma mixLog_mono {q : ℝ} (q0 : 0 < q) (q1 : q < 1) {a b : EReal} (h : a ≤ b) : mixLog q a ≤ mixLog q b := by
  have hp : 0 < 1 - q := by linarith
  cases b using EReal.rec with
  | top => exact le_top
  | bot => rw [le_bot_iff.1 h]
  | coe b =>
    cases a using EReal.rec with
    | top => exact absurd h (by simp)
    | bot => 
      refine EReal.coe_le_coe_iff.2 (Real.log_le_log hp ?_)
      have := mul_pos q0 (Real.exp_pos b); linarith
    | coe a =>
      have h := EReal.coe_le_coe_iff.1 h
      have := mul_pos q0 (Real.exp_pos a)
      refine EReal.coe_le_coe_iff.2 (Real.log_le_log (by linarith) ?_)
      have := mul_le_mul_of_nonneg_left (Real.exp_le_exp.2 h) q0.le
      linarith

/-- The privacy loss in terms of the one without sub-sampling. -/
lemma privacyLoss_eq (h : Faithful m ν f) (x : X) : m.privacyLoss x = (m.lossNo x).map fun l =>
    haveI := Classical.dec
    if m.samplingProb = 1 then l else match m.adj with
      | .add => -mixLog m.samplingProb (-l)
      | .remove => mixLog m.samplingProb l := by
  classical
  unfold AdditiveNoise.privacyLoss
  cases hl : m.lossNo x with
  | error e => rfl
  | ok l =>
    simp only [Except.map]
    by_cases hq : m.samplingProb = 1
    · rw [if_pos hq, if_pos hq]
    · have q1 : m.samplingProb < 1 := lt_of_le_of_ne h.q1 hq
      rw [if_neg hq, if_neg hq]
      cases ha : m.adj with
      | add => simp only [logAExpBC_mix h.q0 q1, negate, Except.map]
      | remove => simp only [logAExpBC_mix h.q0 q1]

/-- `l` is at most the loss exactly when `e^l` is at most the ratio. -/
lemma le_lossNo (h : Faithful m ν f) {x : X} {L : EReal} (hL : m.lossNo x = .ok L) (l : ℝ) :
    (l : EReal) ≤ L ↔ Real.exp l * den m f x ≤ num m f x := by
  cases L using EReal.rec with
  | top =>
    obtain ⟨h1, h2⟩ := h.lossTop x hL
    simp [h2, h1.le]
  | bot =>
    obtain ⟨h1, h2⟩ := h.lossBot x hL
    have := mul_pos (Real.exp_pos l) h2
    simp [h1, this]
  | coe L =>
    obtain ⟨h1, h2⟩ := h.lossReal x L hL
    rw [h2, EReal.coe_le_coe_iff, mul_le_mul_iff_left₀ h1, Real.exp_le_exp]

lemma charged_of_loss (h : Faithful m ν f) {x : X} {L : EReal} (hL : m.lossNo x = .ok L) : Charged m f x := by
  cases L using EReal.rec with
  | top => exact .inl (h.lossTop x hL).1
  | bot => exact .inr (h.lossBot x hL).2
  | coe L => exact .inr (h.lossReal x L hL).1

lemma lossNo_antitone (h : Faithful m ν f) {x x' : X} {L L' : EReal} (hL : m.lossNo x = .ok L) (hL' : m.lossNo x' = .ok L')
    (hx : m.toReal x ≤ m.toReal x') : L' ≤ L := by
  by_contra hc
  obtain ⟨l, h1, h2⟩ := EReal.lt_iff_exists_real_btwn.1 (not_le.1 hc)
  have a := (le_lossNo h hL' l).1 h2.le
  have b := (h.inv x' l (charged_of_loss h hL')).2 a
  have c := (h.inv x l (charged_of_loss h hL)).1 ((EReal.coe_le_coe_iff.2 hx).trans b)
  exact absurd ((le_lossNo h hL l).2 c) (not_le.2 h1)

/-- Larger outputs have smaller privacy loss. -/
theorem privacyLoss_antitone (h : Faithful m ν f) {x x' : X} {L L' : EReal} (hL : m.privacyLoss x = .ok L)
    (hL' : m.privacyLoss x' = .ok L') (hx : m.toReal x ≤ m.toReal x') : L' ≤ L := by
  rw [privacyLoss_eq h] at hL hL'
  cases e1 : m.lossNo x with
  | error e => rw [e1] at hL; exact absurd hL (by simp [Except.map])
  | ok l =>
    cases e2 : m.lossNo x' with
    | error e => rw [e2] at hL'; exact absurd hL' (by simp [Except.map])
    | ok l' =>
      have := lossNo_antitone h e1 e2 hx
      rw [e1] at hL
      rw [e2] at hL'
      simp only [Except.map, Except.ok.injEq] at hL hL'
      subst hL hL'
      by_cases hq : m.samplingProb = 1
      · rwa [if_pos hq, if_pos hq]
      · have q1 : m.samplingProb < 1 := lt_of_le_of_ne h.q1 hq
        rw [if_neg hq, if_neg hq]
        cases ha : m.adj with
        | add => exact EReal.neg_le_neg_iff.2 (mixLog_mono h.q0 q1 (EReal.neg_le_neg_iff.2 this))
        | remove => exact mixLog_mono h.q0 q1 this

/-- The privacy loss is the log ratio of the densities of the two output distributions. -/
theorem privacyLoss_isLoss (h : Faithful m ν f) (x : X) : IsLogRatio (upperDens m f x) (lowerDens m f x) (m.privacyLoss x) := by
  have q0 := h.q0
  rw [privacyLoss_eq h]
  by_cases hq : m.samplingProb = 1
  · simp only [if_pos hq, (dens_one (f := f) hq x).1, (dens_one (f := f) hq x).2]
    cases e1 : m.lossNo x with
    | error e => exact h.lossErr x e e1
    | ok l =>
      cases l using EReal.rec with
      | top => exact h.lossTop x e1
      | bot => exact h.lossBot x e1
      | coe l =>
        obtain ⟨h1, h2⟩ := h.lossReal x l e1
        refine ⟨by rw [h2]; exact mul_pos (Real.exp_pos _) h1, h1, ?_⟩
        rw [h2, mul_div_cancel_right₀ _ h1.ne', Real.log_exp]
  · have q1 : m.samplingProb < 1 := lt_of_le_of_ne h.q1 hq
    have hp : 0 < 1 - m.samplingProb := by linarith
    simp only [if_neg hq]
    cases e1 : m.lossNo x with
    | error e =>
      obtain ⟨h1, h2, h3⟩ := h.lossErr x e e1
      have : ¬ Charged m f x := by rintro (k | k) <;> [rw [h2] at k; rw [h3] at k] <;> exact lt_irrefl _ k
      exact ⟨h1, (not_charged h this).1, (not_charged h this).2⟩
    | ok l =>
      cases ha : m.adj with
      | add =>
        rw [(dens_add ha x).1, (dens_add ha x).2]
        simp only [Except.map]
        cases l using EReal.rec with
        | top =>
          obtain ⟨h1, h2⟩ := h.lossTop x e1
          show IsLogRatio _ _ (.ok (-((Real.log (1 - m.samplingProb) : ℝ) : EReal)))
          rw [← EReal.coe_neg]
          refine ⟨h1, by rw [h2]; have := mul_pos hp h1; linarith, ?_⟩
          rw [h2, mul_zero, add_zero, ← Real.log_inv]
          congr 1
          field_simp
        | bot =>
          obtain ⟨h1, h2⟩ := h.lossBot x e1
          show IsLogRatio _ _ (.ok (-⊤))
          rw [EReal.neg_top]
          exact ⟨h1, by rw [h1]; have := mul_pos q0 h2; linarith⟩
        | coe l =>
          obtain ⟨h1, h2⟩ := h.lossReal x l e1
          show IsLogRatio _ _ (.ok (-((Real.log (m.samplingProb * Real.exp (-l) + (1 - m.samplingProb)) : ℝ) : EReal)))
          rw [← EReal.coe_neg]
          have hn : 0 < num m f x := by rw [h2]; exact mul_pos (Real.exp_pos _) h1
          refine ⟨hn, by have := mul_pos hp hn; have := mul_pos q0 h1; linarith, ?_⟩
          rw [← Real.log_inv]
          congr 1
          rw [h2, Real.exp_neg]
          have := Real.exp_pos l
          field_simp
          ring
      | remove =>
        rw [(dens_remove ha x).1, (dens_remove ha x).2]
        simp only [Except.map]
        cases l using EReal.rec with
        | top =>
          obtain ⟨h1, h2⟩ := h.lossTop x e1
          exact ⟨by rw [h2]; have := mul_pos q0 h1; linarith, h2⟩
        | bot =>
          obtain ⟨h1, h2⟩ := h.lossBot x e1
          refine ⟨by rw [h1]; have := mul_pos hp h2; linarith, h2, ?_⟩
          rw [h1, mul_zero, add_zero, mul_div_cancel_right₀ _ h2.ne']
        | coe l =>
          obtain ⟨h1, h2⟩ := h.lossReal x l e1
          have hn : 0 < num m f x := by rw [h2]; exact mul_pos (Real.exp_pos _) h1
          refine ⟨by have := mul_pos hp h1; have := mul_pos q0 hn; linarith, h1, ?_⟩
          congr 1
          rw [h2]
          field_simp
          ring

lemma isLogRatio_le {p r : ℝ} {L : EReal} (h : IsLogRatio p r (.ok L)) (l : ℝ) : (l : EReal) ≤ L ↔ Real.exp l * r ≤ p := by
  cases L using EReal.rec with
  | top => obtain ⟨h1, h2⟩ := h; simp [h2, h1.le]
  | bot =>
    obtain ⟨h1, h2⟩ := h
    have := mul_pos (Real.exp_pos l) h2
    simp [h1, this]
  | coe L =>
    obtain ⟨h1, h2, h3⟩ := h
    rw [h3, EReal.coe_le_coe_iff, Real.le_log_iff_exp_le (div_pos h1 h2), le_div_iff₀ h2]

/-- `inverse_privacy_loss` returns the largest output with at least the given loss. -/
theorem le_inverse_iff (h : Faithful m ν f) (ε : ℝ) {y L : EReal} (hε : m.samplingProb = 1 ∨ ¬ IsClose ε (edge m))
    (hy : m.inversePrivacyLoss ε = .ok y) {x : X} (hL : m.privacyLoss x = .ok L) :
    (ε : EReal) ≤ L ↔ ((m.toReal x : ℝ) : EReal) ≤ y := by
  classical
  have hch : Charged m f x := by
    rw [privacyLoss_eq h] at hL
    cases e1 : m.lossNo x with
    | error e => rw [e1] at hL; exact absurd hL (by simp [Except.map])
    | ok l => exact charged_of_loss h e1
  have hc : m.samplingProb = 1 ∨ (¬ IsClose ε (edge m) ∧ (m.adj = .add → ε < edge m) ∧ (m.adj = .remove → edge m < ε)) := by
    rcases hε with hq | hc
    · exact .inl hq
    · by_cases hq : m.samplingProb = 1
      · exact .inl hq
      refine .inr ⟨hc, fun ha => ?_, fun ha => ?_⟩
      · by_contra k
        simp only [edge, ha] at hc k
        have : m.inversePrivacyLoss ε = .error .valueError := by
          unfold AdditiveNoise.inversePrivacyLoss
          simp only [ha, if_neg hq, if_neg hc]
          rw [if_pos]
          exact lt_of_le_of_ne (not_lt.1 k) fun e => hc (.inl e.symm)
        rw [this] at hy
        exact absurd hy (by simp)
      · by_contra k
        simp only [edge, ha] at hc k
        have : m.inversePrivacyLoss ε = .error .valueError := by
          unfold AdditiveNoise.inversePrivacyLoss
          simp only [ha, if_neg hq, if_neg hc]
          rw [if_pos (not_lt.1 k)]
        rw [this] at hy
        exact absurd hy (by simp)
  obtain ⟨y', hy', hx⟩ := inverse_iff h ε hc
  rw [hy] at hy'
  obtain rfl := Except.ok.inj hy'
  rw [hx x hch]
  have := privacyLoss_isLoss h x
  rw [hL] at this
  exact isLogRatio_le this ε

/-- `inverse_privacy_loss` raises only outside the range of the loss. -/
theorem inverse_error (h : Faithful m ν f) (ε : ℝ) {e : Err} (hy : m.inversePrivacyLoss ε = .error e) :
    e = .valueError ∧ m.samplingProb ≠ 1 ∧ ((m.adj = .add ∧ edge m < ε) ∨ (m.adj = .remove ∧ ε < edge m)) := by
  classical
  by_cases hq : m.samplingProb = 1
  · unfold AdditiveNoise.inversePrivacyLoss at hy
    simp [hq] at hy
  · by_cases hc : IsClose ε (edge m)
    · unfold AdditiveNoise.inversePrivacyLoss at hy
      cases ha : m.adj <;> simp only [edge, ha] at hc <;> simp [hq, ha, hc] at hy
    by_cases hh : (m.adj = .add → ε < edge m) ∧ (m.adj = .remove → edge m < ε)
    · obtain ⟨y, hy', _⟩ := inverse_iff h ε (.inr ⟨hc, hh⟩)
      rw [hy] at hy'
      exact absurd hy' (by simp)
    · have hne : ε ≠ edge m := fun k => hc (.inl k)
      unfold AdditiveNoise.inversePrivacyLoss at hy
      cases ha : m.adj with
      | add =>
        simp only [ha, edge, forall_const, reduceCtorEq, IsEmpty.forall_iff, and_true, not_lt] at hh hc hne ⊢
        have k := lt_of_le_of_ne hh (Ne.symm hne)
        simp only [ha, if_neg hq, if_neg hc] at hy
        rw [if_pos k] at hy
        exact ⟨(Except.error.inj hy).symm, hq, .inl ⟨trivial, k⟩⟩
      | remove =>
        simp only [ha, edge, forall_const, reduceCtorEq, IsEmpty.forall_iff, true_and, not_lt] at hh hc hne ⊢
        have k := lt_of_le_of_ne hh hne
        simp only [ha, if_neg hq, if_neg hc] at hy
        rw [if_pos hh] at hy
        exact ⟨(Except.error.inj hy).symm, hq, .inr k⟩

end Verif.Mech
