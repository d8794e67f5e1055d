import Verif.Proofs.NoisePldBuckets
import Verif.Proofs.DiscreteGaussian

/-! # The truncated tails of the four additive noise mechanisms -/

namespace Verif.Mech
open Verif.Spec Verif.Pld Verif.PldPmf MeasureTheory ProbabilityTheory

section general
variable {X : Type} [AddCommGroup X] [MeasurableSpace X] {m : AdditiveNoise X} {P Q : Measure X} {pess : Bool} {disc : ℝ}

omit [MeasurableSpace X] in
lemma Bounds.round (hd : 0 < disc) {B : Set X} {l : ℝ} (h : Bounds pess m B l) : Bounds pess m B (roundFn pess (l / disc) * disc) := by
  intro y hy L hL
  have h1 := h y hy L hL
  have h2 := roundDiv_bounds (pess := pess) hd (roundDiv_real pess l disc)
  cases pess
  · exact le_trans (show (((roundFn false (l / disc) : ℝ) * disc : ℝ) : EReal) ≤ (l : EReal) from h2) (show (l : EReal) ≤ L from h1)
  · exact le_trans (show L ≤ (l : EReal) from h1) (show (l : EReal) ≤ (((roundFn true (l / disc) : ℝ) * disc : ℝ) : EReal) from h2)

lemma LossPair.above (h : LossPair m P Q) (b : EReal) : P.real (below m b)ᶜ = 1 - m.muUpperCdf b := by
  have := h.probP
  rw [probReal_compl_eq_one_sub (h.below_meas b), h.cdf]
  rfl

lemma LossPair.cdf_nonneg (h : LossPair m P Q) (b : EReal) : 0 ≤ m.muUpperCdf b := by
  rw [h.cdf]; exact measureReal_nonneg

/-- Infinite loss on the left, a finite one on the right (pessimistic). -/
lemma LossPair.tail_top (h : LossPair m P Q) (hd : 0 < disc) {a b : EReal} {l : ℝ} (hb : Bounds true m (below m b)ᶜ l) :
    TailOk true m P Q (dictPair ⊤ (m.muUpperCdf a) l (1 - m.muUpperCdf b)) disc a b := by
  have hne : (⊤ : EReal) ≠ (l : EReal) := (EReal.coe_ne_top l).symm
  have e : dictPair ⊤ (m.muUpperCdf a) (l : EReal) (1 - m.muUpperCdf b) = [(⊤, m.muUpperCdf a), ((l : EReal), 1 - m.muUpperCdf b)] := by
    unfold dictPair; rw [if_neg hne]
  have einf : infinityMassOf (dictPair ⊤ (m.muUpperCdf a) (l : EReal) (1 - m.muUpperCdf b)) = m.muUpperCdf a := by
    rw [e, infinityMassOf, if_pos rfl]
  have hab := h.above b
  have h1 : 0 ≤ 1 - m.muUpperCdf b := by rw [← hab]; exact measureReal_nonneg
  refine ⟨PyDict.add [] (roundFn true (l / disc)) (1 - m.muUpperCdf b), 1 - m.muUpperCdf b, ?_, PyDict.nodup_add (by simp [PyDict.keys]) _ _,
    PyDict.add_nonneg (by simp) _ h1, ?_, ?_, le_rfl, fun _ => rfl, ?_⟩
  · rw [e, roundTail, if_pos rfl, roundTail, if_neg hne.symm, roundDiv_real]
    rfl
  · rw [einf]; exact h.cdf_nonneg a
  · rw [einf]; unfold finiteMass; rw [PyDict.expect_addK]; simp
  · intro ε A hA
    rw [einf]
    unfold hockeyStick
    rw [PyDict.expect_addK, expect_nil, zero_add, h.cdf a, ← hab]
    exact (h.piece_top hA (h.below_meas a) (fun h => by simp at h)).add (h.piece hA (h.below_meas b).compl (hb.round hd))

/-- Two distinct finite losses. -/
lemma LossPair.tail_two (h : LossPair m P Q) (hd : 0 < disc) {a b : EReal} {k l : ℝ} (hkl : k ≠ l) (ha : Bounds pess m (below m a) k)
    (hb : Bounds pess m (below m b)ᶜ l) : TailOk pess m P Q (dictPair k (m.muUpperCdf a) l (1 - m.muUpperCdf b)) disc a b := by
  have hne : (k : EReal) ≠ (l : EReal) := fun h => hkl (EReal.coe_eq_coe_iff.1 h)
  have e : dictPair k (m.muUpperCdf a) (l : EReal) (1 - m.muUpperCdf b) = [((k : EReal), m.muUpperCdf a), ((l : EReal), 1 - m.muUpperCdf b)] := by
    unfold dictPair; rw [if_neg hne]
  have einf : infinityMassOf (dictPair k (m.muUpperCdf a) (l : EReal) (1 - m.muUpperCdf b)) = 0 := by
    rw [e, infinityMassOf, if_neg (EReal.coe_ne_top k), infinityMassOf, if_neg (EReal.coe_ne_top l), infinityMassOf]
  have hab := h.above b
  have h1 : 0 ≤ 1 - m.muUpperCdf b := by rw [← hab]; exact measureReal_nonneg
  refine ⟨PyDict.add (PyDict.add [] (roundFn pess (k / disc)) (m.muUpperCdf a)) (roundFn pess (l / disc)) (1 - m.muUpperCdf b),
    1 - m.muUpperCdf b, ?_, PyDict.nodup_add (PyDict.nodup_add (by simp [PyDict.keys]) _ _) _ _,
    PyDict.add_nonneg (PyDict.add_nonneg (by simp) _ (h.cdf_nonneg a)) _ h1, ?_, ?_, le_rfl, fun _ => rfl, ?_⟩
  · rw [e, roundTail, if_neg (EReal.coe_ne_top k), roundDiv_real]
    show roundTail pess disc [((l : EReal), 1 - m.muUpperCdf b)] _ = _
    rw [roundTail, if_neg (EReal.coe_ne_top l), roundDiv_real]
    rfl
  · rw [einf]
  · rw [einf]; unfold finiteMass; rw [PyDict.expect_addK, PyDict.expect_addK]; simp
  · intro ε A hA
    rw [einf]
    unfold hockeyStick
    rw [PyDict.expect_addK, PyDict.expect_addK, expect_nil, zero_add, zero_add, h.cdf a, ← hab]
    exact (h.piece hA (h.below_meas a) (ha.round hd)).add (h.piece hA (h.below_meas b).compl (hb.round hd))

/-- One finite loss on the left, nothing on the right (optimistic). -/
lemma LossPair.tail_one (h : LossPair m P Q) (hd : 0 < disc) {a b : EReal} {k : ℝ} (ha : Bounds false m (below m a) k) :
    TailOk false m P Q [((k : EReal), m.muUpperCdf a)] disc a b := by
  have := h.probP
  have := h.probQ
  have einf : infinityMassOf [((k : EReal), m.muUpperCdf a)] = 0 := by
    rw [infinityMassOf, if_neg (EReal.coe_ne_top k), infinityMassOf]
  have hab := h.above b
  have h1 : 0 ≤ 1 - m.muUpperCdf b := by rw [← hab]; exact measureReal_nonneg
  refine ⟨PyDict.add [] (roundFn false (k / disc)) (m.muUpperCdf a), 0, ?_, PyDict.nodup_add (by simp [PyDict.keys]) _ _,
    PyDict.add_nonneg (by simp) _ (h.cdf_nonneg a), ?_, ?_, h1, fun h => by simp at h, ?_⟩
  · rw [roundTail, if_neg (EReal.coe_ne_top k), roundDiv_real]
    rfl
  · rw [einf]
  · rw [einf]; unfold finiteMass; rw [PyDict.expect_addK]; simp
  · intro ε A hA
    rw [einf]
    unfold hockeyStick
    rw [PyDict.expect_addK, expect_nil, zero_add, zero_add, h.cdf a, ← add_zero (P.real _ * _)]
    exact (h.piece hA (h.below_meas a) (ha.round hd)).add (gain_ge hA (h.below_meas b).compl).1

/-- Infinite loss on the left, no mass on the right. -/
lemma LossPair.tail_inf (h : LossPair m P Q) {a b : EReal} (hb : m.muUpperCdf b = 1)
    (hbot : pess = false → ∀ y ∈ below m a, ∀ L, m.privacyLoss y = .ok L → L = ⊤) :
    TailOk pess m P Q [(⊤, m.muUpperCdf a)] disc a b := by
  have := h.probP
  have := h.probQ
  have einf : infinityMassOf [((⊤ : EReal), m.muUpperCdf a)] = m.muUpperCdf a := by
    rw [infinityMassOf, if_pos rfl]
  have hab := h.above b
  refine ⟨[], 0, ?_, by simp [PyDict.keys], by simp, ?_, ?_, by rw [hb]; simp, fun _ => by rw [hb]; simp, ?_⟩
  · rw [roundTail, if_pos rfl, roundTail]
  · rw [einf]; exact h.cdf_nonneg a
  · rw [einf]; unfold finiteMass; simp
  · intro ε A hA
    rw [einf]
    unfold hockeyStick
    rw [expect_nil, h.cdf a]
    refine (h.piece_top hA (h.below_meas a) hbot).add ?_
    rw [hb, sub_self] at hab
    cases pess
    · exact (gain_ge hA (h.below_meas b).compl).1
    · show gain P Q ε A (below m b)ᶜ ≤ 0
      have h1 : P.real (A ∩ (below m b)ᶜ) ≤ P.real (below m b)ᶜ := measureReal_mono Set.inter_subset_right
      have h2 : 0 ≤ Real.exp ε * Q.real (A ∩ (below m b)ᶜ) := mul_nonneg (Real.exp_pos _).le measureReal_nonneg
      unfold gain
      linarith

omit [MeasurableSpace X] in
lemma privacyLoss_congr {x y : X} (h : m.lossNo x = m.lossNo y) : m.privacyLoss x = m.privacyLoss y := by
  unfold AdditiveNoise.privacyLoss; rw [h]

omit [MeasurableSpace X] in
lemma bounds_const {B : Set X} {x0 : X} {l : ℝ} (hx : m.privacyLoss x0 = .ok (l : EReal)) (hB : ∀ y ∈ B, m.lossNo y = m.lossNo x0) :
    Bounds pess m B l := by
  intro y hy L hL
  rw [privacyLoss_congr (hB y hy), hx] at hL
  cases hL
  cases pess <;> exact le_refl (l : EReal)

end general

section losses
variable {X : Type} [AddCommGroup X] [MeasurableSpace X] [MeasurableAdd X] {m : AdditiveNoise X} {ν : Measure X}
  [ν.IsAddRightInvariant] {f : X → ℝ}

/-- The loss at a point with a finite loss without sub-sampling. -/
lemma loss_real (h : Faithful m ν f) {x : X} {l : ℝ} (hx : m.lossNo x = .ok (l : EReal)) :
    ∃ k : ℝ, m.privacyLoss x = .ok (k : EReal) ∧ (m.samplingProb = 1 → k = l) ∧
      (m.samplingProb ≠ 1 → m.adj = .add → k = -Real.log (m.samplingProb * Real.exp (-l) + (1 - m.samplingProb))) ∧
      (m.samplingProb ≠ 1 → m.adj = .remove → k = Real.log (m.samplingProb * Real.exp l + (1 - m.samplingProb))) := by
  classical
  have e := privacyLoss_eq h x
  rw [hx] at e
  by_cases hq : m.samplingProb = 1
  · refine ⟨l, ?_, fun _ => rfl, fun h => absurd hq h, fun h => absurd hq h⟩
    rw [e]; simp only [Except.map]; rw [if_pos hq]
  · cases ha : m.adj with
    | add =>
      refine ⟨-Real.log (m.samplingProb * Real.exp (-l) + (1 - m.samplingProb)), ?_, fun h => absurd h hq, fun _ _ => rfl, fun _ h => by simp at h⟩
      rw [e]; simp only [Except.map]; rw [if_neg hq, ha]; rfl
    | remove =>
      refine ⟨Real.log (m.samplingProb * Real.exp l + (1 - m.samplingProb)), ?_, fun h => absurd h hq, fun _ h => by simp at h, fun _ _ => rfl⟩
      rw [e]; simp only [Except.map]; rw [if_neg hq, ha]; rfl

lemma loss_ne (h : Faithful m ν f) {x y : X} {l k l' k' : ℝ} (hx : m.lossNo x = .ok (l : EReal)) (hy : m.lossNo y = .ok (k : EReal))
    (hlk : l ≠ k) (hx' : m.privacyLoss x = .ok (l' : EReal)) (hy' : m.privacyLoss y = .ok (k' : EReal)) : l' ≠ k' := by
  obtain ⟨a, a0, a1, a2, a3⟩ := loss_real h hx
  obtain ⟨b, b0, b1, b2, b3⟩ := loss_real h hy
  rw [hx'] at a0; rw [hy'] at b0
  have ea : l' = a := EReal.coe_eq_coe_iff.1 (Except.ok.inj a0)
  have eb : k' = b := EReal.coe_eq_coe_iff.1 (Except.ok.inj b0)
  rw [ea, eb]
  have q0 := h.q0
  by_cases hq : m.samplingProb = 1
  · rw [a1 hq, b1 hq]; exact hlk
  · have q1 : m.samplingProb < 1 := lt_of_le_of_ne h.q1 hq
    have pos : ∀ t : ℝ, 0 < m.samplingProb * Real.exp t + (1 - m.samplingProb) := fun t => by
      have := mul_pos q0 (Real.exp_pos t); linarith
    have inj : ∀ s t : ℝ, Real.log (m.samplingProb * Real.exp s + (1 - m.samplingProb)) =
        Real.log (m.samplingProb * Real.exp t + (1 - m.samplingProb)) → s = t := by
      intro s t hst
      have := Real.log_injOn_pos (pos s) (pos t) hst
      have : m.samplingProb * Real.exp s = m.samplingProb * Real.exp t := by linarith
      exact Real.exp_injective (mul_left_cancel₀ q0.ne' this)
    cases ha : m.adj with
    | add =>
      rw [a2 hq ha, b2 hq ha]
      intro hc
      exact hlk (neg_injective (inj _ _ (neg_injective hc)))
    | remove =>
      rw [a3 hq ha, b3 hq ha]
      intro hc
      exact hlk (inj _ _ hc)

/-- The loss does not exceed its limit. -/
lemma loss_limit (h : Faithful m ν f) (hq : m.samplingProb ≠ 1) {x : X} {L : EReal} (hL : m.privacyLoss x = .ok L) :
    (m.adj = .add → L ≤ ((edge m : ℝ) : EReal)) ∧ (m.adj = .remove → ((edge m : ℝ) : EReal) ≤ L) := by
  classical
  have q1 : m.samplingProb < 1 := lt_of_le_of_ne h.q1 hq
  rw [privacyLoss_eq h] at hL
  cases e1 : m.lossNo x with
  | error e => rw [e1] at hL; exact absurd hL (by simp [Except.map])
  | ok l =>
    rw [e1] at hL
    simp only [Except.map] at hL
    rw [if_neg hq] at hL
    constructor
    · intro ha
      rw [ha] at hL
      simp only [Except.ok.injEq] at hL
      rw [← hL]
      have := mixLog_mono h.q0 q1 (bot_le (a := -l))
      have h2 : -mixLog m.samplingProb (-l) ≤ -mixLog m.samplingProb ⊥ := EReal.neg_le_neg_iff.2 this
      refine h2.trans (le_of_eq ?_)
      unfold edge
      rw [ha]
      rfl
    · intro ha
      rw [ha] at hL
      simp only [Except.ok.injEq] at hL
      rw [← hL]
      have := mixLog_mono h.q0 q1 (bot_le (a := l))
      refine le_trans (le_of_eq ?_) this
      unfold edge
      rw [ha]
      rfl

end losses

/-- The loop invariants hold for continuous noise with finite losses. -/
lemma loopOk {m : AdditiveNoise ℝ} {f : ℝ → ℝ} (h : Faithful m volume f) {disc : ℝ} (hg : GridOk disc m.samplingProb m.adj)
    (hto : m.toReal = AddMonoidHom.id ℝ) (hl : ∀ x, ∃ l : ℝ, m.lossNo x = .ok (l : EReal)) : LoopOk m disc := by
  refine ⟨hto, fun y => ?_, ?_, ?_⟩
  · obtain ⟨l, hl⟩ := hl y
    obtain ⟨k, hk, -⟩ := loss_real h hl
    exact ⟨k, hk⟩
  · intro k x hx y L hL
    have := le_inverse_iff h (disc * k) (by
      rw [Props.edge_eq, mul_comm]
      rcases hg with hg | hg
      · exact .inl hg
      · exact .inr (hg k)) hx hL
    rw [hto] at this
    exact this
  · intro k y1 y2 L1 L2 h1 h2 hle1 hle2
    cases hx : m.inversePrivacyLoss (disc * k) with
    | ok x => exact ⟨x, rfl⟩
    | error e =>
      obtain ⟨-, hq, hcase⟩ := inverse_error h _ hx
      rcases hcase with ⟨ha, hc⟩ | ⟨ha, hc⟩
      · exact absurd (EReal.coe_le_coe_iff.1 (hle2.trans ((loss_limit h hq h2).1 ha))) (not_le.2 hc)
      · exact absurd (EReal.coe_le_coe_iff.1 (((loss_limit h hq h1).2 ha).trans hle1)) (not_le.2 hc)

/-! ### Laplace -/

lemma mkLaplace_eq {b s q : ℝ} {adj : Adj} {m : AdditiveNoise ℝ} (h : mkLaplace b s q adj = .ok m) :
    m.toReal = AddMonoidHom.id ℝ ∧ ∀ x, m.lossNo x = .ok ((laplaceLossNo b s adj x : ℝ) : EReal) := by
  unfold mkLaplace at h
  by_cases hb : b ≤ 0
  · rw [if_pos hb] at h; exact absurd h (by simp)
  rw [if_neg hb] at h
  obtain ⟨-, rfl⟩ := map_checkBase h
  exact ⟨rfl, fun _ => rfl⟩

lemma laplaceTail_ok {b s q : ℝ} {adj : Adj} {m : AdditiveNoise ℝ} (h : mkLaplace b s q adj = .ok m) {disc : ℝ} (hd : 0 < disc) (pess : Bool) :
    ∃ t, laplaceTail m = .ok t ∧ t.lowerX ≤ t.upperX ∧
      TailOk pess m (upper (laplace 0 b) s q adj) (lower (laplace 0 b) s q adj) t.masses disc (t.lowerX : EReal) (t.upperX : EReal) := by
  obtain ⟨hto, hloss⟩ := mkLaplace_eq h
  obtain ⟨hf, e1, e2, e3, hs, hb⟩ := laplace_faithful h
  have hp := hf.lossPair
  rw [← laplace_law, e1, e2, e3] at hp
  set lo : ℝ := (match adj with | .add => 0 | .remove => -s) with hlo
  set up : ℝ := (match adj with | .add => s | .remove => 0) with hup
  have hlu : lo ≤ up := by rw [hlo, hup]; cases adj <;> simp only [] <;> linarith
  obtain ⟨l1, h1, -⟩ := loss_real hf (hloss lo)
  obtain ⟨l2, h2, -⟩ := loss_real hf (hloss up)
  have hne : laplaceLossNo b s adj lo ≠ laplaceLossNo b s adj up := by
    have hpos : 0 < s / b := div_pos hs hb
    rw [hlo, hup]
    cases adj
    · simp only [laplaceLossNo, zero_sub, abs_neg, abs_zero, sub_zero, sub_self, abs_of_pos hs]
      rw [neg_div]; intro hc; linarith
    · simp only [laplaceLossNo, abs_neg, neg_add_cancel, abs_zero, sub_zero, zero_add, zero_sub, abs_of_pos hs]
      rw [neg_div]; intro hc; linarith
  have hmem : ∀ (y : ℝ) (x : ℝ), y ∈ below m (x : EReal) ↔ y ≤ x := by
    intro y x
    unfold below
    rw [hto]
    exact EReal.coe_le_coe_iff
  refine ⟨⟨lo, up, dictPair l1 (m.muUpperCdf (lo : ℝ)) l2 (1 - m.muUpperCdf (up : ℝ))⟩, ?_, hlu, ?_⟩
  · unfold laplaceTail
    rw [e3, e1]
    cases adj <;> exact bind_ok.2 ⟨_, h1, bind_ok.2 ⟨_, h2, rfl⟩⟩
  · refine hp.tail_two hd (loss_ne hf (hloss lo) (hloss up) hne h1 h2) (bounds_const h1 ?_) (bounds_const h2 ?_)
    · intro y hy
      have hy := (hmem y lo).1 hy
      rw [hloss, hloss]
      congr 2
      rw [hlo] at hy ⊢
      cases adj
      · simp only [] at hy
        simp only [laplaceLossNo, zero_sub, abs_neg, abs_zero, sub_zero]
        rw [abs_of_nonpos hy, abs_of_nonpos (show y - s ≤ 0 by linarith), abs_of_pos hs]
        ring
      · simp only [] at hy
        simp only [laplaceLossNo, neg_add_cancel, abs_neg, abs_zero, sub_zero]
        rw [abs_of_nonpos (show y ≤ 0 by linarith), abs_of_nonpos (show y + s ≤ 0 by linarith), abs_of_pos hs]
        ring
    · intro y hy
      have hy : ¬ y ≤ up := fun hc => hy ((hmem y up).2 hc)
      rw [hloss, hloss]
      congr 2
      rw [hup] at hy ⊢
      cases adj
      · simp only [not_le] at hy
        simp only [laplaceLossNo, sub_self, abs_zero, zero_sub]
        rw [abs_of_nonneg (show 0 ≤ y by linarith), abs_of_nonneg (show 0 ≤ y - s by linarith), abs_of_pos hs]
        ring
      · simp only [not_le] at hy
        simp only [laplaceLossNo, zero_add, abs_zero, zero_sub]
        rw [abs_of_nonneg (show 0 ≤ y by linarith), abs_of_nonneg (show 0 ≤ y + s by linarith), abs_of_pos hs]
        ring

lemma laplaceBounds_ok {b s q : ℝ} {adj : Adj} {m : AdditiveNoise ℝ} (h : mkLaplace b s q adj = .ok m) :
    ∃ l u : ℝ, laplaceBounds b m = .ok ((l : EReal), (u : EReal)) ∧ l ≤ u := by
  obtain ⟨hf, e1, e2, e3, hs, hb⟩ := laplace_faithful h
  have q0 := hf.q0
  have q1 := hf.q1
  rw [e2] at q0 q1
  have hpos : 0 < s / b := div_pos hs hb
  unfold laplaceBounds
  rw [e1, e2, e3]
  by_cases hq : q = 1
  · refine ⟨-(s / b), s / b, ?_, by linarith⟩
    simp only []
    rw [if_pos hq]
  · have q1' : q < 1 := lt_of_le_of_ne q1 hq
    have hlog : Real.log (1 - q + q * Real.exp (-(s / b))) ≤ Real.log (1 - q + q * Real.exp (s / b)) := by
      have a1 := mul_pos q0 (Real.exp_pos (-(s / b)))
      refine Real.log_le_log (by linarith) ?_
      have := mul_le_mul_of_nonneg_left (Real.exp_le_exp.2 (show -(s / b) ≤ s / b by linarith)) q0.le
      linarith
    simp only []
    rw [if_neg hq]
    cases adj
    · exact ⟨_, _, rfl, by linarith⟩
    · exact ⟨_, _, rfl, hlog⟩

/-! ### Gaussian -/

lemma mkGaussian_eq {σ s lb q : ℝ} {adj : Adj} {m : AdditiveNoise ℝ} (h : mkGaussian σ s lb q adj = .ok m) :
    m.toReal = AddMonoidHom.id ℝ ∧ ∀ x, m.lossNo x = .ok ((gaussianLossNo σ s adj x : ℝ) : EReal) := by
  unfold mkGaussian at h
  by_cases hb : σ ≤ 0
  · rw [if_pos hb] at h; exact absurd h (by simp)
  rw [if_neg hb] at h
  by_cases hl : lb > 0
  · rw [if_pos hl] at h; exact absurd h (by simp)
  rw [if_neg hl] at h
  obtain ⟨-, rfl⟩ := map_checkBase h
  exact ⟨rfl, fun _ => rfl⟩

lemma gaussianTail_ok {σ s lb q : ℝ} {adj : Adj} {m : AdditiveNoise ℝ} (h : mkGaussian σ s lb q adj = .ok m) {disc : ℝ} (hd : 0 < disc)
    (pess : Bool) {ppf : ℝ → ℝ} (hppf : ppf (0.5 * Real.exp lb) ≤ 0) :
    ∃ t, gaussianTail ppf lb pess m = .ok t ∧ t.lowerX ≤ t.upperX ∧
      TailOk pess m (upper (gaussianReal 0 (Real.toNNReal (σ ^ 2))) s q adj) (lower (gaussianReal 0 (Real.toNNReal (σ ^ 2))) s q adj)
        t.masses disc (t.lowerX : EReal) (t.upperX : EReal) := by
  obtain ⟨hto, hloss⟩ := mkGaussian_eq h
  obtain ⟨hf, e1, e2, e3, hs, hσ⟩ := gaussian_faithful h
  have hp := hf.lossPair
  rw [← gaussian_law hσ, e1, e2, e3] at hp
  set x := ppf (0.5 * Real.exp lb) with hx
  set lo : ℝ := (match adj with | .add => x | .remove => x - s) with hlo
  set up : ℝ := (match adj with | .add => -x + s | .remove => -x) with hup
  have hlu : lo ≤ up := by rw [hlo, hup]; cases adj <;> simp only [] <;> linarith
  obtain ⟨l1, h1, -⟩ := loss_real hf (hloss lo)
  obtain ⟨l2, h2, -⟩ := loss_real hf (hloss up)
  have hmem : ∀ (y : ℝ) (x : ℝ), y ∈ below m (x : EReal) ↔ y ≤ x := by
    intro y x
    unfold below
    rw [hto]
    exact EReal.coe_le_coe_iff
  cases pess with
  | true =>
    refine ⟨⟨lo, up, dictPair ⊤ (m.muUpperCdf (lo : ℝ)) l2 (1 - m.muUpperCdf (up : ℝ))⟩, ?_, hlu, ?_⟩
    · unfold gaussianTail
      rw [e3, e1]
      simp only [if_true]
      cases adj <;> exact bind_ok.2 ⟨_, h2, rfl⟩
    · refine hp.tail_top hd ?_
      intro y hy L hL
      have hy : ¬ y ≤ up := fun hc => hy ((hmem y up).2 hc)
      exact hp.anti h2 hL (by rw [hto]; exact (not_le.1 hy).le)
  | false =>
    refine ⟨⟨lo, up, [((l1 : EReal), m.muUpperCdf (lo : ℝ))]⟩, ?_, hlu, ?_⟩
    · unfold gaussianTail
      rw [e3, e1]
      simp only [Bool.false_eq_true, if_false]
      cases adj <;> exact bind_ok.2 ⟨_, h1, rfl⟩
    · refine hp.tail_one hd ?_
      intro y hy L hL
      exact hp.anti hL h1 (by rw [hto]; exact (hmem y lo).1 hy)

lemma gaussianBounds_ok {σ s lb q : ℝ} {adj : Adj} {m : AdditiveNoise ℝ} (h : mkGaussian σ s lb q adj = .ok m)
    (pess : Bool) {ppf : ℝ → ℝ} (hppf : ppf (0.5 * Real.exp lb) ≤ 0) :
    ∃ l u : ℝ, gaussianBounds ppf lb pess m = .ok ((l : EReal), (u : EReal)) ∧ l ≤ u := by
  obtain ⟨t, h1, h2, -⟩ := gaussianTail_ok h (disc := 1) one_pos pess hppf
  obtain ⟨hto, hloss⟩ := mkGaussian_eq h
  obtain ⟨hf, -⟩ := gaussian_faithful h
  obtain ⟨u, hu, -⟩ := loss_real hf (hloss t.lowerX)
  obtain ⟨l, hl, -⟩ := loss_real hf (hloss t.upperX)
  refine ⟨l, u, ?_, EReal.coe_le_coe_iff.1 (hf.lossPair.anti hu hl (by rw [hto]; exact h2))⟩
  unfold gaussianBounds
  rw [h1]
  show (m.privacyLoss t.lowerX >>= fun u => m.privacyLoss t.upperX >>= fun l => (Except.ok (l, u) : Except Err (EReal × EReal))) = _
  rw [hu, hl]
  rfl

/-! ### Discrete Laplace -/

lemma mkDiscreteLaplace_eq {a q : ℝ} {s : ℤ} {adj : Adj} {m : AdditiveNoise ℤ} (h : mkDiscreteLaplace a s q adj = .ok m) :
    m.toReal = Int.castAddHom ℝ ∧ ∀ x, m.lossNo x = .ok ((dLaplaceLossNo a s adj x : ℝ) : EReal) := by
  unfold mkDiscreteLaplace at h
  by_cases hb : a ≤ 0
  · rw [if_pos hb] at h; exact absurd h (by simp)
  rw [if_neg hb] at h
  obtain ⟨-, rfl⟩ := map_checkBase h
  exact ⟨rfl, fun _ => rfl⟩

lemma mem_below_int {m : AdditiveNoise ℤ} (hto : m.toReal = Int.castAddHom ℝ) (y x : ℤ) : y ∈ below m ((x : ℝ) : EReal) ↔ y ≤ x := by
  unfold below
  rw [hto]
  show (((y : ℤ) : ℝ) : EReal) ≤ _ ↔ _
  rw [EReal.coe_le_coe_iff, Int.cast_le]

lemma dLaplaceTail_ok {a q : ℝ} {s : ℤ} {adj : Adj} {m : AdditiveNoise ℤ} (h : mkDiscreteLaplace a s q adj = .ok m) {disc : ℝ}
    (hd : 0 < disc) (pess : Bool) :
    ∃ t, dLaplaceTail m = .ok t ∧ t.lowerX ≤ t.upperX + 1 ∧
      TailOk pess m (upper (discreteLaplace a) s q adj) (lower (discreteLaplace a) s q adj) t.masses disc
        (((t.lowerX - 1 : ℤ) : ℝ) : EReal) (((t.upperX : ℤ) : ℝ) : EReal) := by
  obtain ⟨hto, hloss⟩ := mkDiscreteLaplace_eq h
  obtain ⟨hf, e1, e2, e3, hs, ha⟩ := discreteLaplace_faithful h
  have hp := hf.lossPair
  rw [e1, e2, e3] at hp
  set lo : ℤ := (match adj with | .add => 1 | .remove => 1 - s) with hlo
  set up : ℤ := (match adj with | .add => s - 1 | .remove => -1) with hup
  have hlu : lo ≤ up + 1 := by rw [hlo, hup]; cases adj <;> simp only [] <;> omega
  obtain ⟨l1, h1, -⟩ := loss_real hf (hloss (lo - 1))
  obtain ⟨l2, h2, -⟩ := loss_real hf (hloss (up + 1))
  have hs' : (0 : ℝ) < s := by exact_mod_cast hs
  have hpos : 0 < (s : ℝ) * a := mul_pos hs' ha
  have v1 : ∀ y, y ≤ lo - 1 → dLaplaceLossNo a s adj y = s * a := by
    intro y hy
    rw [hlo] at hy
    cases adj
    · simp only [] at hy
      simp only [dLaplaceLossNo]
      rw [abs_of_nonpos (show y ≤ 0 by omega), abs_of_nonpos (show y - s ≤ 0 by omega)]
      push_cast; ring
    · simp only [] at hy
      simp only [dLaplaceLossNo]
      rw [abs_of_nonpos (show y ≤ 0 by omega), abs_of_nonpos (show y + s ≤ 0 by omega)]
      push_cast; ring
  have v2 : ∀ y, up < y → dLaplaceLossNo a s adj y = -(s * a) := by
    intro y hy
    rw [hup] at hy
    cases adj
    · simp only [] at hy
      simp only [dLaplaceLossNo]
      rw [abs_of_nonneg (show 0 ≤ y by omega), abs_of_nonneg (show 0 ≤ y - s by omega)]
      push_cast; ring
    · simp only [] at hy
      simp only [dLaplaceLossNo]
      rw [abs_of_nonneg (show 0 ≤ y by omega), abs_of_nonneg (show 0 ≤ y + s by omega)]
      push_cast; ring
  refine ⟨⟨lo, up, dictPair l1 (m.muUpperCdf (((lo - 1 : ℤ) : ℝ) : EReal)) l2 (1 - m.muUpperCdf (((up : ℤ) : ℝ) : EReal))⟩, ?_, hlu, ?_⟩
  · unfold dLaplaceTail
    rw [e3, e1]
    cases adj <;> exact bind_ok.2 ⟨_, h1, bind_ok.2 ⟨_, h2, rfl⟩⟩
  · refine hp.tail_two hd (loss_ne hf (hloss (lo - 1)) (hloss (up + 1)) ?_ h1 h2) (bounds_const h1 ?_) (bounds_const h2 ?_)
    · rw [v1 _ le_rfl, v2 _ (by omega)]
      intro hc; linarith
    · intro y hy
      rw [hloss, hloss, v1 _ ((mem_below_int hto y _).1 hy), v1 _ le_rfl]
    · intro y hy
      have hy : ¬ y ≤ up := fun hc => hy ((mem_below_int hto y up).2 hc)
      rw [hloss, hloss, v2 _ (not_le.1 hy), v2 _ (by omega)]

/-! ### Discrete Gaussian -/

lemma mkDiscreteGaussian_eq {σ q : ℝ} {s : ℤ} {bound : Option ℤ} {adj : Adj} {m : AdditiveNoise ℤ}
    (h : mkDiscreteGaussian σ s bound q adj = .ok m) :
    m.toReal = Int.castAddHom ℝ ∧ m.lossNo = dGaussianLossNo σ s (dgBound σ bound) adj := by
  unfold mkDiscreteGaussian at h
  by_cases hb : σ ≤ 0
  · rw [if_pos hb] at h; exact absurd h (by simp)
  rw [if_neg hb] at h
  by_cases hl : 2 * dgBound σ bound < s
  · simp only [] at h; rw [if_pos hl] at h; exact absurd h (by simp)
  simp only [] at h
  rw [if_neg hl] at h
  obtain ⟨-, rfl⟩ := map_checkBase h
  exact ⟨rfl, rfl⟩

/-- The loss of the discrete Gaussian is finite between the truncation points. -/
lemma dGaussian_finite {σ q : ℝ} {s : ℤ} {bound : Option ℤ} {adj : Adj} {m : AdditiveNoise ℤ}
    (h : mkDiscreteGaussian σ s bound q adj = .ok m) (x : ℤ) (h1 : (dGaussianTail (dgBound σ bound) m).lowerX ≤ x)
    (h2 : x ≤ (dGaussianTail (dgBound σ bound) m).upperX) : ∃ l : ℝ, m.privacyLoss x = .ok (l : EReal) := by
  classical
  obtain ⟨-, hloss⟩ := mkDiscreteGaussian_eq h
  obtain ⟨hf, e1, e2, e3, hs, hσ, hT⟩ := discreteGaussian_faithful h
  set T := dgBound σ bound
  have hcase : (∃ l : ℝ, m.lossNo x = .ok (l : EReal)) ∨ (q ≠ 1 ∧ adj = .add ∧ m.lossNo x = .ok ⊤) ∨ (q ≠ 1 ∧ adj = .remove ∧ m.lossNo x = .ok ⊥) := by
    rw [hloss]
    unfold dGaussianTail at h1 h2
    rw [e1, e2, e3] at h1 h2
    unfold dGaussianLossNo dGaussianLossAdd
    cases adj
    · simp only [] at h1 h2 ⊢
      by_cases hq : q = 1
      · rw [if_pos hq] at h1
        rw [if_neg (by omega), if_neg (by omega), if_neg (by omega)]
        exact .inl ⟨_, rfl⟩
      · rw [if_neg hq] at h1
        rw [if_neg (by omega), if_neg (by omega)]
        by_cases hx : x < s - T
        · rw [if_pos hx]; exact .inr (.inl ⟨hq, by trivial, rfl⟩)
        · rw [if_neg hx]; exact .inl ⟨_, rfl⟩
    · simp only [] at h1 h2 ⊢
      by_cases hq : q = 1
      · rw [if_pos hq] at h2
        rw [if_neg (by omega), if_neg (by omega), if_neg (by omega)]
        exact .inl ⟨_, rfl⟩
      · rw [if_neg hq] at h2
        rw [if_neg (by omega)]
        by_cases hx : x + s > T
        · rw [if_pos hx]; exact .inr (.inr ⟨hq, by trivial, rfl⟩)
        · rw [if_neg hx, if_neg (by omega)]; exact .inl ⟨_, rfl⟩
  rcases hcase with ⟨l, hl⟩ | ⟨hq, ha, hl⟩ | ⟨hq, ha, hl⟩
  · obtain ⟨k, hk, -⟩ := loss_real hf hl
    exact ⟨k, hk⟩
  · refine ⟨-Real.log (1 - q), ?_⟩
    rw [privacyLoss_eq hf, hl]
    simp only [Except.map]
    rw [e2, e3, if_neg hq, ha]
    rfl
  · refine ⟨Real.log (1 - q), ?_⟩
    rw [privacyLoss_eq hf, hl]
    simp only [Except.map]
    rw [e2, e3, if_neg hq, ha]
    rfl

lemma dGaussianTail_ok {σ q : ℝ} {s : ℤ} {bound : Option ℤ} {adj : Adj} {m : AdditiveNoise ℤ}
    (h : mkDiscreteGaussian σ s bound q adj = .ok m) {disc : ℝ} (pess : Bool) :
    (dGaussianTail (dgBound σ bound) m).lowerX ≤ (dGaussianTail (dgBound σ bound) m).upperX ∧
      TailOk pess m (upper (discreteGaussian σ (dgBound σ bound)) s q adj) (lower (discreteGaussian σ (dgBound σ bound)) s q adj)
        (dGaussianTail (dgBound σ bound) m).masses disc
        ((((dGaussianTail (dgBound σ bound) m).lowerX - 1 : ℤ) : ℝ) : EReal) ((((dGaussianTail (dgBound σ bound) m).upperX : ℤ) : ℝ) : EReal) := by
  classical
  obtain ⟨hto, hloss⟩ := mkDiscreteGaussian_eq h
  obtain ⟨hf, e1, e2, e3, hs, hσ, hT⟩ := discreteGaussian_faithful h
  have hp := hf.lossPair
  have hpu := upper_eq hf
  have hprob := upper_prob hf
  have q0 := hf.q0
  have q1 := hf.q1
  rw [e2] at q0 q1
  rw [← discreteGaussian_eq, e1, e2, e3] at hp hpu hprob
  set T := dgBound σ bound with hTdef
  have hle : (dGaussianTail T m).lowerX ≤ (dGaussianTail T m).upperX := by
    unfold dGaussianTail
    rw [e1, e2, e3]
    cases adj <;> simp only [] <;> by_cases hq : q = 1 <;> simp only [hq, if_true, if_false] <;> omega
  refine ⟨hle, ?_⟩
  have hzero : ∀ y, y ∉ Finset.Icc (-T) T → dgF σ T y = 0 := fun y hy => by unfold dgF; rw [if_neg hy]
  refine hp.tail_inf ?_ ?_
  · -- no mass above
    have hz : ∀ y, (dGaussianTail T m).upperX < y → upperDens m (dgF σ T) y = 0 := by
      intro y hy
      unfold dGaussianTail at hy
      unfold upperDens
      rw [e1, e2, e3] at hy ⊢
      cases adj
      · simp only [] at hy ⊢
        exact hzero y (by rw [Finset.mem_Icc]; omega)
      · simp only [] at hy ⊢
        by_cases hq : q = 1
        · rw [if_pos hq] at hy
          rw [hzero (y + s) (by rw [Finset.mem_Icc]; omega), hq]; ring
        · rw [if_neg hq] at hy
          rw [hzero (y + s) (by rw [Finset.mem_Icc]; omega), hzero y (by rw [Finset.mem_Icc]; omega)]; ring
    have h0 : (upper (discreteGaussian σ T) s q adj).real (below m ((((dGaussianTail T m).upperX : ℤ) : ℝ) : EReal))ᶜ = 0 := by
      rw [measureReal_def, hpu, withDensity_apply _ (MeasurableSet.of_discrete)]
      rw [setLIntegral_congr_fun (g := fun _ => 0) MeasurableSet.of_discrete]
      · simp
      · intro y hy
        have hy : ¬ y ≤ (dGaussianTail T m).upperX := fun hc => hy ((mem_below_int hto y _).2 hc)
        simp only [hz y (not_le.1 hy), ENNReal.ofReal_zero]
    rw [hp.above] at h0
    linarith
  · -- infinite loss below
    intro _ y hy L hL
    have hy := (mem_below_int hto y _).1 hy
    rw [privacyLoss_eq hf, hloss] at hL
    rw [e1, e2, e3] at hy
    rw [e2, e3] at hL
    cases adj
    · simp only [dGaussianLossNo, dGaussianLossAdd] at hy hL
      by_cases hy2 : y < -T
      · rw [if_pos (.inl hy2)] at hL; simp [Except.map] at hL
      · by_cases hq : q = 1
        · rw [if_pos hq] at hy
          rw [if_neg (by omega), if_neg (by omega), if_pos (by omega)] at hL
          simp only [Except.map] at hL
          rw [if_pos hq] at hL
          simpa using hL.symm
        · rw [if_neg hq] at hy
          omega
    · simp only [dGaussianLossNo, dGaussianLossAdd] at hy hL
      by_cases hy2 : y + s < -T
      · rw [if_pos (.inl hy2)] at hL; simp [Except.map] at hL
      · rw [if_neg (by omega), if_neg (by omega), if_pos (by omega)] at hL
        simp only [Except.map] at hL
        by_cases hq : q = 1
        · rw [if_pos hq] at hL; simpa using hL.symm
        · rw [if_neg hq] at hL
          exact (Except.ok.inj hL).symm

end Verif.Mech
