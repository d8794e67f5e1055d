import Verif.Proofs.PldHistory
import Verif.Proofs.PldOverOne

/-!
# C22: PLD accounting is sound under adaptive composition

Vocabulary (`Verif/Spec`): `Indist P Q eps delta` (one direction of `(eps, delta)`-DP, arbitrary measures); `CurveValid`
(all `eps` at once); `LossLaw` (a privacy loss distribution, any law on `ℝ ∪ {+∞}`) and its convolution; `P ⊗ₘ κ` (run a
mechanism, then another one chosen by the Markov kernel from its output); `Adaptive l P Q` (a whole sequence of adaptively
chosen mechanisms); `PldHistory` (a PLD built by any calls of `identity`, `compose`, `self_compose`).
-/

namespace Verif.Props
open Verif Verif.Spec Verif.PldPmf Verif.Pld MeasureTheory ProbabilityTheory

/-- **C22 (exact laws).** If the privacy loss law `A` dominates the first mechanism and `B` dominates every mechanism the
analyst may choose after seeing its output, the law of the sum of the losses dominates the adaptive composition. -/
theorem C22_adaptive_composition {Ω Ω' : Type*} [MeasurableSpace Ω] [MeasurableSpace Ω'] (A B : LossLaw) (P Q : Measure Ω)
    [IsProbabilityMeasure P] [IsProbabilityMeasure Q] (κ η : Kernel Ω Ω') [IsMarkovKernel κ] [IsMarkovKernel η]
    (hA : CurveValid P Q A.hs) (hB : ∀ x, CurveValid (κ x) (η x) B.hs) :
    CurveValid (P ⊗ₘ κ) (Q ⊗ₘ η) (A.conv B).hs := LossLaw.Dominates.adaptive hA hB

/-- **C22.** `compose`, with any truncation: if the deltas reported by `a` are valid for the first mechanism and those
reported by `b` for every possible second one, the deltas reported by the composed PMF are valid for the adaptive
composition. -/
theorem C22_compose_sound {Ω Ω' : Type*} [MeasurableSpace Ω] [MeasurableSpace Ω'] (a b c : Pmf) (t : ℝ) (ha : a.WF) (hb : b.WF)
    (hna : a.NonNeg) (hnb : b.NonNeg) (hma : totalMass a = 1) (hmb : totalMass b = 1) (hp : a.pessimistic = true)
    (h : composePmfs a b t = .ok c) (P Q : Measure Ω) [IsProbabilityMeasure P] [IsProbabilityMeasure Q] (κ η : Kernel Ω Ω')
    [IsMarkovKernel κ] [IsMarkovKernel η] (hA : CurveValid P Q fun e => a.getDeltaForEpsilon e)
    (hB : ∀ x, CurveValid (κ x) (η x) fun e => b.getDeltaForEpsilon e) :
    CurveValid (P ⊗ₘ κ) (Q ⊗ₘ η) fun e => c.getDeltaForEpsilon e := by
  obtain ⟨A, a1, a2⟩ := exists_law a.infinityMass a.disc a.points hna.1 hna.2 hma
  obtain ⟨B, b1, b2⟩ := exists_law b.infinityMass b.disc b.points hnb.1 hnb.2 hmb
  have hi : a.infinityMass ≤ 1 := by
    have : 0 ≤ finiteMass a.points := expect_nonneg hna.2 fun _ _ => by norm_num
    unfold totalMass at hma
    linarith
  have hd : (A.conv B).Dominates (P ⊗ₘ κ) (Q ⊗ₘ η) := by
    refine LossLaw.Dominates.adaptive (fun e => ?_) fun x e => ?_
    · rw [a2]; have := hA e; simp only [C11_delta_exact a ha] at this; exact this
    · rw [b2]; have := hB x e; simp only [C11_delta_exact b hb] at this; exact this
  have hc := AtLeast.compose h ha hb hna hnb hp (Or.inl hi) a1 b1
  intro e S hS
  have h1 := hd e S hS
  have h2 := hc.hs_le e
  simp only [C11_delta_exact c ((composePmfs_spec h ha hb).wf ha hb)]
  have h3 : c.hs e = hockeyStick c.infinityMass c.disc c.points e := rfl
  rw [h3]; linarith

/-- **C22 (histories).** Any PLD obtained by composing PLDs of mechanisms, in any order and grouping, with `compose` and
`self_compose`, with or without truncation: whatever mechanisms satisfying the requirements are chosen adaptively, the
reported delta is valid for their composition, for every `eps`, in both directions. -/
theorem C22_history_sound (nfl : ℕ → ℕ) (hnfl : ∀ k, k ≤ nfl k) (l : List PairProp) (p : Pld) (h : PldHistory nfl l p)
    {Ω : Type} [MeasurableSpace Ω] (P Q : Measure Ω) (hPQ : Adaptive l Ω P Q) (e : ℝ) :
    Indist P Q e (p.getDeltaForEpsilon e) ∧ Indist Q P e (p.getDeltaForEpsilon e) := by
  obtain ⟨hv, h1, h2⟩ := h.dirs hnfl
  have k1 := h1.curve hPQ e
  have k2 := h2.curve hPQ.swap e
  rw [Pld.getDelta_eq hv]
  simp only [C11_delta_exact _ hv.wfRemove] at k1
  simp only [C11_delta_exact _ hv.wfAdd] at k2
  have e1 : p.remove.hs e ≤ p.hs e := le_max_left _ _
  have e2 : p.add.hs e ≤ p.hs e := le_max_right _ _
  exact ⟨fun S hS => (k1 S hS).trans (by linarith), fun S hS => (k2 S hS).trans (by linarith)⟩

/-- **C22 (epsilon).** If `get_epsilon_for_delta` of such a PLD answers a finite `eps`, the adaptive composition, and
anything computed from its outputs by any randomised function, is `(eps, delta)`-indistinguishable in both directions. -/
theorem C22_epsilon_valid (nfl : ℕ → ℕ) (hnfl : ∀ k, k ≤ nfl k) (l : List PairProp) (p : Pld) (h : PldHistory nfl l p)
    (δ eps : ℝ) (he : p.getEpsilonForDelta δ = (eps : EReal)) {Ω Ω' : Type} [MeasurableSpace Ω] [MeasurableSpace Ω']
    (P Q : Measure Ω) (hPQ : Adaptive l Ω P Q) (κ : Kernel Ω Ω') [IsMarkovKernel κ] :
    Indist P Q eps δ ∧ Indist Q P eps δ ∧ Indist (P.bind κ) (Q.bind κ) eps δ ∧ Indist (Q.bind κ) (P.bind κ) eps δ := by
  obtain ⟨hv, h1, h2⟩ := h.dirs hnfl
  have key := C24_epsilon_valid p hv h1.nonneg h2.nonneg δ
  have hnt : ¬ (δ < p.remove.infinityMass ∨ δ < p.add.infinityMass) := by
    rw [← key.1, he]; exact EReal.coe_ne_top _
  push Not at hnt
  obtain ⟨r, g1, _, g3⟩ := key.2 hnt.1 hnt.2
  rw [he] at g1
  have : eps = r := by exact_mod_cast g1
  subst this
  obtain ⟨k1, k2⟩ := C22_history_sound nfl hnfl l p h P Q hPQ eps
  have d1 : Indist P Q eps δ := fun S hS => (k1 S hS).trans (by linarith)
  have d2 : Indist Q P eps δ := fun S hS => (k2 S hS).trans (by linarith)
  obtain ⟨Ls, l1, _⟩ := h1.law
  obtain ⟨_, _, _⟩ := hPQ.dominates Ls l1
  exact ⟨d1, d2, d1.postprocess κ, d2.postprocess κ⟩

/-- **C22 (disagreement).** The restriction on the infinity mass in `PldHistory` is needed: `self_compose` of a dense PMF
adds the whole `tail_mass_truncation` to the infinity mass, which can exceed one, and composing two such results *lowers*
it again. Here a mechanism with delta at least 1/2 for every `eps` is self-composed twice with truncation 3/4 and the
result composed with itself: for some `eps` the reported delta is strictly below the exact delta of four applications. -/
theorem C22_truncation_over_one_unsound (nfl : ℕ → ℕ) (hnfl : ∀ k, k ≤ nfl k) :
    ∃ p r s : Pld, ProperPld p ∧ p.selfCompose nfl 2 (3/4) = .ok r ∧ r.compose r 0 = .ok s ∧ 1 < r.remove.infinityMass ∧
      ∃ e : ℝ, s.getDeltaForEpsilon e < p.remove.nfoldHs 4 e := by
  obtain ⟨w, n, m, f⟩ := halfInf_ok
  obtain ⟨ps, hne, hps⟩ := selfConvolve_half hnfl
  obtain ⟨c, hc⟩ := C17_dense_succeeds nfl halfInf 2 (3/4) (by norm_num) n f (by norm_num [halfInf]) (by norm_num)
  have sp := Dense.selfCompose_spec hnfl hc
  have hsp := sp.2.2.2.1
  have hinf : c.infinityMass = 5/4 + 1/4 := by
    rw [sp.2.2.2.2.2]
    have : (2 : ℤ).toNat = 2 := rfl
    rw [this]; norm_num [halfInf]
  have hcp : (Pmf.dense c).points ≠ [] := by
    unfold Dense.selfCompose at hc
    have e1 : PldCommon.selfConvolve nfl halfInf.probs (2 : ℤ).toNat (3/4) = .ok (0, ps) := hps
    rw [if_neg (by norm_num), e1] at hc
    simp only at hc
    rw [if_neg (by norm_num [halfInf])] at hc
    simp only [Except.ok.injEq] at hc
    subst hc
    intro h0
    have h1 := congrArg List.length h0
    simp [Pmf.points, Dense.points] at h1
    exact hne h1
  have hnn : (Pmf.dense c).NonNeg := ⟨by show 0 ≤ c.infinityMass; rw [hinf]; norm_num, hsp.nonneg n⟩
  obtain ⟨s, hs⟩ := C13_compose_succeeds (.dense c) (.dense c) 0 (hsp.wf w) (hsp.wf w) hnn hnn rfl rfl hcp hcp (Or.inl rfl)
  have sps := composePmfs_spec hs (hsp.wf w) (hsp.wf w)
  refine ⟨mk' (.dense halfInf) none, mk' (.dense c) none, mk' s none, ⟨valid_none w, rfl, n, n, m, m⟩, ?_, ?_, ?_, ?_⟩
  · unfold Pld.selfCompose
    simp [mk', Pmf.selfCompose, hc]
  · unfold Pld.compose
    simp [mk', hs]
  · show 1 < c.infinityMass
    rw [hinf]; norm_num
  · obtain ⟨e, he, h0⟩ := exists_big s.points s.disc
    refine ⟨e, ?_⟩
    rw [Pld.getDelta_eq (valid_none (sps.wf (hsp.wf w) (hsp.wf w))), hs_eq_of_symm (valid_none (sps.wf (hsp.wf w) (hsp.wf w))) rfl]
    show s.hs e < (Pmf.dense halfInf).nfoldHs 4 e
    unfold Pmf.hs hockeyStick Pmf.nfoldHs
    rw [he, sps.exact_inf rfl]
    have h1 : (Pmf.dense c).infinityMass = 5/4 + 1/4 := hinf
    have h2 : (Pmf.dense halfInf).infinityMass = 1/2 := rfl
    have h3 : 0 ≤ nfold (Pmf.dense halfInf).points 4 (fun k => hinge (e : EReal) (k * (Pmf.dense halfInf).disc)) := by
      rw [← expect_nfoldPts]
      exact expect_nonneg (nfoldPts_nonneg n.2 4) fun _ _ => hinge_nonneg _ _
    rw [h1, h2]
    linarith

/-- Non-vacuity: an `(eps, delta)`-DP requirement, its PLD from `from_privacy_parameters`, composed twice by hand, then
self-composed: a history for six applications; and adaptive pairs for it exist. -/
example (disc : ℝ) (hd : 0 < disc) (nfl : ℕ → ℕ) :
    ∃ (C : PairProp) (p q r : Pld), PldHistory nfl [C] p ∧ p.compose p 0 = .ok q ∧ PldHistory nfl [C, C] q ∧
      q.selfCompose nfl 3 0 = .ok r ∧ PldHistory nfl [C, C, C, C, C, C] r ∧
      (∃ P Q : Measure (Fin 2), C (Fin 2) P Q ∧ P ≠ Q) := by
  obtain ⟨p, h1, h2, h3, h4, h5, h6, h7⟩ := C21_succeeds (Real.log 3) 0 disc le_rfl zero_le_one hd
  have he : 0 ≤ Real.log 3 := Real.log_nonneg (by norm_num)
  have hadd := h2.symm h3
  have hh : PldHistory nfl [fun Ω [MeasurableSpace Ω] P Q => Indist P Q (Real.log 3) 0 ∧ Indist Q P (Real.log 3) 0] p := by
    refine .mechanism ⟨h2, h7, h4, by rw [hadd]; exact h4, h5, by rw [hadd]; exact h5⟩ ?_
    intro Ω _ P Q _ _ hC
    rw [hadd]
    have e : ∀ x : ℝ, p.getDeltaForEpsilon x = p.remove.getDeltaForEpsilon x := fun x => by
      unfold Pld.getDeltaForEpsilon; rw [if_pos h3]
    exact ⟨fun x => by simp only [← e]; exact (C21_dominates (Real.log 3) 0 disc he zero_le_one hd p h1 P Q hC.1 hC.2 x).1, fun x => by simp only [← e]; exact (C21_dominates (Real.log 3) 0 disc he zero_le_one hd p h1 P Q hC.1 hC.2 x).2⟩
  have hpos : 0 < finiteMass p.remove.points := by
    obtain ⟨m, g, g1, g2, g3, g4, g5, g6, _⟩ := fromPrivacyParameters_spec (Real.log 3) 0 hd
    rw [g] at h1
    simp only [Except.ok.injEq] at h1
    subst h1
    have : totalMass m = 1 := h5
    unfold totalMass at this
    rw [g3] at this
    show 0 < finiteMass m.points
    linarith
  have hp0 : p.remove.points ≠ [] := by intro h0; rw [h0] at hpos; simp [finiteMass, expect] at hpos
  have hi : p.remove.infinityMass = 0 := by
    obtain ⟨m, g, g1, g2, g3, g4, g5, g6, _⟩ := fromPrivacyParameters_spec (Real.log 3) 0 hd
    rw [g] at h1
    simp only [Except.ok.injEq] at h1
    subst h1
    exact g3
  obtain ⟨q, hq⟩ := C13_compose_succeeds p.remove p.remove 0 h2.wfRemove h2.wfRemove h4 h4 rfl rfl hp0 hp0 (Or.inl rfl)
  have sp := composePmfs_spec hq h2.wfRemove h2.wfRemove
  have hq' : p.compose p 0 = .ok (mk' q none) := by unfold Pld.compose; simp [hq, h3]
  have hqi : q.infinityMass = 0 := by rw [sp.exact_inf rfl, hi]; norm_num
  have hqm : 0 < finiteMass q.points := by
    have := C13_compose_mass p.remove p.remove q h2.wfRemove h2.wfRemove h5 h5 hq
    unfold totalMass at this
    linarith
  obtain ⟨r, hr⟩ := C16_self_compose_succeeds nfl q 3 (by norm_num) (sp.wf h2.wfRemove h2.wfRemove)
    ⟨hqi.ge, (sp.nonneg h4 h4).1⟩ hqm (by rw [hqi]; norm_num)
  have hr' : (mk' q none).selfCompose nfl 3 0 = .ok (mk' r none) := by unfold Pld.selfCompose; simp [mk', hr]
  have hh2 := PldHistory.compose hh hh hq' (fun h => absurd rfl h)
  refine ⟨_, p, _, _, hh, hq', hh2, hr', hh2.selfCompose le_rfl hr' (fun h => absurd rfl h), ?_⟩
  obtain ⟨P, Q, _, _, i1, i2, hne⟩ := rr_pair_indist
  exact ⟨P, Q, ⟨i1, i2⟩, hne⟩

end Verif.Props
