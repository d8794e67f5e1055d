import Verif.Proofs.PolygonGaussian
import Verif.Proofs.PldOrder
import Verif.Proofs.PldCtor
import Verif.Props.NoiseMonotone

/-! # Discretization intervals -/

namespace Verif.Pld
open Verif.Spec Verif.PldPmf Verif.PldCommon

lemma ceil_refine {disc : ℝ} (hd : 0 < disc) {n : ℕ} (hn : 0 < n) (x : ℝ) : (⌈x / (disc / n)⌉ : ℝ) * (disc / n) ≤ ⌈x / disc⌉ * disc := by
  have hn' : (0 : ℝ) < n := by exact_mod_cast hn
  have hle : ⌈x / (disc / n)⌉ ≤ n * ⌈x / disc⌉ := by
    refine Int.ceil_le.2 ?_
    have := mul_le_mul_of_nonneg_left (Int.le_ceil (x / disc)) hn'.le
    push_cast
    have e : x / (disc / n) = n * (x / disc) := by field_simp
    rw [e]; exact this
  have : (⌈x / (disc / n)⌉ : ℝ) ≤ n * ⌈x / disc⌉ := by exact_mod_cast hle
  calc (⌈x / (disc / n)⌉ : ℝ) * (disc / n) ≤ (n * ⌈x / disc⌉) * (disc / n) := mul_le_mul_of_nonneg_right this (by positivity)
    _ = ⌈x / disc⌉ * disc := by field_simp

lemma floor_refine {disc : ℝ} (hd : 0 < disc) {n : ℕ} (hn : 0 < n) (x : ℝ) : (⌊x / disc⌋ : ℝ) * disc ≤ ⌊x / (disc / n)⌋ * (disc / n) := by
  have := ceil_refine hd hn (-x)
  rw [neg_div, neg_div, Int.ceil_neg, Int.ceil_neg] at this
  push_cast at this
  linarith

variable {O : Type} [DecidableEq O]

lemma contribution_mono {lower upper : LogPmf O} {bound : LogProb} {pess : Bool} {φ ψ : ℝ → ℝ} (h : ∀ x, φ x ≤ ψ x) (o : O) :
    contribution lower upper bound pess φ o ≤ contribution lower upper bound pess ψ o := by
  unfold contribution
  refine add_le_add le_rfl ?_
  unfold entryLoss
  cases hl : LogPmf.get lower o using WithBot.recBotCoe with
  | bot => simp
  | coe l =>
    cases hu : LogPmf.get upper o using WithBot.recBotCoe with
    | bot => simp
    | coe u =>
      simp only [WithBot.coe_ne_bot, if_false]
      split_ifs
      · exact mul_le_mul_of_nonneg_left (h _) (Real.exp_pos u).le
      · exact le_rfl
      · exact le_rfl

lemma RoundedSpec.refine_pess {lower upper : LogPmf O} {disc : ℝ} (hd : 0 < disc) {n : ℕ} (hn : 0 < n) {bound : LogProb} {m m' : Pmf}
    (h : RoundedSpec lower upper true disc bound m) (h' : RoundedSpec lower upper true (disc / n) bound m') (e : EReal) : m'.hs e ≤ m.hs e := by
  rw [h.hs_eq, h'.hs_eq]
  exact Finset.sum_le_sum fun o _ => contribution_mono (fun x => hinge_mono e (ceil_refine hd hn x)) o

lemma RoundedSpec.refine_opt {lower upper : LogPmf O} {disc : ℝ} (hd : 0 < disc) {n : ℕ} (hn : 0 < n) {bound : LogProb} {m m' : Pmf}
    (h : RoundedSpec lower upper false disc bound m) (h' : RoundedSpec lower upper false (disc / n) bound m') (e : EReal) : m.hs e ≤ m'.hs e := by
  rw [h.hs_eq, h'.hs_eq]
  exact Finset.sum_le_sum fun o _ => contribution_mono (fun x => hinge_mono e (floor_refine hd hn x)) o

lemma compose_both {p q r : Pld} {t : ℝ} (hp : p.Valid) (hq : q.Valid) (h : p.compose q t = .ok r) :
    composePmfs p.remove q.remove t = .ok r.remove ∧ composePmfs p.add q.add t = .ok r.add := by
  unfold Pld.compose at h
  cases h1 : composePmfs p.remove q.remove t with
  | error e => rw [h1] at h; simp at h
  | ok m =>
    rw [h1] at h
    simp only at h
    by_cases hs : (p.symmetric && q.symmetric) = true
    · rw [if_pos hs] at h
      simp only [Except.ok.injEq] at h
      subst h
      rw [Bool.and_eq_true] at hs
      rw [hp.symm hs.1, hq.symm hs.2]
      exact ⟨rfl, h1⟩
    · rw [if_neg hs] at h
      cases h2 : composePmfs p.add q.add t with
      | error e => rw [h2] at h; simp at h
      | ok m' =>
        rw [h2] at h
        simp only [Except.ok.injEq] at h
        subst h
        exact ⟨rfl, rfl⟩

lemma selfCompose_both {nfl : ℕ → ℕ} {p r : Pld} {n : ℤ} {t : ℝ} (hp : p.Valid) (h : p.selfCompose nfl n t = .ok r) :
    p.remove.selfCompose nfl n t = .ok r.remove ∧ p.add.selfCompose nfl n t = .ok r.add := by
  unfold Pld.selfCompose at h
  cases h1 : p.remove.selfCompose nfl n t with
  | error e => rw [h1] at h; simp at h
  | ok m =>
    rw [h1] at h
    simp only at h
    by_cases hs : p.symmetric = true
    · rw [if_pos hs] at h
      simp only [Except.ok.injEq] at h
      subst h
      rw [hp.symm hs]
      exact ⟨rfl, h1⟩
    · rw [if_neg hs] at h
      cases h2 : p.add.selfCompose nfl n t with
      | error e => rw [h2] at h; simp at h
      | ok m' =>
        rw [h2] at h
        simp only [Except.ok.injEq] at h
        subst h
        exact ⟨rfl, rfl⟩

end Verif.Pld

namespace Verif
open Spec PldPmf PldCommon

/-- `composePmfs` with any truncation, against another composition. -/
lemma compose_order {a b c a' b' c' : Pmf} {t t' α β : ℝ} (h : composePmfs a b t = .ok c) (h' : composePmfs a' b' t' = .ok c') (ht : 0 ≤ t)
    (wa : a.WF) (wb : b.WF) (wa' : a'.WF) (wb' : b'.WF) (na : a.NonNeg) (nb : b.NonNeg) (na' : a'.NonNeg) (nb' : b'.NonNeg)
    (pa : a.pessimistic = true) (pa' : a'.pessimistic = true) (mb : totalMass b = 1) (ma' : totalMass a' = 1) (mb' : totalMass b' = 1)
    (hα : 0 ≤ α) (hβ : 0 ≤ β)
    (ha : ∀ e : ℝ, a.hs (e : EReal) ≤ a'.hs (e : EReal) + α) (hb : ∀ e : ℝ, b.hs (e : EReal) ≤ b'.hs (e : EReal) + β) (e : ℝ) :
    c.hs (e : EReal) ≤ c'.hs (e : EReal) + (α + β + t) := by
  have sp := composePmfs_spec h wa wb
  have sp' := composePmfs_spec h' wa' wb'
  have up := (sp.up na nb pa _ (hinge_key_monotone (WF_disc wa).le (e : EReal)) (fun _ => hinge_nonneg _ _) fun _ => hinge_le_one _ _).2
  have up' := (sp'.up na' nb' pa' _ (hinge_key_monotone (WF_disc wa').le (e : EReal)) (fun _ => hinge_nonneg _ _) fun _ => hinge_le_one _ _).1
  have hm := sumHs_mono sp.disc' sp'.disc' nb na' ma' mb mb' hα hβ ha hb e
  unfold Pmf.sumHs at hm
  unfold Pmf.hs hockeyStick
  rw [sp.disc, sp'.disc]
  unfold convE at up up'
  rw [max_eq_right ht] at up
  push_cast at up up' hm
  linarith

end Verif
