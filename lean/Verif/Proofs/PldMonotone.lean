import Verif.Proofs.PldPmfSelf
import Verif.Proofs.Pld
import Verif.Spec.PldHistory

/-! # Composing does not lower the hockey-stick divergence -/

namespace Verif
open Spec PldPmf PldCommon

lemma hs_nonneg {m : Pmf} (h : m.NonNeg) (e : EReal) : 0 ≤ m.hs e := by
  unfold Pmf.hs hockeyStick
  have := expect_nonneg h.2 (φ := fun k => hinge e (k * m.disc)) fun x _ => hinge_nonneg _ _
  linarith [h.1]

lemma finiteMass_nonneg {m : Pmf} (h : m.NonNeg) : 0 ≤ finiteMass m.points := expect_nonneg h.2 fun _ _ => by norm_num

lemma hs_le_total {m : Pmf} (h : m.NonNeg) (e : EReal) : m.hs e ≤ totalMass m := by
  unfold Pmf.hs hockeyStick totalMass finiteMass
  have := expect_mono h.2 (φ := fun k => hinge e (k * m.disc)) (ψ := fun _ => 1) fun x _ => hinge_le_one _ _
  linarith

/-- The exact sum of two independent losses: its divergence is at least that of the first one, except for the excess of its total mass
over one. -/
lemma sumHs_ge {a b : Pmf} (ha : a.NonNeg) (hb : b.NonNeg) (hd : b.disc = a.disc) (hg : ∀ x : ℝ, 1 - Real.exp x ≤ b.hs (x : EReal)) (e : ℝ) :
    a.hs (e : EReal) - b.infinityMass * (totalMass a - 1) ≤ a.infinityMass + b.infinityMass - a.infinityMass * b.infinityMass +
      convE a.points b.points fun k => hinge (e : EReal) (k * a.disc) := by
  have key : ∀ i : ℤ, hinge (e : EReal) (i * a.disc) - b.infinityMass ≤
      expect b.points fun j => hinge (e : EReal) (((i + j : ℤ) : ℝ) * a.disc) := by
    intro i
    have h1 := max_le (hs_nonneg hb ((e - i * a.disc : ℝ) : EReal)) (hg (e - i * a.disc))
    rw [hinge_coe]
    unfold Pmf.hs hockeyStick at h1
    have h2 : (expect b.points fun k => hinge ((e - i * a.disc : ℝ) : EReal) (k * b.disc)) =
        expect b.points fun j => hinge (e : EReal) (((i + j : ℤ) : ℝ) * a.disc) := by
      refine expect_congr fun x _ => ?_
      rw [hinge_coe, hinge_coe, hd]
      push_cast
      congr 3
      ring
    rw [h2] at h1
    linarith
  have h3 := expect_mono ha.2 (φ := fun i => hinge (e : EReal) (i * a.disc) - b.infinityMass)
    (ψ := fun i => expect b.points fun j => hinge (e : EReal) (((i + j : ℤ) : ℝ) * a.disc)) fun x _ => key x.1
  rw [expect_sub, expect_const] at h3
  unfold convE Pmf.hs hockeyStick totalMass
  linarith

lemma hinge_key_monotone {d : ℝ} (hd : 0 ≤ d) (e : EReal) : Monotone fun k : ℤ => hinge e (k * d) := by
  intro x y h
  exact hinge_mono e (mul_le_mul_of_nonneg_right (by exact_mod_cast h) hd)

lemma WF_disc {m : Pmf} (h : m.WF) : 0 < m.disc := by
  cases m with
  | dense d => exact h
  | sparse s => exact h.1

/-- `compose`, with any truncation. -/
lemma compose_hs_ge {a b c : Pmf} {t : ℝ} (h : composePmfs a b t = .ok c) (haw : a.WF) (hbw : b.WF) (ha : a.NonNeg) (hb : b.NonNeg)
    (hp : a.pessimistic = true) (hg : ∀ x : ℝ, 1 - Real.exp x ≤ b.hs (x : EReal)) (e : ℝ) :
    a.hs (e : EReal) - b.infinityMass * (totalMass a - 1) ≤ c.hs (e : EReal) := by
  have sp := composePmfs_spec h haw hbw
  have h1 := sumHs_ge ha hb sp.disc' hg e
  have h2 := (sp.up ha hb hp (fun k => hinge (e : EReal) (k * a.disc)) (hinge_key_monotone (WF_disc haw).le _) (fun _ => hinge_nonneg _ _)
    fun _ => hinge_le_one _ _).1
  unfold Pmf.hs hockeyStick at h1 ⊢
  rw [sp.disc]
  linarith

lemma convE_comm (a b : List (ℤ × ℝ)) (φ : ℤ → ℝ) : convE a b φ = convE b a φ := by
  unfold convE
  rw [expect_comm]
  simp only [add_comm]

/-- The same for the other operand. -/
lemma compose_hs_ge' {a b c : Pmf} {t : ℝ} (h : composePmfs a b t = .ok c) (haw : a.WF) (hbw : b.WF) (ha : a.NonNeg) (hb : b.NonNeg)
    (hp : a.pessimistic = true) (hg : ∀ x : ℝ, 1 - Real.exp x ≤ a.hs (x : EReal)) (e : ℝ) :
    b.hs (e : EReal) - a.infinityMass * (totalMass b - 1) ≤ c.hs (e : EReal) := by
  have sp := composePmfs_spec h haw hbw
  have h1 := sumHs_ge hb ha sp.disc'.symm hg e
  have h2 := (sp.up ha hb hp (fun k => hinge (e : EReal) (k * a.disc)) (hinge_key_monotone (WF_disc haw).le _) (fun _ => hinge_nonneg _ _)
    fun _ => hinge_le_one _ _).1
  rw [convE_comm, sp.disc'] at h1
  unfold Pmf.hs hockeyStick at h1 ⊢
  rw [sp.disc, sp.disc']
  rw [sp.disc'] at h1
  linarith

/-- The exact `n`-fold sum. -/
lemma nfold_ge {m : Pmf} (hm : m.NonNeg) (ht : totalMass m = 1) (hg : ∀ x : ℝ, 1 - Real.exp x ≤ m.hs (x : EReal)) (n : ℕ) :
    ∀ e : ℝ, max 0 (1 - Real.exp e) ≤ m.nfoldHs n (e : EReal) ∧ (1 ≤ n → m.hs (e : EReal) ≤ m.nfoldHs n (e : EReal)) := by
  have hf : finiteMass m.points = 1 - m.infinityMass := by unfold totalMass at ht; linarith
  induction n with
  | zero =>
    intro e
    refine ⟨?_, fun h => absurd h (by omega)⟩
    unfold Pmf.nfoldHs
    simp [nfold, hinge_coe]
  | succ n ih =>
    intro e
    have key : ∀ i : ℤ, hinge (e : EReal) (i * m.disc) - 1 + (1 - m.infinityMass) ^ n ≤
        nfold m.points n fun k => hinge (e : EReal) (((i + k : ℤ) : ℝ) * m.disc) := by
      intro i
      have h1 := (ih (e - i * m.disc)).1
      unfold Pmf.nfoldHs at h1
      rw [hinge_coe]
      have h2 : (fun k : ℤ => hinge ((e - i * m.disc : ℝ) : EReal) (k * m.disc)) =
          fun k : ℤ => hinge (e : EReal) (((i + k : ℤ) : ℝ) * m.disc) := by
        funext k
        rw [hinge_coe, hinge_coe]
        push_cast
        congr 3
        ring
      rw [h2] at h1
      linarith
    have h3 := expect_mono hm.2 (φ := fun i => hinge (e : EReal) (i * m.disc) - (1 - (1 - m.infinityMass) ^ n))
      (ψ := fun i => nfold m.points n fun k => hinge (e : EReal) (((i + k : ℤ) : ℝ) * m.disc)) fun x _ => by
        have := key x.1; linarith
    rw [expect_sub, expect_const, hf] at h3
    have h4 : m.hs (e : EReal) ≤ m.nfoldHs (n + 1) (e : EReal) := by
      unfold Pmf.nfoldHs Pmf.hs hockeyStick
      rw [nfold, pow_succ]
      linarith
    exact ⟨(max_le (hs_nonneg hm _) (hg e)).trans h4, fun _ => h4⟩

lemma nfold_sub (l : List (ℤ × ℝ)) (n : ℕ) : ∀ (φ ψ : ℤ → ℝ), (nfold l n fun k => φ k - ψ k) = nfold l n φ - nfold l n ψ := by
  induction n with
  | zero => intro φ ψ; rfl
  | succ n ih => intro φ ψ; simp only [nfold, ih, expect_sub]

/-- One more repetition. -/
lemma nfoldHs_succ {m : Pmf} (hm : m.NonNeg) (ht : totalMass m = 1) (hg : ∀ x : ℝ, 1 - Real.exp x ≤ m.hs (x : EReal)) (n : ℕ) (e : ℝ) :
    m.nfoldHs n (e : EReal) ≤ m.nfoldHs (n + 1) (e : EReal) := by
  have hf : finiteMass m.points = 1 - m.infinityMass := by unfold totalMass at ht; linarith
  have key : ∀ i : ℤ, hinge (e : EReal) (i * m.disc) - m.infinityMass ≤
      expect m.points fun k => hinge (e : EReal) (((i + k : ℤ) : ℝ) * m.disc) := by
    intro i
    have h1 := max_le (hs_nonneg hm ((e - i * m.disc : ℝ) : EReal)) (hg (e - i * m.disc))
    rw [hinge_coe]
    unfold Pmf.hs hockeyStick at h1
    have h2 : (expect m.points fun k => hinge ((e - i * m.disc : ℝ) : EReal) (k * m.disc)) =
        expect m.points fun j => hinge (e : EReal) (((i + j : ℤ) : ℝ) * m.disc) := by
      refine expect_congr fun x _ => ?_
      rw [hinge_coe, hinge_coe]
      push_cast
      congr 3
      ring
    rw [h2] at h1
    linarith
  have h3 := nfold_mono hm.2 n key
  rw [nfold_sub, nfold_const, hf] at h3
  unfold Pmf.nfoldHs
  rw [nfold_succ', pow_succ]
  linarith

/-! ### Masses after `self_compose` -/

lemma nfold_one (l : List (ℤ × ℝ)) (n : ℕ) : (nfold l n fun _ => 1) = finiteMass l ^ n := by
  induction n with
  | zero => rfl
  | succ n ih => rw [nfold, ih, expect_const, pow_succ, mul_comm]

lemma Dense.selfCompose_mass {nfl : ℕ → ℕ} (hnfl : ∀ k, k ≤ nfl k) {d c : Dense} {n : ℤ} {t : ℝ}
    (h : d.selfCompose nfl n t = .ok c) (hd : (Pmf.dense d).NonNeg) :
    finiteMass c.points ≤ finiteMass d.points ^ n.toNat ∧ c.infinityMass = t + (1 - (1 - d.infinityMass) ^ n.toNat) := by
  obtain ⟨hn, -, -, -, -, h2⟩ := Dense.selfCompose_spec hnfl h
  refine ⟨?_, h2⟩
  unfold Dense.selfCompose at h
  rw [if_neg (by omega)] at h
  cases hsc : selfConvolve nfl d.probs n.toNat t with
  | error e => rw [hsc] at h; simp at h
  | ok r =>
    obtain ⟨lo, ps⟩ := r
    rw [hsc] at h
    simp only at h
    split_ifs at h
    simp only [Except.ok.injEq] at h
    subst h
    obtain ⟨upper, -, N, K, -, -, -, -, -, hs⟩ := selfConvolve_wsum hnfl hsc
    rw [← nfold_one, nfold_dense]
    unfold finiteMass
    rw [expect_dense_wsum, hs]
    exact pE_mono ((PNonneg.polyOf ((dense_nonneg_iff d).1 hd.2)).pow _) fun i _ => by split_ifs <;> norm_num

lemma Pmf.selfCompose_mass {nfl : ℕ → ℕ} (hnfl : ∀ k, k ≤ nfl k) {m c : Pmf} {n : ℤ} {t : ℝ} (ht : 0 ≤ t) (hw : m.WF) (hm : m.NonNeg)
    (hp : m.pessimistic = true) (h1 : m.infinityMass ≤ 1) (h : m.selfCompose nfl n t = .ok c) :
    finiteMass c.points ≤ finiteMass m.points ^ n.toNat ∧
      c.infinityMass + finiteMass c.points ≤ 1 - (1 - m.infinityMass) ^ n.toNat + finiteMass m.points ^ n.toNat + t := by
  have dense : ∀ {d c : Dense}, d.selfCompose nfl n t = .ok c → (Pmf.dense d).NonNeg →
      finiteMass (Pmf.dense c).points ≤ finiteMass (Pmf.dense d).points ^ n.toNat ∧
      (Pmf.dense c).infinityMass + finiteMass (Pmf.dense c).points ≤
        1 - (1 - (Pmf.dense d).infinityMass) ^ n.toNat + finiteMass (Pmf.dense d).points ^ n.toNat + t := by
    intro d c h hd
    obtain ⟨a, b⟩ := Dense.selfCompose_mass hnfl h hd
    refine ⟨a, ?_⟩
    change c.infinityMass + finiteMass c.points ≤ 1 - (1 - d.infinityMass) ^ n.toNat + finiteMass d.points ^ n.toNat + t
    linarith
  cases m with
  | dense d =>
    simp only [Pmf.selfCompose] at h
    cases hc : d.selfCompose nfl n t with
    | error e => rw [hc] at h; simp at h
    | ok r =>
      rw [hc] at h
      simp only [Except.ok.injEq] at h
      subst h
      exact dense hc hm
  | sparse s =>
    simp only [Pmf.selfCompose] at h
    unfold Sparse.selfCompose at h
    by_cases hn : n ≤ 0
    · rw [if_pos hn] at h; simp at h
    rw [if_neg hn] at h
    by_cases hn1 : n = 1
    · rw [if_pos hn1] at h
      simp only [Except.ok.injEq] at h
      subst h
      have e : n.toNat = 1 := by omega
      rw [e, pow_one, pow_one]
      exact ⟨le_rfl, by linarith⟩
    rw [if_neg hn1] at h
    split_ifs at h with hsz
    · cases hd : s.toDense with
      | error e => rw [hd] at h; simp at h
      | ok d =>
        rw [hd] at h
        simp only at h
        cases hc : d.selfCompose nfl n t with
        | error e => rw [hc] at h; simp at h
        | ok r =>
          rw [hc] at h
          simp only [Except.ok.injEq] at h
          subst h
          obtain ⟨t1, t2, t3, t4, t5, t6⟩ := Pmf.toDense_spec (m := .sparse s) hd hw
          have := dense hc (t6 hm)
          have e1 : finiteMass (Pmf.dense d).points = finiteMass (Pmf.sparse s).points := t4 _
          have e2 : (Pmf.dense d).infinityMass = (Pmf.sparse s).infinityMass := t2
          rw [e1, e2] at this
          exact this
    · cases hl : Sparse.selfComposeLoop s t (n.toNat - 1) s with
      | error e => rw [hl] at h; simp at h
      | ok r =>
        rw [hl] at h
        simp only [Except.ok.injEq] at h
        subst h
        obtain ⟨p, pw, pd, pp, pi, pe, pn, pnn, hc⟩ := Sparse.selfComposeLoop_spec hw (n.toNat - 1) 1 s r hl (by omega) hw ⟨rfl, rfl⟩
          (by ring) (fun φ => by simp [nfold]) (fun h => h.2) (fun h _ => h.1)
        have sp := Sparse.compose_spec hc
        have en : 1 + (n.toNat - 1) - 1 = n.toNat - 1 := by omega
        have en2 : n.toNat = (n.toNat - 1) + 1 := by omega
        rw [en] at pi pe
        have pnn' : (Pmf.sparse p).NonNeg := ⟨pnn hm h1, pn hm⟩
        have m1 := sp.mass pnn' hm (pp.trans hp)
        have m2 := (sp.nonneg pnn' hm).2
        have e1 : finiteMass (Pmf.sparse p).points = finiteMass (Pmf.sparse s).points ^ (n.toNat - 1) := by
          rw [← nfold_one]; exact pe _
        have e2 : (Pmf.sparse p).infinityMass = 1 - (1 - (Pmf.sparse s).infinityMass) ^ (n.toNat - 1) := pi
        rw [e1, e2] at m1
        rw [e2] at m2
        rw [en2, pow_succ, pow_succ]
        constructor <;> linarith

end Verif
