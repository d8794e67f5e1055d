import Verif.Proofs.PldMonotone
import Verif.Proofs.PldLaw

/-! # Compositions of distributions with smaller hockey-stick divergences have smaller hockey-stick divergences -/

namespace Verif.Spec

/-- The sum of independent losses with the laws `A` and `B`, on grids that may differ. -/
noncomputable def mixHs (iA dA : ℝ) (A : List (ℤ × ℝ)) (iB dB : ℝ) (B : List (ℤ × ℝ)) (e : ℝ) : ℝ :=
  iB + expect B fun j => hockeyStick iA dA A ((e - j * dB : ℝ) : EReal)

lemma hinge_shift_left (e a l : ℝ) : hinge ((e - a : ℝ) : EReal) l = hinge (e : EReal) (a + l) := by
  rw [hinge_coe, hinge_coe]; congr 3; ring

lemma mixHs_eq (iA dA : ℝ) (A : List (ℤ × ℝ)) (iB dB : ℝ) (B : List (ℤ × ℝ)) (hB : iB + finiteMass B = 1) (e : ℝ) :
    mixHs iA dA A iB dB B e = 1 - (1 - iA) * (1 - iB) + expect B fun j => expect A fun i => hinge (e : EReal) (j * dB + i * dA) := by
  unfold mixHs hockeyStick
  rw [expect_add, expect_const]
  simp only [hinge_shift_left]
  have : finiteMass B = 1 - iB := by linarith
  rw [this]
  linarith

lemma mixHs_comm (iA dA : ℝ) (A : List (ℤ × ℝ)) (iB dB : ℝ) (B : List (ℤ × ℝ)) (hA : iA + finiteMass A = 1) (hB : iB + finiteMass B = 1) (e : ℝ) :
    mixHs iA dA A iB dB B e = mixHs iB dB B iA dA A e := by
  rw [mixHs_eq _ _ _ _ _ _ hB, mixHs_eq _ _ _ _ _ _ hA, expect_comm]
  have h1 : (1 - iA) * (1 - iB) = (1 - iB) * (1 - iA) := mul_comm _ _
  rw [h1]
  congr 1
  refine expect_congr fun x _ => expect_congr fun y _ => ?_
  rw [add_comm]

lemma mixHs_mono_left {iA dA iA' dA' iB dB α : ℝ} {A A' B : List (ℤ × ℝ)} (hB : ∀ x ∈ B, 0 ≤ x.2) (iB0 : 0 ≤ iB) (mB : iB + finiteMass B = 1)
    (hα : 0 ≤ α) (h : ∀ e : ℝ, hockeyStick iA dA A (e : EReal) ≤ hockeyStick iA' dA' A' (e : EReal) + α) (e : ℝ) :
    mixHs iA dA A iB dB B e ≤ mixHs iA' dA' A' iB dB B e + α := by
  unfold mixHs
  have h1 : expect B (fun j => hockeyStick iA dA A ((e - j * dB : ℝ) : EReal)) ≤
      expect B (fun j => hockeyStick iA' dA' A' ((e - j * dB : ℝ) : EReal) + α) := expect_mono hB fun x _ => h _
  rw [expect_add, expect_const] at h1
  have h2 : finiteMass B * α ≤ 1 * α := mul_le_mul_of_nonneg_right (by linarith) hα
  linarith

lemma mixHs_mono {iA dA iA' dA' iB dB iB' dB' α β : ℝ} {A A' B B' : List (ℤ × ℝ)} (nB : ∀ x ∈ B, 0 ≤ x.2) (nA' : ∀ x ∈ A', 0 ≤ x.2)
    (iB0 : 0 ≤ iB) (iA0' : 0 ≤ iA')
    (mA' : iA' + finiteMass A' = 1) (mB : iB + finiteMass B = 1) (mB' : iB' + finiteMass B' = 1) (hα : 0 ≤ α) (hβ : 0 ≤ β)
    (hA : ∀ e : ℝ, hockeyStick iA dA A (e : EReal) ≤ hockeyStick iA' dA' A' (e : EReal) + α)
    (hB : ∀ e : ℝ, hockeyStick iB dB B (e : EReal) ≤ hockeyStick iB' dB' B' (e : EReal) + β) (e : ℝ) :
    mixHs iA dA A iB dB B e ≤ mixHs iA' dA' A' iB' dB' B' e + (α + β) := by
  have h1 := mixHs_mono_left (dB := dB) nB iB0 mB hα hA e
  have h2 := mixHs_mono_left (dB := dA') nA' iA0' mA' hβ hB e
  rw [mixHs_comm _ _ _ _ _ _ mB mA', mixHs_comm _ _ _ _ _ _ mB' mA'] at h2
  linarith

end Verif.Spec

namespace Verif
open Spec PldPmf PldCommon

lemma sumHs_mix {a b : Pmf} (hd : b.disc = a.disc) (mb : totalMass b = 1) (e : ℝ) :
    a.sumHs b (e : EReal) = mixHs a.infinityMass a.disc a.points b.infinityMass b.disc b.points e := by
  rw [mixHs_eq _ _ _ _ _ _ (by unfold totalMass at mb; exact mb), expect_comm]
  unfold Pmf.sumHs
  congr 1
  refine expect_congr fun x _ => expect_congr fun y _ => ?_
  rw [hd]
  push_cast
  ring_nf

/-- Composition of smaller curves. -/
lemma sumHs_mono {a b a' b' : Pmf} {α β : ℝ} (hd : b.disc = a.disc) (hd' : b'.disc = a'.disc) (nb : b.NonNeg) (na' : a'.NonNeg)
    (ma' : totalMass a' = 1) (mb : totalMass b = 1) (mb' : totalMass b' = 1) (hα : 0 ≤ α) (hβ : 0 ≤ β)
    (ha : ∀ e : ℝ, a.hs (e : EReal) ≤ a'.hs (e : EReal) + α) (hb : ∀ e : ℝ, b.hs (e : EReal) ≤ b'.hs (e : EReal) + β) (e : ℝ) :
    a.sumHs b (e : EReal) ≤ a'.sumHs b' (e : EReal) + (α + β) := by
  rw [sumHs_mix hd mb, sumHs_mix hd' mb']
  exact mixHs_mono nb.2 na'.2 nb.1 na'.1 ma' mb mb' hα hβ ha hb e

lemma nfoldPts_mass (l : List (ℤ × ℝ)) (n : ℕ) : finiteMass (nfoldPts l n) = finiteMass l ^ n := by
  have := expect_nfoldPts l n fun _ => 1
  rw [nfold_one] at this
  exact this

lemma nfoldHs_eq (m : Pmf) (n : ℕ) (e : EReal) :
    m.nfoldHs n e = hockeyStick (1 - (1 - m.infinityMass) ^ n) m.disc (nfoldPts m.points n) e := by
  unfold Pmf.nfoldHs hockeyStick
  rw [expect_nfoldPts]

lemma nfoldHs_mix {m : Pmf} (hm : totalMass m = 1) (n : ℕ) (e : ℝ) : m.nfoldHs (n + 1) (e : EReal) =
    mixHs (1 - (1 - m.infinityMass) ^ n) m.disc (nfoldPts m.points n) m.infinityMass m.disc m.points e := by
  rw [mixHs_eq _ _ _ _ _ _ (by unfold totalMass at hm; exact hm)]
  unfold Pmf.nfoldHs
  have h1 : 1 - (1 - m.infinityMass) ^ (n + 1) = 1 - (1 - (1 - (1 - m.infinityMass) ^ n)) * (1 - m.infinityMass) := by ring
  rw [h1]
  congr 1
  rw [nfold]
  refine expect_congr fun x _ => ?_
  rw [expect_nfoldPts]
  congr 1
  funext k
  push_cast
  ring_nf

/-- Self-composition of smaller curves. -/
lemma nfoldHs_mono {m m' : Pmf} {α : ℝ} (nm : m.NonNeg) (nm' : m'.NonNeg) (hm : totalMass m = 1) (hm' : totalMass m' = 1) (hα : 0 ≤ α)
    (h : ∀ e : ℝ, m.hs (e : EReal) ≤ m'.hs (e : EReal) + α) (n : ℕ) :
    ∀ e : ℝ, m.nfoldHs n (e : EReal) ≤ m'.nfoldHs n (e : EReal) + n * α := by
  have hf' : finiteMass m'.points = 1 - m'.infinityMass := by unfold totalMass at hm'; linarith
  have hi' : 0 ≤ finiteMass m'.points := Verif.finiteMass_nonneg nm'
  have hi := nm'.1
  induction n with
  | zero => intro e; simp [Pmf.nfoldHs, nfold]
  | succ n ih =>
    intro e
    rw [nfoldHs_mix hm, nfoldHs_mix hm']
    have h1 : (1 - m'.infinityMass) ^ n ≤ 1 := pow_le_one₀ (by linarith) (by linarith)
    have key := mixHs_mono nm.2 (nfoldPts_nonneg nm'.2 n) nm.1 (sub_nonneg.2 h1) (by rw [nfoldPts_mass, hf']; ring) hm hm' (α := n * α) (by positivity) hα
      (fun e => by
        have := ih e
        rwa [nfoldHs_eq, nfoldHs_eq] at this) h e
    refine key.trans (le_of_eq ?_)
    push_cast; ring

end Verif
