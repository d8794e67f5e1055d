import Verif.Proofs.Discretization
import Verif.Proofs.PldLibrarySound
import Verif.Proofs.Guarantee
import Mathlib.MeasureTheory.Measure.Decomposition.Lebesgue

/-! # The PLDs of the accountant are not far above the exact privacy loss distributions -/

namespace Verif.Spec
open MeasureTheory ProbabilityTheory Verif.Pld Verif.PldPmf Verif.Mech

/-! ### Every pair of distributions has a privacy loss law -/

lemma exists_lossLaw {Ω : Type*} [MeasurableSpace Ω] (P Q : Measure Ω) [IsProbabilityMeasure P] [IsProbabilityMeasure Q] :
    ∃ L : LossLaw, L.Of P Q := by
  obtain ⟨T, hT, hs, hQ⟩ := Measure.mutuallySingular_singularPart P Q
  have hd : P.restrict T = Q.withDensity fun x => ENNReal.ofReal (P.rnDeriv Q x).toReal := by
    have e : Q.withDensity (fun x => ENNReal.ofReal (P.rnDeriv Q x).toReal) = Q.withDensity (P.rnDeriv Q) := by
      refine withDensity_congr_ae ?_
      filter_upwards [Measure.rnDeriv_ne_top P Q] with x hx
      rw [ENNReal.ofReal_toReal hx]
    rw [e]
    conv_lhs => rw [Measure.haveLebesgueDecomposition_add P Q, Measure.restrict_add]
    have h1 : (P.singularPart Q).restrict T = 0 := Measure.restrict_eq_zero.2 hs
    have h2 : (Q.withDensity (P.rnDeriv Q)).restrict T = Q.withDensity (P.rnDeriv Q) := by
      refine Measure.restrict_eq_self_of_ae_mem ?_
      exact (withDensity_absolutelyContinuous Q _).ae_le (show T ∈ ae Q by rw [mem_ae_iff]; exact hQ)
    rw [h1, h2, zero_add]
  refine ⟨⟨P.real Tᶜ, (P.restrict T).map fun x => Real.log (P.rnDeriv Q x).toReal, inferInstance, measureReal_nonneg, ?_⟩,
    Tᶜ, fun x => (P.rnDeriv Q x).toReal, hT.compl, (Measure.measurable_rnDeriv P Q).ennreal_toReal, fun _ => ENNReal.toReal_nonneg, hQ, rfl, ?_, ?_⟩
  · have hm : Measurable fun x => Real.log (P.rnDeriv Q x).toReal := (Measure.measurable_rnDeriv P Q).ennreal_toReal.log
    rw [measureReal_def (Measure.map _ _), Measure.map_apply hm MeasurableSet.univ, Set.preimage_univ, Measure.restrict_apply_univ, ← measureReal_def,
      add_comm]
    exact measureReal_add_measureReal_compl hT |>.trans probReal_univ
  · rw [compl_compl]; exact hd
  · rw [compl_compl]

/-! ### Composition of upper bounds -/

lemma expect_integral {μ : Measure ℝ} (l : List (ℤ × ℝ)) {g : ℤ → ℝ → ℝ} (hg : ∀ k, Integrable (g k) μ) :
    Integrable (fun y => expect l fun k => g k y) μ ∧ expect l (fun k => ∫ y, g k y ∂μ) = ∫ y, expect l (fun k => g k y) ∂μ := by
  induction l with
  | nil => simp
  | cons x l ih =>
    obtain ⟨k, v⟩ := x
    simp only [expect_cons]
    refine ⟨((hg k).const_mul v).add ih.1, ?_⟩
    rw [ih.2, integral_add ((hg k).const_mul v) ih.1, integral_const_mul]

/-- The sum of independent losses with bounds on the privacy curves. -/
lemma mix_le {iA dA iB dB αA αB sA sB : ℝ} {A B : List (ℤ × ℝ)} {LA LB : LossLaw} (nB : ∀ x ∈ B, 0 ≤ x.2)
    (hA : ∀ e : ℝ, hockeyStick iA dA A (e : EReal) ≤ LA.hs (e - αA) + sA)
    (hB : ∀ e : ℝ, hockeyStick iB dB B (e : EReal) ≤ LB.hs (e - αB) + sB) (mB : iB + finiteMass B ≤ 1 + sB) (e : ℝ) :
    mixHs iA dA A iB dB B e ≤ (LB.conv LA).hs (e - αA - αB) + finiteMass B * sA + sB := by
  have hfin := LA.fin
  unfold mixHs
  have h1 : expect B (fun j => hockeyStick iA dA A ((e - j * dB : ℝ) : EReal)) ≤ expect B (fun j => LA.hs (e - j * dB - αA) + sA) :=
    expect_mono nB fun x _ => hA _
  rw [expect_add, expect_const] at h1
  have hint : ∀ x : ℝ, Integrable (fun y => hinge (x : EReal) y) LA.μ := fun x => integrable_hinge _ _
  have h2 : expect B (fun j => LA.hs (e - j * dB - αA)) = finiteMass B * LA.inf + ∫ y, expect B (fun j => hinge ((e - j * dB - αA : ℝ) : EReal) y) ∂LA.μ := by
    unfold LossLaw.hs lossHs
    rw [expect_add, expect_const, (expect_integral B fun k => hint (e - k * dB - αA)).2]
  have h3 : ∀ y : ℝ, expect B (fun j => hinge ((e - j * dB - αA : ℝ) : EReal) y) = hockeyStick iB dB B ((e - αA - y : ℝ) : EReal) - iB := by
    intro y
    unfold hockeyStick
    rw [add_sub_cancel_left]
    refine expect_congr fun x _ => ?_
    rw [hinge_coe, hinge_coe]
    ring_nf
  have hI : Integrable (fun y => expect B (fun j => hinge ((e - j * dB - αA : ℝ) : EReal) y)) LA.μ :=
    (expect_integral B fun k => hint (e - k * dB - αA)).1
  have hmeas : Measurable fun y => LB.hs (e - αA - αB - y) := (measurable_lossHs LB).comp (measurable_const.sub measurable_id)
  have hJ : Integrable (fun y => LB.hs (e - αA - αB - y)) LA.μ := by
    refine Integrable.of_bound hmeas.aestronglyMeasurable 1 (ae_of_all _ fun y => ?_)
    obtain ⟨b0, b1⟩ := hs_bounds LB (e - αA - αB - y)
    rw [Real.norm_eq_abs, abs_of_nonneg b0]; exact b1
  have h4 : ∫ y, expect B (fun j => hinge ((e - j * dB - αA : ℝ) : EReal) y) ∂LA.μ ≤ ∫ y, (LB.hs (e - αA - αB - y) + (sB - iB)) ∂LA.μ := by
    refine integral_mono hI (hJ.add (integrable_const _)) fun y => ?_
    have := hB (e - αA - y)
    simp only [h3]
    rw [show e - αA - y - αB = e - αA - αB - y by ring] at this
    linarith
  rw [integral_add hJ (integrable_const _), integral_const, smul_eq_mul] at h4
  have h5 := conv_hs LB LA (e - αA - αB)
  have h6 : LA.μ.real Set.univ = 1 - LA.inf := by linarith [LA.mass]
  rw [h6] at h4
  have h7 := mul_le_mul_of_nonneg_left mB LA.inf_nonneg
  nlinarith

/-! ### One direction -/

/-- `m` reports at most the deltas of the law `L` at an epsilon reduced by `a`, plus `s`. -/
structure TightDir (m : Pmf) (L : LossLaw) (a s : ℝ) : Prop where
  wf : m.WF
  nonneg : m.NonNeg
  pess : m.pessimistic = true
  lo : 1 ≤ totalMass m
  hi : totalMass m ≤ 1 + s
  hs : ∀ e : ℝ, m.hs (e : EReal) ≤ L.hs (e - a) + s

lemma TightDir.weaken {m : Pmf} {L : LossLaw} {a s a' s' : ℝ} (h : TightDir m L a s) (ha : a ≤ a') (hs : s ≤ s') : TightDir m L a' s' := by
  refine ⟨h.wf, h.nonneg, h.pess, h.lo, h.hi.trans (by linarith), fun e => (h.hs e).trans ?_⟩
  have := hs_antitone L (show e - a' ≤ e - a by linarith)
  linarith

lemma TightDir.compose {a b c : Pmf} {La Lb : LossLaw} {α β s s' t : ℝ} (ha : TightDir a La α s) (hb : TightDir b Lb β s') (hi : b.infinityMass ≤ 1)
    (hs : 0 ≤ s) (ht : 0 ≤ t) (h : composePmfs a b t = .ok c) : TightDir c (La.conv Lb) (α + β) (s * (1 + s') + s' + t) := by
  have sp := composePmfs_spec h ha.wf hb.wf
  have hnn := sp.nonneg ha.nonneg hb.nonneg
  have hmass := sp.mass ha.nonneg hb.nonneg ha.pess
  have fa := Verif.finiteMass_nonneg ha.nonneg
  have fb := Verif.finiteMass_nonneg hb.nonneg
  have ia := ha.nonneg.1
  have ib := hb.nonneg.1
  have la := ha.lo
  have lb := hb.lo
  have ua := ha.hi
  have ub := hb.hi
  unfold totalMass at la lb ua ub
  have hc : totalMass c = (a.infinityMass + finiteMass a.points) * (b.infinityMass + finiteMass b.points) -
      a.infinityMass * (b.infinityMass + finiteMass b.points - 1) - b.infinityMass * (a.infinityMass + finiteMass a.points - 1) := by
    unfold totalMass; rw [hmass]; ring
  have p1 : 0 ≤ a.infinityMass * (b.infinityMass + finiteMass b.points - 1) := mul_nonneg ia (by linarith)
  have p2 : 0 ≤ b.infinityMass * (a.infinityMass + finiteMass a.points - 1) := mul_nonneg ib (by linarith)
  refine ⟨sp.wf ha.wf hb.wf, ⟨?_, hnn.1⟩, by rw [sp.pess]; exact ha.pess, ?_, ?_, ?_⟩
  · nlinarith [hnn.2]
  · rw [hc]
    nlinarith [mul_nonneg (show 0 ≤ a.infinityMass + finiteMass a.points - 1 by linarith) (sub_nonneg.2 hi),
      mul_nonneg (show 0 ≤ b.infinityMass + finiteMass b.points - 1 by linarith) fa]
  · rw [hc]
    have : (a.infinityMass + finiteMass a.points) * (b.infinityMass + finiteMass b.points) ≤ (1 + s) * (1 + s') :=
      mul_le_mul ua ub (by linarith) (by linarith)
    nlinarith
  · intro e
    have up := (sp.up ha.nonneg hb.nonneg ha.pess _ (hinge_key_monotone (WF_disc ha.wf).le (e : EReal)) (fun _ => hinge_nonneg _ _)
      fun _ => hinge_le_one _ _).2
    rw [max_eq_right ht] at up
    have mix := mix_le (LA := La) (LB := Lb) hb.nonneg.2 ha.hs hb.hs ub e
    have e1 : mixHs a.infinityMass a.disc a.points b.infinityMass b.disc b.points e = b.infinityMass + finiteMass b.points * a.infinityMass +
        convE a.points b.points (fun k => hinge (e : EReal) (k * a.disc)) := by
      unfold mixHs hockeyStick
      rw [expect_add, expect_const, expect_comm]
      unfold convE
      rw [← add_assoc]
      congr 1
      refine expect_congr fun x _ => expect_congr fun y _ => ?_
      rw [hinge_shift_left, sp.disc']
      push_cast
      ring_nf
    rw [conv_comm, show e - (α + β) = e - α - β by ring]
    unfold Pmf.hs hockeyStick
    rw [sp.disc]
    have hF : finiteMass b.points * s ≤ (1 + s') * s := mul_le_mul_of_nonneg_right (by linarith) hs
    nlinarith

/-- The sum of `n` independent losses. -/
lemma nfold_le {m : Pmf} {L : LossLaw} {a τ : ℝ} (nm : m.NonNeg) (hm : totalMass m = 1) (hτ : 0 ≤ τ) (h : ∀ e : ℝ, m.hs (e : EReal) ≤ L.hs (e - a) + τ)
    (n : ℕ) : ∀ e : ℝ, m.nfoldHs n (e : EReal) ≤ (L.pow n).hs (e - n * a) + n * τ := by
  have hi := nm.1
  have hf := Verif.finiteMass_nonneg nm
  induction n with
  | zero =>
    intro e
    simp [Pmf.nfoldHs, nfold, LossLaw.pow, LossLaw.zero, LossLaw.hs, lossHs]
  | succ n ih =>
    intro e
    rw [nfoldHs_mix hm]
    have key := mix_le (LA := L.pow n) (LB := L) (dA := m.disc) (dB := m.disc) (sA := n * τ) (sB := τ) nm.2 (fun e => by
      have := ih e
      rwa [nfoldHs_eq] at this) h (by unfold totalMass at hm; linarith) e
    have hF : finiteMass m.points * (n * τ) ≤ 1 * (n * τ) := mul_le_mul_of_nonneg_right (by unfold totalMass at hm; linarith) (by positivity)
    rw [show e - ((n + 1 : ℕ) : ℝ) * a = e - n * a - a by push_cast; ring]
    rw [LossLaw.pow]
    push_cast
    linarith

lemma TightDir.selfCompose {m c : Pmf} {L : LossLaw} {a τ t : ℝ} {nfl : ℕ → ℕ} (hnfl : ∀ k, k ≤ nfl k) {n : ℤ} (wf : m.WF) (nm : m.NonNeg)
    (pess : m.pessimistic = true) (hm : totalMass m = 1) (hτ : 0 ≤ τ) (ht : 0 ≤ t) (hs : ∀ e : ℝ, m.hs (e : EReal) ≤ L.hs (e - a) + τ)
    (h : m.selfCompose nfl n t = .ok c) : TightDir c (L.pow n.toNat) (n.toNat * a) (n.toNat * τ + 2 * t) := by
  have hi := nm.1
  have hf := Verif.finiteMass_nonneg nm
  have hm' : m.infinityMass + finiteMass m.points = 1 := hm
  have hi1 : m.infinityMass ≤ 1 := by linarith
  obtain ⟨-, sp⟩ := Pmf.selfCompose_spec hnfl wf hi1 h
  have up1 := sp.up nm pess ht (fun _ => 1) (fun _ _ _ => le_rfl) (fun _ => zero_le_one) (fun _ => le_rfl)
  have up0 := sp.up nm pess ht (fun _ => 0) (fun _ _ _ => le_rfl) (fun _ => le_rfl) (fun _ => zero_le_one)
  rw [nfold_one] at up1
  have ef : finiteMass m.points = 1 - m.infinityMass := by linarith
  rw [ef] at up1
  have e0 : nfold m.points n.toNat (fun _ => 0) = 0 := by
    rw [← expect_nfoldPts]; simp
  rw [e0] at up0
  simp only [expect_zero] at up0
  have hp1 : (1 - m.infinityMass) ^ n.toNat ≤ 1 := pow_le_one₀ (by linarith) (by linarith)
  have nτ : 0 ≤ n.toNat * τ := by positivity
  have hc : totalMass c = c.infinityMass + expect c.points fun _ => 1 := rfl
  refine ⟨sp.wf wf, ⟨by linarith [up0.1], sp.nonneg nm⟩, by rw [sp.pess]; exact pess, by rw [hc]; linarith [up1.1], by rw [hc]; linarith [up1.2], fun e => ?_⟩
  have up := (sp.up nm pess ht _ (hinge_key_monotone (WF_disc wf).le (e : EReal)) (fun _ => hinge_nonneg _ _) fun _ => hinge_le_one _ _).2
  have key := nfold_le nm hm hτ hs n.toNat e
  unfold Pmf.nfoldHs at key
  unfold Pmf.hs hockeyStick
  rw [sp.disc]
  linarith

end Verif.Spec
