import Verif.Proofs.PldMonotone
import Verif.Proofs.PldLibrarySound
import Verif.Spec.PldGrow
import Verif.Props.Pld

/-! # Composing does not lower the reported delta: the accountant -/

namespace Verif.PldAccountant
open Spec

section grow
variable {P : Type} (F : PldFns P) (nr : NeighborRel) (disc : ℝ)

/-- What the traversal needs: `I k` holds after `k` compositions. -/
structure Grows (I : ℕ → P → Prop) (Fit : P → Prop) : Prop where
  mono : ∀ k p, I k p → I (k + 1) p
  step : ∀ k p q r, I k p → Fit q → F.compose p q = .ok r → I (k + 1) r
  rr : ∀ n k p, (nr = .replaceOne ∨ nr = .replaceSpecial) → F.fromRR n k nr = .ok p → Fit p
  gaussian : ∀ z c p, F.fromGaussian z c (.float 1) = .ok p → Fit p
  laplace : ∀ z c p, (F.fromLaplace z (.float 1) >>= fun p => F.selfCompose p c) = .ok p → Fit p
  sampledGaussian : ∀ z q c p, q.val ≠ 0 → GridFree disc q → (F.fromGaussian z 1 q >>= fun p => F.selfCompose p c) = .ok p → Fit p
  sampledLaplace : ∀ z q c p, q.val ≠ 0 → GridFree disc q → (F.fromLaplace z q >>= fun p => F.selfCompose p c) = .ok p → Fit p

variable {F nr disc} {I : ℕ → P → Prop} {Fit : P → Prop} (h : Grows F nr disc I Fit)
include h

lemma Grows.mono_add (k n : ℕ) (p : P) (hp : I k p) : I (k + n) p := by
  induction n with
  | zero => exact hp
  | succ n ih => exact h.mono _ _ ih

lemma Grows.composeWith {k : ℕ} {s : PldState P} {o : Except Err P} (ho : ∀ p, o = .ok p → Fit p) (hs : I k s.pld) :
    I (k + 1) (composeWith F s o).1.pld := by
  unfold PldAccountant.composeWith
  cases o with
  | error err => exact h.mono _ _ hs
  | ok p =>
    simp only
    cases hc : F.compose s.pld p with
    | error err => exact h.mono _ _ hs
    | ok r => exact h.step _ _ _ _ hs (ho p rfl) hc

lemma isZero_false {q : PyNum} (hq : ¬ isZero q = true) : q.val ≠ 0 := by simpa [isZero] using hq

mutual
theorem grow : ∀ (e : DpEvent) (c : ℤ) (doC : Bool) (s : PldState P) (k : ℕ), ExactEvent disc e → I k s.pld →
    I (k + leafCount e) (maybeCompose F nr e c doC s).1.pld
  | .noOp, _, _, s, k, _, hs => by simpa [maybeCompose, leafCount] using h.mono _ _ hs
  | .nonPrivate, _, doC, s, k, _, hs => by cases doC <;> simpa [maybeCompose, markNonDp, leafCount] using h.mono _ _ hs
  | .unsupported, _, _, s, k, _, hs => by simpa [maybeCompose, leafCount] using h.mono _ _ hs
  | .sampledWithReplacement _ _ _, _, _, s, k, _, hs => by simpa [maybeCompose, leafCount] using h.mono _ _ hs
  | .sampledWithoutReplacement _ _ _, _, _, s, k, _, hs => by simpa [maybeCompose, leafCount] using h.mono _ _ hs
  | .singleEpochTreeAggregation _ _, _, _, s, k, _, hs => by simpa [maybeCompose, leafCount] using h.mono _ _ hs
  | .repeatAndSelect _ _ _, _, _, s, k, _, hs => by simpa [maybeCompose, leafCount] using h.mono _ _ hs
  | .selfComposed e m, c, doC, s, k, he, hs => by
      simp only [maybeCompose, leafCount]; exact grow e _ doC s k (by simpa [ExactEvent] using he) hs
  | .composed es, c, doC, s, k, he, hs => by
      simp only [maybeCompose, leafCount]; exact growList es c doC s k (by simpa [ExactEvent] using he) hs
  | .randomizedResponse p n, c, doC, s, k, _, hs => by
      simp only [maybeCompose, leafCount]
      split_ifs with h1 <;> first | exact h.mono _ _ hs | exact h.composeWith (fun p hp => h.rr _ _ _ h1 hp) hs
  | .gaussian z, c, doC, s, k, _, hs => by
      simp only [maybeCompose, leafCount]
      split_ifs <;> first | exact h.mono _ _ hs | exact h.composeWith (fun p hp => h.gaussian _ _ _ hp) hs
  | .laplace z, c, doC, s, k, _, hs => by
      simp only [maybeCompose, leafCount]
      split_ifs <;> first | exact h.mono _ _ hs | exact h.composeWith (fun p hp => h.laplace _ _ _ hp) hs
  | .mixtureOfGaussians d ss ps, c, doC, s, k, he, hs => by simp [ExactEvent] at he
  | .poissonSampled q e, c, doC, s, k, he, hs => by
      have he : GridFree disc q := by simpa [ExactEvent] using he
      rcases poisson_eq F nr q e c doC s with ⟨z, rfl⟩ | ⟨z, rfl⟩ | h'
      · simp only [maybeCompose, leafCount]
        split_ifs with _ _ hq _ <;> first | exact h.mono _ _ hs | exact h.composeWith (fun p hp => h.sampledGaussian _ _ _ _ (isZero_false h hq) he hp) hs
      · simp only [maybeCompose, leafCount]
        split_ifs with _ _ hq _ <;> first | exact h.mono _ _ hs | exact h.composeWith (fun p hp => h.sampledLaplace _ _ _ _ (isZero_false h hq) he hp) hs
      · rw [h']; simpa [leafCount] using h.mono _ _ hs
theorem growList : ∀ (es : List DpEvent) (c : ℤ) (doC : Bool) (s : PldState P) (k : ℕ), ExactEventL disc es → I k s.pld →
    I (k + leafCountL es) (composeList F nr es c doC s).1.pld
  | [], _, _, s, k, _, hs => by simpa [composeList, leafCountL] using hs
  | e :: es, c, doC, s, k, he, hs => by
      have he : ExactEvent disc e ∧ ExactEventL disc es := by simpa [ExactEventL] using he
      have h1 := grow e c doC s k he.1 hs
      simp only [composeList, leafCountL]
      rw [← add_assoc]
      generalize maybeCompose F nr e c doC s = q at *
      obtain ⟨a, q⟩ := q
      match q with
      | .error err => exact h.mono_add _ _ _ h1
      | .ok (some d) => exact h.mono_add _ _ _ h1
      | .ok none => exact growList es c doC a _ he.2 h1
end

/-- A history of calls, some of which may raise. -/
theorem grow_all (cs : List (DpEvent × ℤ)) (s : AcctState (PldState P)) (k : ℕ) (hcs : ∀ p ∈ cs, ExactEvent disc p.1) (hs : I k s.acct.pld) :
    I (k + (cs.map fun p => leafCount p.1).sum) (composeAll (accountant F nr) s cs).1.acct.pld := by
  induction cs generalizing s k with
  | nil => simpa [composeAll] using hs
  | cons p cs ih =>
    obtain ⟨e, c⟩ := p
    have h1 : I (k + leafCount e) ((accountant F nr).compose s (.event e) (.int c)).1.acct.pld := by
      rcases Accountant.compose_acct (dryRun F nr) s (.event e) (.int c) with h2 | ⟨e', c', h1, h2, h3, h4⟩
      · rw [h2]; exact h.mono_add _ _ _ hs
      · cases h1; rw [h4]
        exact grow h e c' true s.acct k (hcs (e, c) (by simp)) hs
    simp only [composeAll, List.map_cons, List.sum_cons]
    rw [← add_assoc]
    have h2 := fun s' => ih s' (k + leafCount e) (fun p hp => hcs p (by simp [hp]))
    generalize (accountant F nr).compose s (.event e) (.int c) = q at *
    obtain ⟨a, q⟩ := q
    match q with
    | .error err => exact h2 a h1
    | .ok () => exact h2 a h1

end grow

theorem nonDp_all {P : Type} (F : PldFns P) (nr : NeighborRel) (cs : List (DpEvent × ℤ)) (s : AcctState (PldState P)) (hs : s.acct.nonDp = true) :
    (composeAll (accountant F nr) s cs).1.acct.nonDp = true := by
  induction cs generalizing s with
  | nil => simpa [composeAll] using hs
  | cons p cs ih =>
    obtain ⟨e, c⟩ := p
    have h1 : ((accountant F nr).compose s (.event e) (.int c)).1.acct.nonDp = true := by
      rcases Accountant.compose_acct (dryRun F nr) s (.event e) (.int c) with h2 | ⟨e', c', h1, h2, h3, h4⟩
      · rw [h2]; exact hs
      · rw [h4]; exact nonDp_mono F nr e' c' true _ hs
    simp only [composeAll]
    generalize (accountant F nr).compose s (.event e) (.int c) = q at *
    obtain ⟨a, q⟩ := q
    match q with
    | .error err => exact ih a h1
    | .ok () => exact ih a h1

end Verif.PldAccountant

namespace Verif
open Spec MeasureTheory ProbabilityTheory PldPmf Mech

/-! ### One direction -/

/-- A PMF with which another one is composed. -/
structure Fit (m : Pmf) (t : ℝ) : Prop where
  wf : m.WF
  nonneg : m.NonNeg
  pess : m.pessimistic = true
  fin : finiteMass m.points ≤ 1
  lo : 1 ≤ totalMass m
  hi : totalMass m ≤ 1 + t
  good : ∀ x : ℝ, 1 - Real.exp x ≤ m.hs (x : EReal)

/-- The PMF of the accountant: its total mass differs from one by at most `b`. -/
structure Kept (m : Pmf) (b : ℝ) : Prop where
  wf : m.WF
  nonneg : m.NonNeg
  pess : m.pessimistic = true
  fin : finiteMass m.points ≤ 1
  near : |totalMass m - 1| ≤ b

lemma Fit.mono {m : Pmf} {t t' : ℝ} (h : Fit m t) (ht : t ≤ t') : Fit m t' := ⟨h.wf, h.nonneg, h.pess, h.fin, h.lo, h.hi.trans (by linarith), h.good⟩

lemma Kept.compose {a b c : Pmf} {t B : ℝ} (t1 : t ≤ 1 / 2) (B1 : B ≤ 1) (ha : Kept a B) (hb : Fit b t) {t' : ℝ} (h : composePmfs a b t' = .ok c) :
    Kept c (B + t) ∧ ∀ e : ℝ, a.hs (e : EReal) - totalMass a ≤ c.hs (e : EReal) - totalMass c + t := by
  have sp := composePmfs_spec h ha.wf hb.wf
  have hm := sp.mass ha.nonneg hb.nonneg ha.pess
  obtain ⟨hn1, hn2⟩ := sp.nonneg ha.nonneg hb.nonneg
  have f1 := finiteMass_nonneg ha.nonneg
  have f2 := finiteMass_nonneg hb.nonneg
  have i1 := ha.nonneg.1
  have i2 := hb.nonneg.1
  have hB := ha.near
  have hlo := hb.lo
  have hhi := hb.hi
  have ff := ha.fin
  have ff2 := hb.fin
  have hge := fun e : ℝ => compose_hs_ge h ha.wf hb.wf ha.nonneg hb.nonneg ha.pess hb.good e
  unfold totalMass at *
  obtain ⟨i, hi⟩ : ∃ i, i = a.infinityMass := ⟨_, rfl⟩
  obtain ⟨j, hj⟩ : ∃ j, j = b.infinityMass := ⟨_, rfl⟩
  obtain ⟨f, hf⟩ : ∃ f, f = finiteMass a.points := ⟨_, rfl⟩
  obtain ⟨g, hg⟩ : ∃ g, g = finiteMass b.points := ⟨_, rfl⟩
  simp only [← hi, ← hj, ← hf, ← hg] at *
  have e1 : c.infinityMass + finiteMass c.points - 1 = f * (j + g - 1) + (i + f - 1) * (1 - j) := by rw [hm]; ring
  have fE : f * (j + g - 1) ≤ t := by
    have := mul_le_mul ff (show j + g - 1 ≤ t by linarith) (by linarith) zero_le_one
    linarith
  have fE0 : 0 ≤ f * (j + g - 1) := mul_nonneg f1 (by linarith)
  have hci : 0 ≤ c.infinityMass := by
    by_cases hj1 : j ≤ 1
    · nlinarith
    · have : i ≤ 2 := by linarith [(abs_le.1 hB).2]
      nlinarith
  refine ⟨⟨sp.wf ha.wf hb.wf, ⟨hci, hn1⟩, sp.pess.trans ha.pess, ?_, ?_⟩, fun e => ?_⟩
  · have : finiteMass c.points ≤ f * g := by linarith
    nlinarith
  · change |c.infinityMass + finiteMass c.points - 1| ≤ B + t
    rw [e1]
    have h1 : |(i + f - 1) * (1 - j)| ≤ B := by
      rw [abs_mul]
      have : |1 - j| ≤ 1 := by rw [abs_le]; constructor <;> linarith
      have := mul_le_mul hB this (abs_nonneg _) (by linarith [abs_nonneg (i + f - 1)])
      linarith
    have h2 := abs_add_le (f * (j + g - 1)) ((i + f - 1) * (1 - j))
    rw [abs_of_nonneg fE0] at h2
    linarith
  · have := hge e
    nlinarith

/-! ### Self-composition and constructors -/

lemma Fit.selfCompose {nfl : ℕ → ℕ} (hnfl : ∀ k, k ≤ nfl k) {m c : Pmf} {n : ℤ} {t : ℝ} (ht : 0 ≤ t) (hm : Fit m 0)
    (h : m.selfCompose nfl n t = .ok c) : Fit c t ∧ ∀ e : ℝ, m.hs (e : EReal) ≤ c.hs (e : EReal) := by
  have hmass : totalMass m = 1 := le_antisymm (by linarith [hm.hi]) hm.lo
  have hf0 := finiteMass_nonneg hm.nonneg
  have hi1 : m.infinityMass ≤ 1 := by unfold totalMass at hmass; linarith
  have hf : finiteMass m.points = 1 - m.infinityMass := by unfold totalMass at hmass; linarith
  obtain ⟨hn, sp⟩ := Pmf.selfCompose_spec hnfl hm.wf hi1 h
  obtain ⟨m1, m2⟩ := Pmf.selfCompose_mass hnfl ht hm.wf hm.nonneg hm.pess hi1 h
  have hup := sp.up hm.nonneg hm.pess ht
  have hge : ∀ e : ℝ, m.nfoldHs n.toNat (e : EReal) ≤ c.hs (e : EReal) := by
    intro e
    have := (hup (fun k => hinge (e : EReal) (k * m.disc)) (hinge_key_monotone (WF_disc hm.wf).le _) (fun _ => hinge_nonneg _ _)
      fun _ => hinge_le_one _ _).1
    unfold Pmf.hs hockeyStick Pmf.nfoldHs
    rw [sp.disc]
    exact this
  have h0 := (hup (fun _ => 0) monotone_const (fun _ => le_rfl) fun _ => zero_le_one).1
  have h1 := (hup (fun _ => 1) monotone_const (fun _ => zero_le_one) fun _ => le_rfl).1
  have hz : (nfold m.points n.toNat fun _ => 0) = 0 := by
    obtain ⟨k, hk⟩ : ∃ k, n.toNat = k + 1 := ⟨n.toNat - 1, by omega⟩
    rw [hk]
    clear hk h0
    induction k with
    | zero => simp [nfold]
    | succ k ih => rw [nfold]; simp only [ih]; simp
  rw [hz, expect_zero] at h0
  rw [nfold_one, hf] at h1
  rw [hf] at m1 m2
  have hp1 : (1 - m.infinityMass) ^ n.toNat ≤ 1 := pow_le_one₀ (by linarith) (by linarith [hm.nonneg.1])
  have hall := nfold_ge hm.nonneg hmass hm.good n.toNat
  refine ⟨⟨sp.wf hm.wf, ⟨by linarith, sp.nonneg hm.nonneg⟩, sp.pess.trans hm.pess, m1.trans hp1, ?_, ?_, fun e => ?_⟩, fun e => ?_⟩
  · unfold totalMass finiteMass; linarith
  · unfold totalMass; linarith
  · exact ((le_max_right _ _).trans (hall e).1).trans (hge e)
  · exact ((hall e).2 (by omega)).trans (hge e)

/-! ### Both directions -/

/-- A PLD with which the accountant's one is composed. -/
structure PldFit (p : Pld) (t : ℝ) : Prop where
  valid : p.Valid
  remove : Fit p.remove t
  add : Fit p.add t

/-- The accountant's PLD after some compositions. -/
structure PldKept (p : Pld) (b : ℝ) : Prop where
  valid : p.Valid
  remove : Kept p.remove b
  add : Kept p.add b

lemma PldFit.mono {p : Pld} {t t' : ℝ} (h : PldFit p t) (ht : t ≤ t') : PldFit p t' := ⟨h.valid, h.remove.mono ht, h.add.mono ht⟩

/-- The deltas of the first PLD, less the total mass, are at most those of the second one, up to `b`. -/
def Below (p r : Pld) (b : ℝ) : Prop := ∀ e : ℝ,
  p.remove.hs (e : EReal) - totalMass p.remove ≤ r.remove.hs (e : EReal) - totalMass r.remove + b ∧
  p.add.hs (e : EReal) - totalMass p.add ≤ r.add.hs (e : EReal) - totalMass r.add + b

lemma PldKept.compose {p q r : Pld} {t t' B : ℝ} (t1 : t ≤ 1 / 2) (B1 : B ≤ 1) (hp : PldKept p B) (hq : PldFit q t)
    (h : p.compose q t' = .ok r) : PldKept r (B + t) ∧ Below p r t := by
  have hv := (Props.C24_compose_valid p q r hp.valid hq.valid t' h).2.2.1
  unfold Pld.compose at h
  cases h1 : composePmfs p.remove q.remove t' with
  | error e => rw [h1] at h; simp at h
  | ok m =>
    rw [h1] at h
    simp only at h
    obtain ⟨k1, b1⟩ := hp.remove.compose t1 B1 hq.remove h1
    by_cases hs : (p.symmetric && q.symmetric) = true
    · rw [if_pos hs] at h
      simp only [Except.ok.injEq] at h
      subst h
      rw [Bool.and_eq_true] at hs
      have e1 := hp.valid.symm hs.1
      refine ⟨⟨hv, k1, k1⟩, fun e => ⟨b1 e, ?_⟩⟩
      rw [e1]; exact b1 e
    · rw [if_neg hs] at h
      cases h2 : composePmfs p.add q.add t' with
      | error e => rw [h2] at h; simp at h
      | ok m' =>
        rw [h2] at h
        simp only [Except.ok.injEq] at h
        subst h
        obtain ⟨k2, b2⟩ := hp.add.compose t1 B1 hq.add h2
        exact ⟨⟨hv, k1, k2⟩, fun e => ⟨b1 e, b2 e⟩⟩

lemma PldFit.selfCompose {nfl : ℕ → ℕ} (hnfl : ∀ k, k ≤ nfl k) {p r : Pld} {n : ℤ} {t : ℝ} (ht : 0 ≤ t) (hp : PldFit p 0)
    (h : p.selfCompose nfl n t = .ok r) : PldFit r t ∧ ∀ e : ℝ, p.hs (e : EReal) ≤ r.hs (e : EReal) := by
  have hinf : ∀ {m : Pmf}, Fit m 0 → m.infinityMass ≤ 1 := by
    intro m hm
    have := finiteMass_nonneg hm.nonneg
    have := hm.hi
    unfold totalMass at this
    linarith
  have hv := (Props.C24_self_compose_valid nfl hnfl p r hp.valid (hinf hp.remove) (hinf hp.add) n t h).2.1
  unfold Pld.selfCompose at h
  cases h1 : p.remove.selfCompose nfl n t with
  | error e => rw [h1] at h; simp at h
  | ok m =>
    rw [h1] at h
    simp only at h
    obtain ⟨k1, b1⟩ := hp.remove.selfCompose hnfl ht h1
    by_cases hs : p.symmetric = true
    · rw [if_pos hs] at h
      simp only [Except.ok.injEq] at h
      subst h
      have e1 := hp.valid.symm hs
      refine ⟨⟨hv, k1, k1⟩, fun e => max_le_max (b1 e) ?_⟩
      rw [e1]; exact b1 e
    · rw [if_neg hs] at h
      cases h2 : p.add.selfCompose nfl n t with
      | error e => rw [h2] at h; simp at h
      | ok m' =>
        rw [h2] at h
        simp only [Except.ok.injEq] at h
        subst h
        obtain ⟨k2, b2⟩ := hp.add.selfCompose hnfl ht h2
        exact ⟨⟨hv, k1, k2⟩, fun e => max_le_max (b1 e) (b2 e)⟩

/-- Deltas that are valid for some pair of distributions are at least those of equal distributions. -/
lemma good_of_valid {Ω : Type*} [MeasurableSpace Ω] {P Q : Measure Ω} [IsProbabilityMeasure P] [IsProbabilityMeasure Q] {m : Pmf} (hw : m.WF)
    (h : CurveValid P Q fun e => m.getDeltaForEpsilon e) (x : ℝ) : 1 - Real.exp x ≤ m.hs (x : EReal) := by
  have := h x Set.univ MeasurableSet.univ
  simp only [probReal_univ, mul_one] at this
  rw [Pmf.getDelta_eq_hs m hw] at this
  linarith

lemma _root_.Verif.Spec.ProperPld.fit {p : Pld} (hp : ProperPld p) (h1 : ∀ x : ℝ, 1 - Real.exp x ≤ p.remove.hs (x : EReal))
    (h2 : ∀ x : ℝ, 1 - Real.exp x ≤ p.add.hs (x : EReal)) : PldFit p 0 := by
  have i1 := hp.nonneg.1
  have i2 := hp.nonnegAdd.1
  have m1 := hp.mass
  have m2 := hp.massAdd
  refine ⟨hp.valid, ⟨hp.valid.wfRemove, hp.nonneg, hp.pess, ?_, m1.ge, by rw [m1]; simp, h1⟩,
    ⟨hp.valid.wfAdd, hp.nonnegAdd, hp.valid.pess.trans hp.pess, ?_, m2.ge, by rw [m2]; simp, h2⟩⟩ <;>
  · unfold totalMass at *; linarith

lemma _root_.Verif.Mech.GoodPld.fit {X : Type} [AddCommGroup X] [MeasurableSpace X] [MeasurableAdd X] {p : Pld} {disc : ℝ} {μ : Measure X}
    [IsProbabilityMeasure μ] {s : X} {q : ℝ} (q0 : 0 ≤ q) (q1 : q ≤ 1) (g : GoodPld p disc μ s q) : PldFit p 0 := by
  have := mixShift_prob μ q q0 q1 s
  have := mixShift_prob μ q q0 q1 (-s)
  have h1 := g.remove
  have h2 := g.add
  simp only [upper, lower] at h1 h2
  exact g.proper.fit (good_of_valid g.proper.valid.wfRemove h1) (good_of_valid g.proper.valid.wfAdd h2)

/-! ### The constructors called by the accountant -/

section
variable {ppf : ℝ → ℝ → ℝ} {disc : ℝ} {nr : NeighborRel}

lemma gaussian_fit (hn : NormalQuantile ppf) (hd : 0 < disc) {z q : PyNum} {c : ℤ} {p : Pld}
    (hg : ∀ y, q.real? = some y → Props.OffGrid disc y) (h : PldLibrary.fromGaussian ppf disc z c q = .ok p) : PldFit p 0 := by
  have hne := PldLibrary.fromGaussian_real h
  unfold PldLibrary.fromGaussian at h
  cases hz : z.real? with
  | none => exact absurd hz hne
  | some x =>
    cases hq : q.real? with
    | none => simp [hz, hq] at h
    | some y =>
      simp only [hz, hq] at h
      split_ifs at h
      have h := total_ok h
      obtain ⟨hσ, hs, q0, q1⟩ := Props.gaussian_params h
      have he : 0.5 * Real.exp (-50) < 1 / 2 := by linarith [exp_neg_fifty]
      have hppf := quantile_nonpos hn hσ (by positivity) he
      exact (fromGaussian_good h hppf hd (hg y hq).gridOk).fit q0.le q1

lemma laplace_fit (hd : 0 < disc) {z q : PyNum} {p : Pld} (hg : ∀ y, q.real? = some y → Props.OffGrid disc y)
    (h : PldLibrary.fromLaplace disc z q = .ok p) : PldFit p 0 := by
  have hne := PldLibrary.fromLaplace_real h
  unfold PldLibrary.fromLaplace at h
  cases hz : z.real? with
  | none => exact absurd hz hne
  | some x =>
    cases hq : q.real? with
    | none => simp [hz, hq] at h
    | some y =>
      simp only [hz, hq] at h
      have h := total_ok h
      obtain ⟨hb, hs, q0, q1⟩ := Props.laplace_params h
      have := laplace_prob 0 hb
      exact (fromLaplace_good h hd (hg y hq).gridOk).fit q0.le q1

lemma rr_fit (hd : 0 < disc) {n : PyNum} {k : ℤ} {p : Pld} (hnr : nr = .replaceOne ∨ nr = .replaceSpecial)
    (h : PldLibrary.fromRR disc n k nr = .ok p) : PldFit p 0 := by
  obtain ⟨h1, h2⟩ := rr_proper hd hnr h
  unfold PldLibrary.fromRR at h
  cases hz : n.real? with
  | none => simp [hz] at h
  | some x =>
    have hx : n.val.toReal = x := by rw [real?_val hz]; rfl
    simp only [hz] at h
    have hok : ¬ (x ≤ 0 ∨ 1 ≤ x ∨ k ≤ 1 ∨ nr = .addOrRemoveOne) := by
      rw [← Props.C23_rejects x k true disc hd nr, h]; simp
    push Not at hok
    obtain ⟨x0, x1, hk, -⟩ := hok
    have hk' : 0 < k.toNat := by omega
    have pr := Rdp.rr_prob x0.le x1.le (⟨0, hk'⟩ : Fin k.toNat)
    obtain ⟨Q, hQ, hC⟩ : ∃ Q : Measure (Fin k.toNat), IsProbabilityMeasure Q ∧
        PldEventPair nr (.randomizedResponse n k) (Fin k.toNat) (rrMech k.toNat x ⟨0, hk'⟩) Q := by
      rcases hnr with rfl | rfl
      · exact ⟨_, pr, by simp only [PldEventPair, hx, if_true]; exact .mk _ _⟩
      · refine ⟨uniformResponse k.toNat, ?_, by
          simp only [PldEventPair, hx, if_neg (show ¬ NeighborRel.replaceSpecial = .replaceOne by decide)]; exact .mk _⟩
        have hu := Rdp.rr_prob (k := k.toNat) (p := 1) zero_le_one le_rfl ⟨0, hk'⟩
        have e : uniformResponse k.toNat = rrMech k.toNat 1 ⟨0, hk'⟩ := by
          unfold rrMech uniformResponse
          congr 1
          funext o
          split_ifs <;> simp
        rw [e]; exact hu
    obtain ⟨c1, c2⟩ := h2 _ _ Q hC
    exact h1.fit (good_of_valid h1.valid.wfRemove c1) (good_of_valid h1.valid.wfAdd c2)

lemma self_fit {nfl : ℕ → ℕ} (hnfl : ∀ k, k ≤ nfl k) {o : Except Err Pld} (ho : ∀ p, o = .ok p → PldFit p 0) {c : ℤ} {p : Pld}
    (h : (o >>= fun p => p.selfCompose nfl c PldLibrary.tailTruncation) = .ok p) : PldFit p PldLibrary.tailTruncation := by
  rw [bind_ok] at h
  obtain ⟨a, h1, h2⟩ := h
  exact ((ho a h1).selfCompose hnfl (by norm_num [PldLibrary.tailTruncation]) h2).1

lemma Below.refl (p : Pld) : Below p p 0 := fun e => by simp

/-- `k` compositions after those that led to `p₀`. -/
def GrownFrom (p₀ : Pld) (N₀ k : ℕ) (p : Pld) : Prop :=
  N₀ + k ≤ 10 ^ 15 → PldKept p ((N₀ + k : ℕ) * PldLibrary.tailTruncation) ∧ Below p₀ p (k * PldLibrary.tailTruncation)

lemma PldKept.mono {p : Pld} {b b' : ℝ} (h : PldKept p b) (hb : b ≤ b') : PldKept p b' :=
  ⟨h.valid, ⟨h.remove.wf, h.remove.nonneg, h.remove.pess, h.remove.fin, h.remove.near.trans hb⟩,
    ⟨h.add.wf, h.add.nonneg, h.add.pess, h.add.fin, h.add.near.trans hb⟩⟩

lemma library_grows {nfl : ℕ → ℕ} (hnfl : ∀ k, k ≤ nfl k) (hn : NormalQuantile ppf) (hd : 0 < disc) (p₀ : Pld) (N₀ : ℕ) :
    PldAccountant.Grows (PldLibrary.fns nfl ppf disc) nr disc (GrownFrom p₀ N₀) fun p => PldFit p PldLibrary.tailTruncation := by
  have t0 : (0 : ℝ) < PldLibrary.tailTruncation := by norm_num [PldLibrary.tailTruncation]
  have one : ∀ y, (PyNum.float 1).real? = some y → Props.OffGrid disc y := by
    intro y hy
    simp only [PyNum.real?, Option.some.injEq] at hy
    subst hy
    exact Props.offGrid_one disc
  have off : ∀ {q : PyNum}, q.val ≠ 0 → GridFree disc q → ∀ y, q.real? = some y → Props.OffGrid disc y :=
    fun h0 hg y hy => gridFree_off hy h0 hg
  refine ⟨fun k p h hk => ?_, fun k p q r h hq hc hk => ?_, fun n k p hnr h => (rr_fit hd hnr h).mono t0.le,
    fun z c p h => (gaussian_fit hn hd one h).mono t0.le, fun z c p h => self_fit hnfl (fun p hp => laplace_fit hd one hp) h,
    fun z q c p h0 hg h => self_fit hnfl (fun p hp => gaussian_fit hn hd (off h0 hg) hp) h,
    fun z q c p h0 hg h => self_fit hnfl (fun p hp => laplace_fit hd (off h0 hg) hp) h⟩
  · obtain ⟨h1, h2⟩ := h (by omega)
    refine ⟨h1.mono (mul_le_mul_of_nonneg_right (by exact_mod_cast (by omega)) t0.le), fun e => ?_⟩
    obtain ⟨a, b⟩ := h2 e
    push_cast
    rw [add_mul, one_mul]
    constructor <;> linarith
  · obtain ⟨h1, h2⟩ := h (by omega)
    have hB : ((N₀ + k : ℕ) : ℝ) * PldLibrary.tailTruncation ≤ 1 := by
      have : ((N₀ + k : ℕ) : ℝ) ≤ 10 ^ 15 := by exact_mod_cast (by omega : N₀ + k ≤ 10 ^ 15)
      have := mul_le_mul_of_nonneg_right this t0.le
      refine this.trans ?_
      norm_num [PldLibrary.tailTruncation]
    obtain ⟨k1, k2⟩ := h1.compose (by norm_num [PldLibrary.tailTruncation]) hB hq hc
    refine ⟨?_, fun e => ?_⟩
    · have : ((N₀ + (k + 1) : ℕ) : ℝ) * PldLibrary.tailTruncation = ((N₀ + k : ℕ) : ℝ) * PldLibrary.tailTruncation + PldLibrary.tailTruncation := by
        push_cast; ring
      rw [this]; exact k1
    · obtain ⟨a, b⟩ := h2 e
      obtain ⟨a', b'⟩ := k2 e
      push_cast
      rw [add_mul, one_mul]
      constructor <;> linarith

lemma identity_kept (hd : 0 < disc) : PldKept (PldLibrary.identity disc) 0 := by
  obtain ⟨m, g, g1, g2, g3, g4, g5, g6, _⟩ := Pld.createFromRounded_symm (d := [(0, 1)]) (disc := disc) (inf := 0) (pess := true)
    (by simp [PyDict.keys]) hd
  have hf : finiteMass m.points = 1 := by
    unfold finiteMass
    rw [g5]; simp [expect]
  have hk : Kept m 0 := ⟨g1, g6 le_rfl (by simp), g4, hf.le, by unfold totalMass; rw [g3, hf]; simp⟩
  unfold PldLibrary.identity Pld.identity
  rw [g]
  exact ⟨Pld.valid_none g1, hk, hk⟩

end

end Verif
