import Verif.Proofs.PldGrow
import Verif.Props.PldEndToEnd

/-!
# C78: composing more never lowers what the PLD accountant reports

For pessimistic PLDs whose deltas are valid for some pair of distributions (as those of all constructors are), `compose` and
`self_compose` give deltas at least as large as those of the operands, with any truncation of the tails. For the accountant there is a
slack: the truncation in `self_compose` adds the truncated mass to the mass at infinity without removing it elsewhere, so the total mass
can exceed one by `1e-15` for each elementary event, and a mass above one is not preserved by `compose`.
-/

namespace Verif.Props
open Verif Verif.Spec MeasureTheory ProbabilityTheory PldPmf

/-- Deltas that hold for some mechanism and some pair of data sets. -/
def DeltasValid (m : Pmf) : Prop := ∃ (Ω : Type) (_ : MeasurableSpace Ω) (P Q : Measure Ω), IsProbabilityMeasure P ∧ IsProbabilityMeasure Q ∧
  CurveValid P Q fun e => m.getDeltaForEpsilon e

lemma DeltasValid.good {m : Pmf} (hw : m.WF) (h : DeltasValid m) (x : ℝ) : 1 - Real.exp x ≤ m.hs (x : EReal) := by
  obtain ⟨Ω, _, P, Q, hP, hQ, hc⟩ := h
  exact good_of_valid hw hc x

/-- **C78, `compose`.** The deltas of the composition of two PMFs are at least those of either of them. -/
theorem C78_compose (a b c : Pmf) (t : ℝ) (h : composePmfs a b t = .ok c) (ha : a.WF) (hb : b.WF) (na : a.NonNeg) (nb : b.NonNeg)
    (hp : a.pessimistic = true) (e : ℝ) :
    (totalMass a ≤ 1 → DeltasValid b → a.getDeltaForEpsilon e ≤ c.getDeltaForEpsilon e) ∧
    (totalMass b ≤ 1 → DeltasValid a → b.getDeltaForEpsilon e ≤ c.getDeltaForEpsilon e) := by
  have hc := (composePmfs_spec h ha hb).wf ha hb
  rw [C11_delta_exact a ha, C11_delta_exact b hb, C11_delta_exact c hc]
  refine ⟨fun h1 h2 => ?_, fun h1 h2 => ?_⟩
  · have := compose_hs_ge h ha hb na nb hp (h2.good hb) e
    have := mul_nonneg nb.1 (sub_nonneg.2 h1)
    linarith
  · have := compose_hs_ge' h ha hb na nb hp (h2.good ha) e
    have := mul_nonneg na.1 (sub_nonneg.2 h1)
    linarith

/-- **C78, `compose` of PLDs.** -/
theorem C78_compose_pld (p q r : Pld) (t : ℝ) (h : p.compose q t = .ok r) (hp : ProperPld p) (hq : ProperPld q)
    (vp : DeltasValid p.remove ∧ DeltasValid p.add) (vq : DeltasValid q.remove ∧ DeltasValid q.add) (e : ℝ) :
    p.getDeltaForEpsilon e ≤ r.getDeltaForEpsilon e ∧ q.getDeltaForEpsilon e ≤ r.getDeltaForEpsilon e := by
  have hr := (C24_compose_valid p q r hp.valid hq.valid t h).2.2.1
  rw [(C24_delta_max p hp.valid).1, (C24_delta_max q hq.valid).1, (C24_delta_max r hr).1]
  unfold Pld.compose at h
  cases h1 : composePmfs p.remove q.remove t with
  | error e => rw [h1] at h; simp at h
  | ok m =>
    rw [h1] at h
    simp only at h
    have c1 := C78_compose _ _ _ t h1 hp.valid.wfRemove hq.valid.wfRemove hp.nonneg hq.nonneg hp.pess e
    have wm := (composePmfs_spec h1 hp.valid.wfRemove hq.valid.wfRemove).wf hp.valid.wfRemove hq.valid.wfRemove
    rw [C11_delta_exact _ hp.valid.wfRemove, C11_delta_exact _ hq.valid.wfRemove, C11_delta_exact _ wm] at c1
    by_cases hs : (p.symmetric && q.symmetric) = true
    · rw [if_pos hs] at h
      simp only [Except.ok.injEq] at h
      subst h
      rw [Bool.and_eq_true] at hs
      rw [hp.valid.symm hs.1, hq.valid.symm hs.2]
      exact ⟨max_le_max (c1.1 hp.mass.le vq.1) (c1.1 hp.mass.le vq.1), max_le_max (c1.2 hq.mass.le vp.1) (c1.2 hq.mass.le vp.1)⟩
    · rw [if_neg hs] at h
      cases h2 : composePmfs p.add q.add t with
      | error e => rw [h2] at h; simp at h
      | ok m' =>
        rw [h2] at h
        simp only [Except.ok.injEq] at h
        subst h
        have c2 := C78_compose _ _ _ t h2 hp.valid.wfAdd hq.valid.wfAdd hp.nonnegAdd hq.nonnegAdd (hp.valid.pess.trans hp.pess) e
        have wm' := (composePmfs_spec h2 hp.valid.wfAdd hq.valid.wfAdd).wf hp.valid.wfAdd hq.valid.wfAdd
        rw [C11_delta_exact _ hp.valid.wfAdd, C11_delta_exact _ hq.valid.wfAdd, C11_delta_exact _ wm'] at c2
        exact ⟨max_le_max (c1.1 hp.mass.le vq.1) (c2.1 hp.massAdd.le vq.2), max_le_max (c1.2 hq.mass.le vp.1) (c2.2 hq.massAdd.le vp.2)⟩

/-- **C78, `self_compose`.** The deltas are at least those of a single repetition, with any truncation. -/
theorem C78_self_compose (nfl : ℕ → ℕ) (hnfl : ∀ k, k ≤ nfl k) (p r : Pld) (n : ℤ) (t : ℝ) (ht : 0 ≤ t) (h : p.selfCompose nfl n t = .ok r)
    (hp : ProperPld p) (vp : DeltasValid p.remove ∧ DeltasValid p.add) (e : ℝ) : p.getDeltaForEpsilon e ≤ r.getDeltaForEpsilon e := by
  have hf := hp.fit (vp.1.good hp.valid.wfRemove) (vp.2.good hp.valid.wfAdd)
  obtain ⟨h1, h2⟩ := hf.selfCompose hnfl ht h
  rw [Pld.getDelta_eq hp.valid, Pld.getDelta_eq h1.valid]
  exact h2 e

/-- **C78, number of repetitions.** Without truncation the deltas do not decrease with the number of repetitions. -/
theorem C78_self_compose_more (nfl : ℕ → ℕ) (hnfl : ∀ k, k ≤ nfl k) (p r r' : Pld) (n n' : ℤ) (hn : n ≤ n') (h : p.selfCompose nfl n 0 = .ok r)
    (h' : p.selfCompose nfl n' 0 = .ok r') (hp : ProperPld p) (vp : DeltasValid p.remove ∧ DeltasValid p.add) (e : ℝ) :
    r.getDeltaForEpsilon e ≤ r'.getDeltaForEpsilon e := by
  have i1 : p.remove.infinityMass ≤ 1 := by
    have := finiteMass_nonneg hp.nonneg
    have := hp.mass
    unfold totalMass at this; linarith
  have i2 : p.add.infinityMass ≤ 1 := by
    have := finiteMass_nonneg hp.nonnegAdd
    have := hp.massAdd
    unfold totalMass at this; linarith
  rw [(C24_self_compose_valid nfl hnfl p r hp.valid i1 i2 n 0 h).2.2.2.2.2 rfl, (C24_self_compose_valid nfl hnfl p r' hp.valid i1 i2 n' 0 h').2.2.2.2.2 rfl]
  have mono : ∀ {m : Pmf}, m.NonNeg → totalMass m = 1 → (∀ x : ℝ, 1 - Real.exp x ≤ m.hs (x : EReal)) →
      m.nfoldHs n.toNat (e : EReal) ≤ m.nfoldHs n'.toNat (e : EReal) := fun h1 h2 h3 =>
    monotone_nat_of_le_succ (f := fun k => Pmf.nfoldHs _ k (e : EReal)) (fun k => nfoldHs_succ h1 h2 h3 k e) (Int.toNat_le_toNat hn)
  exact max_le_max (mono hp.nonneg hp.mass (vp.1.good hp.valid.wfRemove)) (mono hp.nonnegAdd hp.massAdd (vp.2.good hp.valid.wfAdd))

/-- The PLD of any privacy parameters meets the hypotheses. -/
example (eps delta disc : ℝ) (he : 0 ≤ eps) (h0 : 0 ≤ delta) (h1 : delta ≤ 1) (hd : 0 < disc) : ∃ p,
    Pld.fromPrivacyParameters eps delta disc = .ok p ∧ ProperPld p ∧ DeltasValid p.remove ∧ DeltasValid p.add := by
  obtain ⟨p, g, g1, g2, g3, g4, g5, g6⟩ := C21_succeeds eps delta disc h0 h1 hd
  have hv : DeltasValid p.remove := by
    refine ⟨Unit, inferInstance, Measure.dirac (), Measure.dirac (), inferInstance, inferInstance, fun e => ?_⟩
    have hI : Indist (Measure.dirac () : Measure Unit) (Measure.dirac ()) eps delta := by
      intro S hS
      have : (0 : ℝ) ≤ (Measure.dirac () : Measure Unit).real S := measureReal_nonneg
      have := Real.one_le_exp he
      nlinarith
    have := (C21_dominates eps delta disc he h1 hd p g _ _ hI hI e).1
    rwa [(C24_delta_max p g1).1, g1.symm g2, max_self, ← C11_delta_exact _ g1.wfRemove] at this
  refine ⟨p, g, ⟨g1, g6, g3, ?_, g4, ?_⟩, hv, ?_⟩ <;> rw [g1.symm g2] <;> assumption

lemma composeAll_append {σ : Type} (A : Accountant σ) (s : AcctState σ) (cs ds : List (DpEvent × ℤ)) :
    (composeAll A s (cs ++ ds)).1 = (composeAll A (composeAll A s cs).1 ds).1 := by
  induction cs generalizing s with
  | nil => rfl
  | cons p cs ih =>
    obtain ⟨e, c⟩ := p
    simp only [List.cons_append, composeAll]
    generalize A.compose s (.event e) (.int c) = q
    obtain ⟨a, q⟩ := q
    match q with
    | .error err => exact ih a
    | .ok () => exact ih a

/-- Number of elementary events in a history of calls. -/
def eventCount (cs : List (DpEvent × ℤ)) : ℕ := (cs.map fun p => leafCount p.1).sum

lemma grown {nfl : ℕ → ℕ} (hnfl : ∀ k, k ≤ nfl k) {ppf : ℝ → ℝ → ℝ} (hppf : NormalQuantile ppf) {disc : ℝ} (hd : 0 < disc)
    {nr : NeighborRel} {cs ds : List (DpEvent × ℤ)} (he : ∀ p ∈ cs ++ ds, ExactEvent disc p.1) (hN : eventCount (cs ++ ds) ≤ 10 ^ 15) :
    let N := eventCount (cs ++ ds)
    let s := (pldAfter nfl ppf disc nr cs).1
    let s' := (pldAfter nfl ppf disc nr (cs ++ ds)).1
    (s.nonDp = true → s'.nonDp = true) ∧ PldKept s.pld (N * 1e-15) ∧ PldKept s'.pld (N * 1e-15) ∧
      ∀ e : ℝ, s.pld.remove.hs (e : EReal) ≤ s'.pld.remove.hs (e : EReal) + 2 * N * 1e-15 ∧
        s.pld.add.hs (e : EReal) ≤ s'.pld.add.hs (e : EReal) + 2 * N * 1e-15 := by
  have hsum : eventCount (cs ++ ds) = eventCount cs + eventCount ds := by simp [eventCount]
  have ht : PldLibrary.tailTruncation = (1e-15 : ℝ) := rfl
  have g0 : GrownFrom (PldLibrary.identity disc) 0 0 (PldLibrary.identity disc) := fun _ => by
    refine ⟨?_, ?_⟩
    · simpa using identity_kept hd
    · simpa using Below.refl _
  have g1 := PldAccountant.grow_all (library_grows (nr := nr) hnfl hppf hd (PldLibrary.identity disc) 0) cs
    ⟨PldAccountant.init (PldLibrary.fns nfl ppf disc), Builder.init⟩ 0 (fun p hp => he p (by simp [hp])) g0
  obtain ⟨k1, -⟩ := g1 (by rw [hsum] at hN; unfold eventCount at hN; omega)
  have ea := composeAll_append (pldAccountant nfl ppf disc nr) ⟨PldAccountant.init (PldLibrary.fns nfl ppf disc), Builder.init⟩ cs ds
  have es : (pldAfter nfl ppf disc nr cs).1 = (composeAll (pldAccountant nfl ppf disc nr)
    ⟨PldAccountant.init (PldLibrary.fns nfl ppf disc), Builder.init⟩ cs).1.acct := rfl
  have es' : (pldAfter nfl ppf disc nr (cs ++ ds)).1 = (composeAll (pldAccountant nfl ppf disc nr) (composeAll (pldAccountant nfl ppf disc nr)
    ⟨PldAccountant.init (PldLibrary.fns nfl ppf disc), Builder.init⟩ cs).1 ds).1.acct := by rw [← ea]; rfl
  simp only [es, es']
  generalize (composeAll (pldAccountant nfl ppf disc nr) ⟨PldAccountant.init (PldLibrary.fns nfl ppf disc), Builder.init⟩ cs).1 = s at *
  have hk : PldKept s.acct.pld ((eventCount cs : ℝ) * 1e-15) := by
    simpa [eventCount, ht] using k1
  have g2 := PldAccountant.grow_all (library_grows (nr := nr) hnfl hppf hd s.acct.pld (eventCount cs)) ds s 0
    (fun p hp => he p (by simp [hp])) (fun _ => by
      refine ⟨?_, ?_⟩
      · simpa [ht] using hk
      · simpa using Below.refl _)
  obtain ⟨k2, b2⟩ := g2 (by rw [hsum] at hN; unfold eventCount at hN ⊢; omega)
  rw [zero_add] at k2 b2
  have hk' : PldKept (composeAll (pldAccountant nfl ppf disc nr) s ds).1.acct.pld ((eventCount (cs ++ ds) : ℝ) * 1e-15) := by
    rw [hsum]; exact k2
  refine ⟨PldAccountant.nonDp_all _ nr ds s, hk.mono ?_, hk', fun e => ?_⟩
  · refine mul_le_mul_of_nonneg_right ?_ (by norm_num)
    exact_mod_cast (by omega)
  · obtain ⟨b3, b4⟩ := b2 e
    have n1 := abs_le.1 hk.remove.near
    have n2 := abs_le.1 hk.add.near
    have n3 := abs_le.1 hk'.remove.near
    have n4 := abs_le.1 hk'.add.near
    have e1 : ((eventCount (cs ++ ds) : ℕ) : ℝ) = eventCount cs + eventCount ds := by rw [hsum]; push_cast; ring
    have e2 : (((ds.map fun p => leafCount p.1).sum : ℕ) : ℝ) * PldLibrary.tailTruncation = eventCount ds * 1e-15 := rfl
    rw [e2] at b3 b4
    rw [e1] at n3 n4 ⊢
    constructor <;> linarith [n1.2, n3.1, n2.2, n4.1]

/-- **C78 (partial), `get_delta`.** Further `compose` calls, whether they return or raise, and whatever was composed before, lower the
reported delta by at most `2e-15` for each elementary event composed so far. Missing: mixtures of Gaussians, and sampling probabilities `q`
with a grid point close to `log(1 - q)`, for which the library's deltas are not exact (`C70_delta`, `C31_isclose_wrong`). -/
theorem C78_get_delta_partial {nfl : ℕ → ℕ} (hnfl : ∀ k, k ≤ nfl k) {ppf : ℝ → ℝ → ℝ} (hppf : NormalQuantile ppf) {disc : ℝ} (hd : 0 < disc)
    (nr : NeighborRel) (cs ds : List (DpEvent × ℤ)) (he : ∀ p ∈ cs ++ ds, ExactEvent disc p.1) (hN : eventCount (cs ++ ds) ≤ 10 ^ 15) (eps : ℝ) :
    let delta := fun cs => PldAccountant.getDelta (PldLibrary.fns nfl ppf disc) (pldAfter nfl ppf disc nr cs).1 eps
    delta cs ≤ delta (cs ++ ds) + 2 * eventCount (cs ++ ds) * 1e-15 := by
  obtain ⟨h1, h2, h3, h4⟩ := grown (nr := nr) hnfl hppf hd he hN
  have hN0 : (0 : ℝ) ≤ eventCount (cs ++ ds) := by positivity
  intro delta
  simp only [delta, PldAccountant.getDelta]
  by_cases a : (pldAfter nfl ppf disc nr cs).1.nonDp = true
  · rw [if_pos a, if_pos (h1 a)]; linarith
  rw [if_neg a]
  have hp : (PldLibrary.fns nfl ppf disc).deltaForEpsilon (pldAfter nfl ppf disc nr cs).1.pld eps =
      max ((pldAfter nfl ppf disc nr cs).1.pld.remove.hs (eps : EReal)) ((pldAfter nfl ppf disc nr cs).1.pld.add.hs (eps : EReal)) :=
    (C24_delta_max _ h2.valid).1 eps
  by_cases b : (pldAfter nfl ppf disc nr (cs ++ ds)).1.nonDp = true
  · rw [if_pos b, hp]
    have n1 := (abs_le.1 h2.remove.near).2
    have n2 := (abs_le.1 h2.add.near).2
    have := hs_le_total h2.remove.nonneg (eps : EReal)
    have := hs_le_total h2.add.nonneg (eps : EReal)
    exact max_le (by linarith) (by linarith)
  · rw [if_neg b, hp]
    have hq : (PldLibrary.fns nfl ppf disc).deltaForEpsilon (pldAfter nfl ppf disc nr (cs ++ ds)).1.pld eps =
        max ((pldAfter nfl ppf disc nr (cs ++ ds)).1.pld.remove.hs (eps : EReal)) ((pldAfter nfl ppf disc nr (cs ++ ds)).1.pld.add.hs (eps : EReal)) :=
      (C24_delta_max _ h3.valid).1 eps
    rw [hq]
    have l1 := le_max_left ((pldAfter nfl ppf disc nr (cs ++ ds)).1.pld.remove.hs (eps : EReal))
      ((pldAfter nfl ppf disc nr (cs ++ ds)).1.pld.add.hs (eps : EReal))
    have l2 := le_max_right ((pldAfter nfl ppf disc nr (cs ++ ds)).1.pld.remove.hs (eps : EReal))
      ((pldAfter nfl ppf disc nr (cs ++ ds)).1.pld.add.hs (eps : EReal))
    exact max_le ((h4 eps).1.trans (add_le_add_left l1 _)) ((h4 eps).2.trans (add_le_add_left l2 _))

/-- If a PMF's deltas are at most those of another one, up to a slack, then so are its epsilons, for deltas that differ by more than the
slack. -/
lemma epsilon_le {m m' : Pmf} (hw : m.WF) (hn : m.NonNeg) (hw' : m'.WF) (hn' : m'.NonNeg) {b s δ : ℝ} (hs : b < s)
    (h : ∀ e : ℝ, m.hs (e : EReal) ≤ m'.hs (e : EReal) + b) : m.getEpsilonForDelta (δ + s) ≤ m'.getEpsilonForDelta δ := by
  obtain ⟨h1, h2⟩ := C12_epsilon_valid m' hw' hn' δ
  by_cases hi : δ < m'.infinityMass
  · rw [h1.2 hi]; exact le_top
  obtain ⟨r, g1, g2, g3⟩ := h2 (not_lt.1 hi)
  rw [C11_delta_exact m' hw'] at g3
  have hm := h r
  rw [g1]
  by_contra hc
  have hinf : m.infinityMass ≤ m.hs (r : EReal) := by
    have := (C11_delta_monotone_bounded m hw hn).2 r
    rw [C11_delta_exact m hw] at this
    exact this.1
  have := C12_epsilon_smallest_partial m hw hn (δ + s) (Or.inl (by linarith)) r g2 (not_le.1 hc)
  rw [C11_delta_exact m hw] at this
  linarith

/-- **C78 (partial), `get_epsilon`.** Likewise the epsilon reported for a delta is at least the one that was reported for a delta larger
by more than the slack. Missing: as above. -/
theorem C78_get_epsilon_partial {nfl : ℕ → ℕ} (hnfl : ∀ k, k ≤ nfl k) {ppf : ℝ → ℝ → ℝ} (hppf : NormalQuantile ppf) {disc : ℝ} (hd : 0 < disc)
    (nr : NeighborRel) (cs ds : List (DpEvent × ℤ)) (he : ∀ p ∈ cs ++ ds, ExactEvent disc p.1) (hN : eventCount (cs ++ ds) ≤ 10 ^ 15)
    (delta s : ℝ) (hs : 2 * eventCount (cs ++ ds) * 1e-15 < s) :
    let epsilon := fun cs => PldAccountant.getEpsilon (PldLibrary.fns nfl ppf disc) (pldAfter nfl ppf disc nr cs).1
    epsilon cs (delta + s) ≤ epsilon (cs ++ ds) delta := by
  obtain ⟨h1, h2, h3, h4⟩ := grown (nr := nr) hnfl hppf hd he hN
  have key : ∀ {p : Pld} (_ : p.Valid) (δ : ℝ), p.getEpsilonForDelta δ = max (p.remove.getEpsilonForDelta δ) (p.add.getEpsilonForDelta δ) := by
    intro p hp δ
    unfold Pld.getEpsilonForDelta
    by_cases hs : p.symmetric = true
    · simp only [hs, if_true, hp.symm hs, max_self]
    · simp only [hs]; rfl
  intro epsilon
  simp only [epsilon, PldAccountant.getEpsilon]
  by_cases b : (pldAfter nfl ppf disc nr (cs ++ ds)).1.nonDp = true
  · rw [if_pos b]; exact le_top
  rw [if_neg b, if_neg fun a => b (h1 a)]
  show (pldAfter nfl ppf disc nr cs).1.pld.getEpsilonForDelta (delta + s) ≤ (pldAfter nfl ppf disc nr (cs ++ ds)).1.pld.getEpsilonForDelta delta
  rw [key h2.valid, key h3.valid]
  exact max_le_max (epsilon_le h2.remove.wf h2.remove.nonneg h3.remove.wf h3.remove.nonneg hs fun e => (h4 e).1)
    (epsilon_le h2.add.wf h2.add.nonneg h3.add.wf h3.add.nonneg hs fun e => (h4 e).2)

/-- Gaussian events, then Laplace events nested two levels deep: twelve elementary repetitions, two elementary events. -/
example (nfl : ℕ → ℕ) (hnfl : ∀ k, k ≤ nfl k) : ∃ ppf, ∀ eps,
    let delta := fun cs => PldAccountant.getDelta (PldLibrary.fns nfl ppf 1e-4) (pldAfter nfl ppf 1e-4 .addOrRemoveOne cs).1 eps
    delta [(.gaussian (.float 1), 4)] ≤ delta [(.gaussian (.float 1), 4), (.selfComposed (.composed [.laplace (.float 1)]) 4, 2)] + 4e-15 := by
  obtain ⟨ppf, h⟩ := exists_normalQuantile
  refine ⟨ppf, fun eps => ?_⟩
  have := C78_get_delta_partial hnfl h (disc := 1e-4) (by norm_num) .addOrRemoveOne [(.gaussian (.float 1), 4)]
    [(.selfComposed (.composed [.laplace (.float 1)]) 4, 2)] (by simp [ExactEvent, ExactEventL])
    (by norm_num [eventCount, leafCount, leafCountL]) eps
  norm_num [eventCount, leafCount, leafCountL] at this ⊢
  exact this

/-- **C78 (disagreement).** Optimistic PLDs: composing the PLD of two distributions on two outcomes with itself lowers delta, from
`(1 - 1/e) / 2` to `(1 - 1/e^2) / 4` at `epsilon = 0`. The losses `1.05` and `-0.5` are rounded down to `1` and `-1`, so the rounded losses
no longer describe any pair of distributions. -/
theorem C78_optimistic_violated : ∃ p r : Pld,
    Pld.fromTwoPmfs (O := ℕ) [(0, Pld.logP 0.175), (1, Pld.logP 0.825)] [(0, Pld.logP 0.5), (1, Pld.logP 0.5)] false 1 ⊥ true = .ok p ∧
    p.compose p 0 = .ok r ∧ r.getDeltaForEpsilon ((0 : ℝ) : EReal) < p.getDeltaForEpsilon ((0 : ℝ) : EReal) := by
  obtain ⟨p, h, hv, hs, hr, -⟩ := Pld.fromTwoPmfs_spec (O := ℕ) [(0, Pld.logP 0.175), (1, Pld.logP 0.825)]
    [(0, Pld.logP 0.5), (1, Pld.logP 0.5)] (by simp) (by simp) false (disc := 1) one_pos ⊥ true
  have ho : outcomes ([(0, Pld.logP 0.175), (1, Pld.logP 0.825)] : Pld.LogPmf ℕ) [(0, Pld.logP 0.5), (1, Pld.logP 0.5)] = {0, 1} := by
    simp only [outcomes, List.map_cons, List.map_nil]; decide
  have r1 : ⌊Real.log 0.5 - Real.log 0.175⌋ = 1 := by
    rw [← Real.log_div (by norm_num) (by norm_num), Int.floor_eq_iff]
    constructor
    · rw [Real.le_log_iff_exp_le (by norm_num)]
      have := Real.exp_one_lt_d9
      push_cast
      norm_num; linarith
    · rw [Real.log_lt_iff_lt_exp (by norm_num)]
      have := Real.exp_one_gt_d9
      push_cast
      rw [Real.exp_add]
      norm_num; nlinarith
  have r2 : ⌊Real.log 0.5 - Real.log 0.825⌋ = -1 := by
    rw [← Real.log_div (by norm_num) (by norm_num), Int.floor_eq_iff]
    constructor
    · rw [Real.le_log_iff_exp_le (by norm_num)]
      have := Real.exp_one_gt_d9
      push_cast
      rw [Real.exp_neg, inv_le_comm₀ (by positivity) (by norm_num)]
      norm_num; linarith
    · rw [Real.log_lt_iff_lt_exp (by norm_num)]
      push_cast
      norm_num
  have e2 : Pld.expLog (Pld.logP 0.5) = 1 / 2 := by rw [Pld.expLog_logP (by norm_num)]; norm_num
  have hsum : ∀ φ : ℤ → ℝ, p.remove.infinityMass + expect p.remove.points φ = 1 / 2 * φ 1 + 1 / 2 * φ (-1) := by
    intro φ
    rw [hr.sum, ho, Finset.sum_pair (by decide)]
    have b : ∀ x : ℝ, (⊥ : Pld.LogProb) < Pld.logP x := fun x => WithBot.bot_lt_coe _
    have hne : ∀ x : ℝ, Pld.logP x ≠ (⊥ : Pld.LogProb) := fun x => (b x).ne'
    have g00 : Pld.LogPmf.get ([(0, Pld.logP 0.175), (1, Pld.logP 0.825)] : Pld.LogPmf ℕ) 0 = Pld.logP 0.175 := by simp [Pld.LogPmf.get]
    have g01 : Pld.LogPmf.get ([(0, Pld.logP 0.175), (1, Pld.logP 0.825)] : Pld.LogPmf ℕ) 1 = Pld.logP 0.825 := by simp [Pld.LogPmf.get]
    have g10 : Pld.LogPmf.get ([(0, Pld.logP 0.5), (1, Pld.logP 0.5)] : Pld.LogPmf ℕ) 0 = Pld.logP 0.5 := by simp [Pld.LogPmf.get]
    have g11 : Pld.LogPmf.get ([(0, Pld.logP 0.5), (1, Pld.logP 0.5)] : Pld.LogPmf ℕ) 1 = Pld.logP 0.5 := by simp [Pld.LogPmf.get]
    unfold Pld.contribution
    rw [g00, g01, if_neg (hne _), if_neg (hne _)]
    have c0 : Pld.entryLoss ([(0, Pld.logP 0.5), (1, Pld.logP 0.5)] : Pld.LogPmf ℕ) ⊥ false (fun x => φ (Pld.roundFn false (x / 1))) (0, Pld.logP 0.175) =
        Real.exp (Real.log 0.5) * φ ⌊Real.log 0.5 - Real.log 0.175⌋ := by
      unfold Pld.entryLoss
      simp only [Pld.logP, g10, WithBot.bot_lt_coe, if_true]
      show Real.exp (Real.log 0.5) * φ (Pld.roundFn false ((Real.log 0.5 - Real.log 0.175) / 1)) = _
      rw [div_one]; rfl
    have c1 : Pld.entryLoss ([(0, Pld.logP 0.5), (1, Pld.logP 0.5)] : Pld.LogPmf ℕ) ⊥ false (fun x => φ (Pld.roundFn false (x / 1))) (1, Pld.logP 0.825) =
        Real.exp (Real.log 0.5) * φ ⌊Real.log 0.5 - Real.log 0.825⌋ := by
      unfold Pld.entryLoss
      simp only [Pld.logP, g11, WithBot.bot_lt_coe, if_true]
      show Real.exp (Real.log 0.5) * φ (Pld.roundFn false ((Real.log 0.5 - Real.log 0.825) / 1)) = _
      rw [div_one]; rfl
    rw [c0, c1, r1, r2, Real.exp_log (by norm_num)]
    norm_num
  have hinf : p.remove.infinityMass = 0 := by
    have := hsum fun _ => 0
    simpa [expect] using this
  have hexp : ∀ φ : ℤ → ℝ, expect p.remove.points φ = 1 / 2 * φ 1 + 1 / 2 * φ (-1) := fun φ => by
    have := hsum φ
    rwa [hinf, zero_add] at this
  have hne : p.remove.points ≠ [] := finiteMass_pos_ne_nil (by unfold finiteMass; rw [hexp]; norm_num)
  obtain ⟨c, hc⟩ := C13_compose_succeeds p.remove p.remove 0 hv.wfRemove hv.wfRemove hr.nonneg hr.nonneg rfl rfl hne hne (Or.inl rfl)
  have hcomp : p.compose p 0 = .ok (Pld.mk' c none) := by
    unfold Pld.compose
    rw [hc]
    simp [hs]
  refine ⟨p, _, h, hcomp, ?_⟩
  rw [(C24_compose_valid p p _ hv hv 0 hcomp).2.2.2.2.2.2 rfl, (C24_delta_max p hv).1, hv.symm hs, max_self, max_self]
  unfold Pmf.sumHs Pmf.hs hockeyStick
  rw [hinf, hr.disc, hexp, hexp, hexp, hexp]
  have hh : ∀ x : ℝ, hinge ((0 : ℝ) : EReal) x = max 0 (1 - Real.exp (-x)) := fun x => by
    unfold hinge
    rw [if_neg (EReal.coe_ne_top _), if_neg (EReal.coe_ne_bot _), EReal.toReal_coe, zero_sub]
  simp only [hh]
  push_cast
  norm_num
  have e1 := Real.exp_one_gt_d9
  have e2 : Real.exp (-1) < 1 / 2 := by
    rw [Real.exp_neg, inv_lt_comm₀ (by positivity) (by norm_num)]; linarith
  have e3 : (0 : ℝ) < Real.exp (-2) := Real.exp_pos _
  have e4 : Real.exp (-2) < 1 := by rw [Real.exp_lt_one_iff]; norm_num
  linarith

end Verif.Props
