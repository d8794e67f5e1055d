import Verif.Proofs.PldLibrarySound
import Verif.Proofs.SmallestNoiseTotal
import Verif.Props.PldPmf
import Verif.Props.MixtureGaussian

/-!
# C61: the PLD accountant is sound, end to end

From the events composed into a `PLDAccountant` to the (epsilon, delta) guarantee for the mechanisms they describe. `composeAll` is a
history of `compose` calls (`Verif/Spec/Accounting.lean`), `applications` the multiset of elementary events it stands for
(`Verif/Spec/PldCovers.lean`), `PldEventPair` the set of mechanisms described by an elementary event (`Verif/Spec/PldEvents.lean`),
`Adaptive` runs mechanisms one after the other, each one chosen depending on earlier outputs (`Verif/Spec/LossLaw.lean`). The PLD
operations are the modelled ones of the library (`Verif/Model/PldLibrary.lean`): connect-the-dots discretization, truncation of the
tails after every composition, self-composition, the closed form for repeated Gaussian events.

The guarantee has an additional `eventSlack` for every application of two kinds of events. For mixtures of Gaussians the deltas used by
the library are too small by up to `mixError` (`C70_delta`). For a sampling probability `q` with a grid point `math.isclose` to
`log(1 - q)` they are too small by up to `1e-9 * |log(1 - q)|` (`C31_isclose_wrong`, `C31_gaussian_near`). There is none for the other
events (`C61_get_delta_no_slack_partial`).

Missing, hence `_partial`: randomised response with a count above one, for which it is false
(`C07_pld_randomized_response_count_ignored`); events with infinite noise (a call that composes one is an error in the model); mixtures
of Gaussians with a discretization that is too coarse (`DiscFine`); more than 10^21 applications.
-/

namespace Verif.Props
open Verif Verif.Spec MeasureTheory ProbabilityTheory

/-- A `PLDAccountant` with the given discretization interval and neighbouring relation. -/
noncomputable abbrev pldAccountant (nfl : ℕ → ℕ) (ppf : ℝ → ℝ → ℝ) (disc : ℝ) (nr : NeighborRel) : Accountant (PldState Pld) :=
  PldAccountant.accountant (PldLibrary.fns nfl ppf disc) nr

/-- The accountant's state after a history of calls on a new accountant, and whether no call raised. -/
noncomputable def pldAfter (nfl : ℕ → ℕ) (ppf : ℝ → ℝ → ℝ) (disc : ℝ) (nr : NeighborRel) (cs : List (DpEvent × ℤ)) : PldState Pld × Bool :=
  let r := composeAll (pldAccountant nfl ppf disc nr) ⟨PldAccountant.init (PldLibrary.fns nfl ppf disc), Builder.init⟩ cs
  (r.1.acct, r.2)

lemma pldAfter_cov {nfl : ℕ → ℕ} (hnfl : ∀ k, k ≤ nfl k) {ppf : ℝ → ℝ → ℝ} (hppf : NormalQuantile ppf) {disc : ℝ} (hd : 0 < disc)
    {nr : NeighborRel} {cs : List (DpEvent × ℤ)} (hcs : ∀ p ∈ cs, WfCounts p.1 ∧ RROnce p.1 p.2)
    (hacc : (pldAfter nfl ppf disc nr cs).2 = true) (hsize : (applications cs).card ≤ 10 ^ 21)
    (hgrid : ∀ a ∈ applications cs, DiscFine disc a) :
    (pldAfter nfl ppf disc nr cs).1.nonDp = true ∨ Cov disc nr (pldAfter nfl ppf disc nr cs).1.pld (applications cs) := by
  have hs := library_sound (nr := nr) hnfl hppf hd
  have := PldAccountant.covers_all hs cs hcs ⟨PldAccountant.init (PldLibrary.fns nfl ppf disc), Builder.init⟩ 0 Builder.inv_init
    (Or.inr hs.identity) hacc
  rw [zero_add] at this
  exact this.imp id fun h => h hsize hgrid

lemma adaptive_prob {l : List PairProp} {Ω : Type} [MeasurableSpace Ω] {P Q : Measure Ω} (h : Adaptive l Ω P Q) :
    IsProbabilityMeasure P ∧ IsProbabilityMeasure Q := by
  induction h with
  | nil P => exact ⟨inferInstance, inferInstance⟩
  | cons P Q κ η hC _ _ => exact ⟨inferInstance, inferInstance⟩

lemma indist_one {Ω : Type*} [MeasurableSpace Ω] (P Q : Measure Ω) [IsProbabilityMeasure P] (e : ℝ) : Indist P Q e 1 := by
  intro S _
  have h1 : P.real S ≤ 1 := measureReal_le_one
  have h2 : 0 ≤ Real.exp e * Q.real S := mul_nonneg (Real.exp_pos e).le measureReal_nonneg
  linarith

/-- **C61 (partial), `get_delta`.** After any history of `compose` calls that did not raise, with any nesting and counts, the delta
reported for `eps` holds, in both directions, for any adaptive sequence (in any order `l`) of mechanisms described by the composed
events, up to the slack. -/
theorem C61_get_delta_partial {nfl : ℕ → ℕ} (hnfl : ∀ k, k ≤ nfl k) {ppf : ℝ → ℝ → ℝ} (hppf : NormalQuantile ppf) {disc : ℝ}
    (hd : 0 < disc) {nr : NeighborRel} {cs : List (DpEvent × ℤ)} (hcs : ∀ p ∈ cs, WfCounts p.1 ∧ RROnce p.1 p.2)
    (hacc : (pldAfter nfl ppf disc nr cs).2 = true) (hsize : (applications cs).card ≤ 10 ^ 21)
    (hgrid : ∀ a ∈ applications cs, DiscFine disc a) (l : List DpEvent) (hl : (l : Multiset DpEvent) = applications cs)
    {Ω : Type} [MeasurableSpace Ω] (P Q : Measure Ω) (h : Adaptive (l.map (PldEventPair nr)) Ω P Q) (eps : ℝ) :
    let delta := PldAccountant.getDelta (PldLibrary.fns nfl ppf disc) (pldAfter nfl ppf disc nr cs).1 eps + (l.map (eventSlack disc)).sum
    Indist P Q eps delta ∧ Indist Q P eps delta := by
  obtain ⟨hP, hQ⟩ := adaptive_prob h
  have hτ : 0 ≤ (l.map (eventSlack disc)).sum := List.sum_nonneg fun x hx => by
    obtain ⟨a, _, rfl⟩ := List.mem_map.1 hx
    exact eventSlack_nonneg a
  show Indist P Q eps (PldAccountant.getDelta _ _ _ + _) ∧ Indist Q P eps (PldAccountant.getDelta _ _ _ + _)
  unfold PldAccountant.getDelta
  by_cases hn : (pldAfter nfl ppf disc nr cs).1.nonDp = true
  · rw [if_pos hn]
    exact ⟨Indist.mono (indist_one _ _ _) (by linarith), Indist.mono (indist_one _ _ _) (by linarith)⟩
  · rw [if_neg hn]
    have hc := (pldAfter_cov hnfl hppf hd hcs hacc hsize hgrid).resolve_left hn
    have h1 := (hc.remove.curve eventSlack_nonneg hl h).2 eps
    have h2 := (hc.add.curve eventSlack_nonneg (P := Q) (Q := P) hl (by have := h.swap; rwa [List.map_map] at this)).2 eps
    show Indist P Q eps (Pld.getDeltaForEpsilon _ _ + _) ∧ Indist Q P eps (Pld.getDeltaForEpsilon _ _ + _)
    rw [Pld.getDelta_eq hc.valid]
    unfold Pld.hs
    simp only [Pmf.getDelta_eq_hs _ hc.valid.wfRemove] at h1
    simp only [Pmf.getDelta_eq_hs _ hc.valid.wfAdd] at h2
    exact ⟨fun S hS => (h1 S hS).trans (by linarith [le_max_left ((pldAfter nfl ppf disc nr cs).1.pld.remove.hs eps) ((pldAfter nfl ppf disc nr cs).1.pld.add.hs eps)]),
      fun S hS => (h2 S hS).trans (by linarith [le_max_right ((pldAfter nfl ppf disc nr cs).1.pld.remove.hs eps) ((pldAfter nfl ppf disc nr cs).1.pld.add.hs eps)])⟩

/-- There is no slack without mixtures of Gaussians and grid points that are close to the limit of a loss. -/
lemma eventSlack_zero {disc : ℝ} {l : List DpEvent} (h : ∀ σ ss ps, .mixtureOfGaussians σ ss ps ∉ l)
    (hg : ∀ q e, .poissonSampled q e ∈ l → GridFree disc q) : (l.map (eventSlack disc)).sum = 0 := by
  classical
  refine List.sum_eq_zero fun x hx => ?_
  obtain ⟨a, ha, rfl⟩ := List.mem_map.1 hx
  cases a with
  | mixtureOfGaussians σ ss ps => exact absurd ha (h σ ss ps)
  | poissonSampled q e => exact if_pos (hg q e ha)
  | _ => rfl

/-- **C61 (partial), `get_delta`, without mixtures of Gaussians and without grid points that are `math.isclose` to `log(1 - q)` for a
sampling probability `q`**: no slack. -/
theorem C61_get_delta_no_slack_partial {nfl : ℕ → ℕ} (hnfl : ∀ k, k ≤ nfl k) {ppf : ℝ → ℝ → ℝ} (hppf : NormalQuantile ppf) {disc : ℝ}
    (hd : 0 < disc) {nr : NeighborRel} {cs : List (DpEvent × ℤ)} (hcs : ∀ p ∈ cs, WfCounts p.1 ∧ RROnce p.1 p.2)
    (hacc : (pldAfter nfl ppf disc nr cs).2 = true) (hsize : (applications cs).card ≤ 10 ^ 21)
    (hmix : ∀ σ ss ps, .mixtureOfGaussians σ ss ps ∉ applications cs)
    (hgrid : ∀ q e, .poissonSampled q e ∈ applications cs → GridFree disc q) (l : List DpEvent) (hl : (l : Multiset DpEvent) = applications cs)
    {Ω : Type} [MeasurableSpace Ω] (P Q : Measure Ω) (h : Adaptive (l.map (PldEventPair nr)) Ω P Q) (eps : ℝ) :
    let delta := PldAccountant.getDelta (PldLibrary.fns nfl ppf disc) (pldAfter nfl ppf disc nr cs).1 eps
    Indist P Q eps delta ∧ Indist Q P eps delta := by
  have := C61_get_delta_partial hnfl hppf hd hcs hacc hsize (fun a ha => by
    cases a with
    | mixtureOfGaussians σ ss ps => exact absurd ha (hmix σ ss ps)
    | _ => trivial) l hl P Q h eps
  simp only [eventSlack_zero (fun σ ss ps hm => hmix σ ss ps (by rw [← hl]; exact hm))
    (fun q e hm => hgrid q e (by rw [← hl]; exact hm)), add_zero] at this
  exact this

/-- **C61 (partial), `get_epsilon`.** Likewise if `get_epsilon(delta)` returns a finite `eps`, also after any post-processing. -/
theorem C61_get_epsilon_partial {nfl : ℕ → ℕ} (hnfl : ∀ k, k ≤ nfl k) {ppf : ℝ → ℝ → ℝ} (hppf : NormalQuantile ppf) {disc : ℝ}
    (hd : 0 < disc) {nr : NeighborRel} {cs : List (DpEvent × ℤ)} (hcs : ∀ p ∈ cs, WfCounts p.1 ∧ RROnce p.1 p.2)
    (hacc : (pldAfter nfl ppf disc nr cs).2 = true) (hsize : (applications cs).card ≤ 10 ^ 21)
    (hgrid : ∀ a ∈ applications cs, DiscFine disc a) (l : List DpEvent) (hl : (l : Multiset DpEvent) = applications cs)
    {Ω Ω' : Type} [MeasurableSpace Ω] [MeasurableSpace Ω'] (P Q : Measure Ω) (h : Adaptive (l.map (PldEventPair nr)) Ω P Q) (delta eps : ℝ)
    (he : PldAccountant.getEpsilon (PldLibrary.fns nfl ppf disc) (pldAfter nfl ppf disc nr cs).1 delta = (eps : EReal))
    (κ : Kernel Ω Ω') [IsMarkovKernel κ] :
    let slack := (l.map (eventSlack disc)).sum
    (0 ≤ eps ∧ Indist P Q eps (delta + slack) ∧ Indist Q P eps (delta + slack)) ∧
      Indist (P.bind κ) (Q.bind κ) eps (delta + slack) ∧ Indist (Q.bind κ) (P.bind κ) eps (delta + slack) := by
  obtain ⟨hP, hQ⟩ := adaptive_prob h
  have hdel := C61_get_delta_partial hnfl hppf hd hcs hacc hsize hgrid l hl P Q h eps
  simp only [PldAccountant.getDelta] at hdel
  unfold PldAccountant.getEpsilon at he
  by_cases hn : (pldAfter nfl ppf disc nr cs).1.nonDp = true
  · rw [if_pos hn] at he
    exact absurd he.symm (EReal.coe_ne_top _)
  · rw [if_neg hn] at he hdel
    have hc := (pldAfter_cov hnfl hppf hd hcs hacc hsize hgrid).resolve_left hn
    have he : (pldAfter nfl ppf disc nr cs).1.pld.getEpsilonForDelta delta = (eps : EReal) := he
    have key := C24_epsilon_valid _ hc.valid hc.remove.nonneg hc.add.nonneg delta
    have hnt : ¬ (delta < (pldAfter nfl ppf disc nr cs).1.pld.remove.infinityMass ∨ delta < (pldAfter nfl ppf disc nr cs).1.pld.add.infinityMass) := by
      rw [← key.1, he]; exact EReal.coe_ne_top _
    push Not at hnt
    obtain ⟨r, g1, g2, g3⟩ := key.2 hnt.1 hnt.2
    rw [he] at g1
    have : eps = r := by exact_mod_cast g1
    subst this
    have hdel : Indist P Q eps ((pldAfter nfl ppf disc nr cs).1.pld.getDeltaForEpsilon eps + (l.map (eventSlack disc)).sum) ∧
      Indist Q P eps ((pldAfter nfl ppf disc nr cs).1.pld.getDeltaForEpsilon eps + (l.map (eventSlack disc)).sum) := hdel
    have d1 : Indist P Q eps (delta + (l.map (eventSlack disc)).sum) := fun S hS => (hdel.1 S hS).trans (by linarith)
    have d2 : Indist Q P eps (delta + (l.map (eventSlack disc)).sum) := fun S hS => (hdel.2 S hS).trans (by linarith)
    exact ⟨⟨g2, d1, d2⟩, d1.postprocess κ, d2.postprocess κ⟩

/-- **C61, `NonPrivate` and zero noise.** An accountant marked non-private reports delta one and infinite epsilon. -/
theorem C61_non_private (nfl : ℕ → ℕ) (ppf : ℝ → ℝ → ℝ) (disc : ℝ) (s : PldState Pld) (hs : s.nonDp = true) (eps delta : ℝ) :
    PldAccountant.getDelta (PldLibrary.fns nfl ppf disc) s eps = 1 ∧ PldAccountant.getEpsilon (PldLibrary.fns nfl ppf disc) s delta = ⊤ := by
  simp [PldAccountant.getDelta, PldAccountant.getEpsilon, hs]

/-! ### Non-vacuity -/

lemma finiteMass_pos_ne_nil {m : Pmf} (h : 0 < finiteMass m.points) : m.points ≠ [] := by
  intro hc
  rw [hc] at h
  simp [finiteMass, expect] at h

lemma identity_props {disc : ℝ} (hd : 0 < disc) : (PldLibrary.identity disc).remove.disc = disc ∧
    finiteMass (PldLibrary.identity disc).remove.points = 1 ∧ (PldLibrary.identity disc).symmetric = true := by
  obtain ⟨m, g, g1, g2, g3, g4, g5, g6, _⟩ := Pld.createFromRounded_symm (d := [(0, 1)]) (disc := disc) (inf := 0) (pess := true)
    (by simp [PyDict.keys]) hd
  unfold PldLibrary.identity Pld.identity
  rw [g]
  refine ⟨g2, ?_, rfl⟩
  unfold finiteMass
  show expect m.points _ = 1
  rw [g5]; simp [expect]

/-- `compose` of a new accountant with a Gaussian event does not raise. -/
lemma gaussian_accepted (nfl : ℕ → ℕ) {ppf : ℝ → ℝ → ℝ} (hppf : NormalQuantile ppf) {disc : ℝ} (hd : 0 < disc) (nr : NeighborRel) {z : ℝ}
    (hz : 0 < z) {c : ℤ} (hc : 1 ≤ c) : (pldAfter nfl ppf disc nr [(.gaussian (.float z), c)]).2 = true := by
  have hc0 : (0 : ℝ) < c := by exact_mod_cast hc
  have hσ : 0 < z / Real.sqrt c := div_pos hz (Real.sqrt_pos.2 hc0)
  have he : 0.5 * Real.exp (-50) < 1 / 2 := by linarith [exp_neg_fifty]
  have hq := quantile_nonpos hppf hσ (by positivity) he
  obtain ⟨N, hN⟩ := C32_gaussian_accepts (ppf := ppf (z / Real.sqrt c)) (σ := z / Real.sqrt c) (s := 1) (lb := -50) true true hσ (by norm_num)
    one_pos one_pos le_rfl hq hd (offGrid_one disc)
  obtain ⟨p, hp⟩ := hN (N + 1) (by omega)
  have hp : Mech.fromGaussian 0 (ppf (z / Real.sqrt c)) (z / Real.sqrt c) 1 true disc (-50) 1 true = some (.ok p) := by
    rw [← hp]
    unfold Mech.fromGaussian
    congr 1
  have hgood := (C32_gaussian_partial hp hq hd (offGrid_one disc))
  obtain ⟨i1, i2⟩ := Mech.fromGaussian_inf hp hq (hppf _ _ hσ (by positivity) (by linarith)).le hd
  have hid := cov_identity (nr := nr) hd
  have hidm := identity_props hd
  have hsym : p.symmetric = true := by
    unfold Mech.fromGaussian Mech.subsampledPld at hp
    split at hp <;> simp at hp
    subst hp; rfl
  have hm : finiteMass p.remove.points = 1 - p.remove.infinityMass := by
    have := hgood.1.mass
    unfold totalMass at this
    linarith
  have hfm : 1 / 2 < finiteMass p.remove.points := by rw [hm]; linarith
  obtain ⟨r, hr⟩ := C13_compose_succeeds (PldLibrary.identity disc).remove p.remove PldLibrary.tailTruncation hid.valid.wfRemove
    hgood.1.valid.wfRemove hid.remove.nonneg hgood.1.nonneg (by rw [hidm.1, hgood.2.1]) (by rw [hid.remove.pess, hgood.1.pess])
    (finiteMass_pos_ne_nil (by rw [hidm.2.1]; norm_num)) (finiteMass_pos_ne_nil (by linarith))
    (Or.inr ⟨by norm_num [PldLibrary.tailTruncation], by rw [hidm.2.1, one_mul]; norm_num [PldLibrary.tailTruncation]; linarith⟩)
  have hcomp : (PldLibrary.identity disc).compose p PldLibrary.tailTruncation = .ok (Pld.mk' r none) := by
    unfold Pld.compose
    rw [hr]
    simp [hidm.2.2, hsym]
  have hfg : PldLibrary.fromGaussian ppf disc (.float z) c (.float 1) = .ok p := by
    unfold PldLibrary.fromGaussian
    simp only [show ∀ x, (PyNum.float x).real? = some x from fun _ => rfl, if_neg (show ¬ c < 0 by omega), if_neg (show ¬ c = 0 by omega)]
    rw [hp]; rfl
  have key := (Accountant.compose_ok (PldAccountant.dryRun (PldLibrary.fns nfl ppf disc) nr)
    ⟨PldAccountant.init (PldLibrary.fns nfl ppf disc), Builder.init⟩ Builder.inv_init (.gaussian (.float z)) c).2
    ⟨by simp [PldAccountant.verdict, PldAccountant.maybeCompose], hc, by simp [topCountsPos], none, by
      have hnz : PldAccountant.isZero (.float z) = false := (PldAccountant.isZero_iff' _).2 (by
        show ((z : ℝ) : EReal) ≠ 0
        exact_mod_cast hz.ne')
      show (PldAccountant.maybeCompose (PldLibrary.fns nfl ppf disc) nr (.gaussian (.float z)) c true _).2 = _
      simp only [PldAccountant.maybeCompose, if_true, hnz, PldAccountant.composeWith, PldLibrary.fns, PldAccountant.init, hfg, hcomp]
      rfl⟩
  unfold pldAfter
  simp only [composeAll]
  generalize (pldAccountant nfl ppf disc nr).compose _ _ _ = x at key ⊢
  obtain ⟨a, b⟩ := x
  simp only at key
  subst key
  rfl

/-- Four Gaussian events with noise multiplier one: the calls succeed, so the theorems apply to four adaptively chosen Gaussian queries. -/
example (nfl : ℕ → ℕ) (hnfl : ∀ k, k ≤ nfl k) : ∃ ppf, ∀ (Ω : Type) [MeasurableSpace Ω] (P Q : Measure Ω),
    Adaptive [GaussianPair 1, GaussianPair 1, GaussianPair 1, GaussianPair 1] Ω P Q → ∀ eps,
    Indist P Q eps (PldAccountant.getDelta (PldLibrary.fns nfl ppf 1e-4) (pldAfter nfl ppf 1e-4 .addOrRemoveOne [(.gaussian (.float 1), 4)]).1 eps) := by
  obtain ⟨ppf, h⟩ := exists_normalQuantile
  refine ⟨ppf, fun Ω _ P Q hPQ eps => ?_⟩
  have ha : applications [(.gaussian (.float 1), 4)] = Multiset.replicate 4 (.gaussian (.float 1)) := by
    rw [← Multiset.nsmul_singleton]
    simp [applications, expand]
  refine (C61_get_delta_no_slack_partial hnfl h (by norm_num) (by simp [WfCounts, RROnce]) (gaussian_accepted nfl h (by norm_num) _ one_pos (by norm_num))
    (by rw [ha]; simp) (by rw [ha]; intro σ ss ps hm; exact absurd (Multiset.eq_of_mem_replicate hm) (by simp))
    (by rw [ha]; intro q e hm; exact absurd (Multiset.eq_of_mem_replicate hm) (by simp))
    [.gaussian (.float 1), .gaussian (.float 1), .gaussian (.float 1), .gaussian (.float 1)] (by rw [ha]; rfl) P Q ?_ eps).1
  simpa [PldEventPair, PyNum.val] using hPQ

/-- Self-composition, then composition with the PLD of a new accountant, do not raise. -/
lemma base_accepted {nfl : ℕ → ℕ} (hnfl : ∀ k, k ≤ nfl k) {disc : ℝ} (hd : 0 < disc) {m : Pmf} {τ : ℝ} {C : PairProp} (hm : BaseDir m τ C)
    (hdisc : m.disc = disc) {n : ℤ} (hn : 1 ≤ n) (hn' : n ≤ 10 ^ 21) {a : Pmf} (ha : a.WF) (hna : a.NonNeg) (had : a.disc = disc)
    (hap : a.pessimistic = true) (haf : finiteMass a.points = 1) :
    ∃ c, m.selfCompose nfl n PldLibrary.tailTruncation = .ok c ∧ ∃ r, PldPmf.composePmfs a c PldLibrary.tailTruncation = .ok r := by
  have mass : ∀ {m : Pmf} {L : LossLaw}, AtLeast m.infinityMass m.disc m.points L → 1 ≤ totalMass m := by
    intro m L h
    have := h (fun _ => 1) monotone_const (fun _ => zero_le_one) fun _ => le_rfl
    have e := L.mass
    simp only [integral_const, smul_eq_mul, mul_one] at this
    unfold totalMass finiteMass
    linarith
  obtain ⟨L, hL, -⟩ := hm.law
  obtain ⟨c, hc⟩ := Pmf.selfCompose_ok_trunc nfl m n (by omega) hn' hm.wf hm.nonneg (mass hL) hm.inf
  refine ⟨c, hc, ?_⟩
  have k := (Dir.selfCompose (C := fun _ => C) (τ := fun _ => τ) (a := .noOp) hnfl hm (by omega) hc).1
  obtain ⟨-, sp⟩ := Pmf.selfCompose_spec hnfl hm.wf hm.inf_le hc
  obtain ⟨L', hL', -⟩ := k.law
  have hmass := mass hL'
  have up := (sp.up hm.nonneg hm.pess (by norm_num) (fun _ => 0) (fun _ _ _ => le_rfl) (fun _ => le_rfl) fun _ => zero_le_one).2
  have e : nfold m.points n.toNat (fun _ => 0) = 0 := by
    rw [← expect_nfoldPts]; simp
  rw [e] at up
  simp only [expect_zero] at up
  have hb := one_add_mul_le_pow (a := -m.infinityMass) (by have := hm.inf_le; linarith) n.toNat
  rw [← sub_eq_add_neg] at hb
  have h3 : (n.toNat : ℝ) * m.infinityMass ≤ 10 ^ 21 * 1e-22 :=
    mul_le_mul (by exact_mod_cast (show n.toNat ≤ 10 ^ 21 by omega)) hm.inf hm.nonneg.1 (by positivity)
  have hf : 1 / 2 < finiteMass c.points := by
    unfold totalMass at hmass
    norm_num at up h3
    linarith
  exact C13_compose_succeeds a c _ ha k.wf hna k.nonneg (by rw [had, sp.disc, hdisc]) (by rw [hap, k.pess])
    (finiteMass_pos_ne_nil (by rw [haf]; norm_num)) (finiteMass_pos_ne_nil (by linarith))
    (Or.inr ⟨by norm_num [PldLibrary.tailTruncation], by rw [haf, one_mul]; norm_num [PldLibrary.tailTruncation]; linarith⟩)

/-- `compose` of a new accountant with a mixture of Gaussians does not raise if the discretization is fine enough. -/
theorem C61_mixture_accepted {nfl : ℕ → ℕ} (hnfl : ∀ k, k ≤ nfl k) {ppf : ℝ → ℝ → ℝ} (hppf : NormalQuantile ppf) {disc : ℝ} (hd : 0 < disc)
    (nr : NeighborRel) {σ : ℝ} (hσ : 0 < σ) {sens probs : List ℝ} (hlen : probs.length = sens.length)
    (hc : ∀ c ∈ sens.zip probs, 0 ≤ c.2 ∧ (c.2 ≠ 0 → 0 ≤ c.1)) (hpos : ∃ c ∈ sens.zip probs, c.2 ≠ 0 ∧ c.1 ≠ 0)
    (h1 : ((sens.zip probs).map Prod.snd).sum = 1) (hg : DiscOk (sens.zip probs) disc (mixLogRatio σ (sens.zip probs) 0))
    (hg' : DiscFine disc (.mixtureOfGaussians (.float σ) (sens.map .float) (probs.map .float))) {n : ℤ} (hn : 1 ≤ n) (hn' : n ≤ 10 ^ 21) :
    (pldAfter nfl ppf disc nr [(.mixtureOfGaussians (.float σ) (sens.map .float) (probs.map .float), n)]).2 = true := by
  have hmap : ∀ l : List ℝ, (l.map PyNum.float).mapM PyNum.real? = some l := by
    intro l
    induction l with
    | nil => rfl
    | cons a l ih => rw [List.map_cons, List.mapM_cons, ih]; rfl
  obtain ⟨N, hN⟩ := C70_pld_exists (lb := -50) hppf hσ (by norm_num) hd hlen hc hpos h1 hg
  obtain ⟨p, hp⟩ := hN N le_rfl
  have hex : ∃ r N, ∀ fuel ≥ N, Mixture.fromMixture fuel (ppf σ) σ sens probs disc (-50) = some r := ⟨_, N, Mixture.fromMixture_mono hp⟩
  have hfm : PldLibrary.fromMixture ppf disc (.float σ) (sens.map .float) (probs.map .float) = .ok p := by
    unfold PldLibrary.fromMixture
    simp only [show ∀ x, (PyNum.float x).real? = some x from fun _ => rfl, hmap, dif_pos hex]
    obtain ⟨M, hM⟩ := hex.choose_spec
    have := hM (max M N) (le_max_left _ _)
    rw [Mixture.fromMixture_mono hp _ (le_max_right _ _)] at this
    exact (Option.some.inj this).symm
  obtain ⟨hv, b1, b2⟩ := mixture_base (nr := nr) hppf hd hfm hg'
  obtain ⟨i1, i2, i3⟩ := identity_props hd
  have hid := cov_identity (nr := nr) hd
  have hpd : p.remove.disc = disc := by
    obtain ⟨r, a, hr, ha, rfl⟩ := Mixture.fromMixture_ok hp
    exact (Mixture.singlePmf_law hppf (by norm_num) hd h1 hr).1.2.2.1
  obtain ⟨c1, s1, r1, k1⟩ := base_accepted hnfl hd b1 hpd hn hn' hid.valid.wfRemove hid.remove.nonneg i1 hid.remove.pess i2
  have e := hid.valid.symm i3
  obtain ⟨c2, s2, r2, k2⟩ := base_accepted hnfl hd b2 (by rw [hv.disc, hpd]) hn hn' hid.valid.wfAdd hid.add.nonneg (by rw [e, i1]) hid.add.pess (by rw [e, i2])
  obtain ⟨q, hq1, r, hq2⟩ : ∃ q, p.selfCompose nfl n PldLibrary.tailTruncation = .ok q ∧
      ∃ r, (PldLibrary.identity disc).compose q PldLibrary.tailTruncation = .ok r := by
    unfold Pld.selfCompose
    rw [s1]
    simp only
    by_cases hs : p.symmetric = true
    · refine ⟨_, if_pos hs, ?_⟩
      unfold Pld.compose
      rw [show (Pld.mk' c1 none).remove = c1 from rfl, k1]
      simp [i3, Pld.mk']
    · rw [s2]
      refine ⟨_, if_neg hs, ?_⟩
      unfold Pld.compose
      rw [show (Pld.mk' c1 (some c2)).remove = c1 from rfl, k1, show (Pld.mk' c1 (some c2)).add = c2 from rfl, k2]
      simp [Pld.mk']
  have key := (Accountant.compose_ok (PldAccountant.dryRun (PldLibrary.fns nfl ppf disc) nr)
    ⟨PldAccountant.init (PldLibrary.fns nfl ppf disc), Builder.init⟩ Builder.inv_init
    (.mixtureOfGaussians (.float σ) (sens.map .float) (probs.map .float)) n).2
    ⟨by simp [PldAccountant.verdict, PldAccountant.maybeCompose], hn, by simp [topCountsPos], none, by
      have hnz : PldAccountant.isZero (.float σ) = false := (PldAccountant.isZero_iff' _).2 (by
        show ((σ : ℝ) : EReal) ≠ 0
        exact_mod_cast hσ.ne')
      show (PldAccountant.maybeCompose (PldLibrary.fns nfl ppf disc) nr _ n true _).2 = _
      simp only [PldAccountant.maybeCompose, if_true]
      split_ifs
      · rfl
      · simp_all
      · simp only [PldAccountant.composeWith, PldLibrary.fns, PldAccountant.init, hfm, bind, Except.bind, hq1, hq2]⟩
  unfold pldAfter
  simp only [composeAll]
  generalize (pldAccountant nfl ppf disc nr).compose _ _ _ = x at key ⊢
  obtain ⟨a, b⟩ := x
  simp only at key
  subst key
  rfl

/-- Two mixtures of Gaussians, with sensitivity one or two: the call succeeds, so the theorem applies. -/
example (nfl : ℕ → ℕ) (hnfl : ∀ k, k ≤ nfl k) : ∃ ppf, ∀ (Ω : Type) [MeasurableSpace Ω] (P Q : Measure Ω),
    Adaptive [MixturePair 1 [(1, 1 / 2), (2, 1 / 2)], MixturePair 1 [(1, 1 / 2), (2, 1 / 2)]] Ω P Q → ∀ eps,
    Indist P Q eps (PldAccountant.getDelta (PldLibrary.fns nfl ppf 1e-4) (pldAfter nfl ppf 1e-4 .addOrRemoveOne
      [(.mixtureOfGaussians (.float 1) [.float 1, .float 2] [.float (1 / 2), .float (1 / 2)], 2)]).1 eps +
        2 * mixError 1 2 [(1, 1 / 2), (2, 1 / 2)]) := by
  obtain ⟨ppf, h⟩ := exists_normalQuantile
  refine ⟨ppf, fun Ω _ P Q hPQ eps => ?_⟩
  set E : DpEvent := .mixtureOfGaussians (.float 1) [.float 1, .float 2] [.float (1 / 2), .float (1 / 2)] with hE
  have ha : applications [(E, 2)] = Multiset.replicate 2 E := by
    rw [← Multiset.nsmul_singleton]
    simp [applications, expand, hE]
  have hp : mixturePairs [.float 1, .float 2] [.float (1 / 2), .float (1 / 2)] = [(1, 1 / 2), (2, 1 / 2)] := by
    simp only [mixturePairs, List.map_cons, List.map_nil, PyNum.val, EReal.toReal_coe, List.zip_cons_cons, List.zip_nil_right]
  have hg : DiscFine 1e-4 E := by
    rw [hE]
    simp only [DiscFine, hp]
    exact ⟨by norm_num, fun s _ => .inl (by norm_num [zeroProb])⟩
  have hsl : eventSlack 1e-4 E = mixError 1 2 [(1, 1 / 2), (2, 1 / 2)] := by
    rw [hE]
    simp only [eventSlack, hp, PyNum.val, EReal.toReal_coe]
    congr 1
    norm_num
  have hacc := C61_mixture_accepted hnfl h (disc := 1e-4) (by norm_num) .addOrRemoveOne one_pos (sens := [1, 2]) (probs := [1 / 2, 1 / 2]) rfl
    (by simp) ⟨(1, 1 / 2), by simp⟩ (by norm_num) (.inl (by norm_num [zeroProb])) hg (n := 2) (by norm_num) (by norm_num)
  have := (C61_get_delta_partial hnfl h (by norm_num) (by simp [WfCounts, RROnce, hE]) hacc (by erw [ha]; simp)
    (by erw [ha]; intro a ha; rw [Multiset.eq_of_mem_replicate ha]; exact hg) [E, E] (by erw [ha]; rfl) P Q (by
      simp only [List.map_cons, List.map_nil, hE, PldEventPair, hp, PyNum.val, EReal.toReal_coe]
      exact hPQ) eps).1
  simp only [List.map_cons, List.map_nil, List.sum_cons, List.sum_nil, hsl, add_zero, ← two_mul] at this
  exact this

end Verif.Props
