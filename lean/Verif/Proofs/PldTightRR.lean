import Verif.Proofs.PldTightSound
import Verif.Proofs.PldAdvanced

/-! # Randomised response, and the summary -/

namespace Verif.Spec
open MeasureTheory ProbabilityTheory Verif.Pld Verif.PldPmf Verif.Mech

variable {ppf : ℝ → ℝ → ℝ} {disc : ℝ} {nr : NeighborRel}

lemma truncatedMass_bot {O : Type} [DecidableEq O] (a b : LogPmf O) : truncatedMass a b ⊥ = 0 := by
  unfold truncatedMass
  refine Finset.sum_eq_zero fun o _ => ?_
  split_ifs with hc
  · unfold prob; rw [le_bot_iff.1 hc.2]; rfl
  · rfl

lemma uniform_prob {k : ℕ} (hk : 2 ≤ k) : IsProbabilityMeasure (uniformResponse k) := by
  have hk0 : (0 : ℝ) < k := by exact_mod_cast (by omega : 0 < k)
  refine ⟨?_⟩
  unfold uniformResponse finMeasure
  simp only [Measure.coe_finsetSum, Measure.smul_apply, Finset.sum_apply, measure_univ, smul_eq_mul, mul_one, Measure.coe_smul, Pi.smul_apply]
  rw [Finset.sum_const, Finset.card_univ, Fintype.card_fin, nsmul_eq_mul, ← ENNReal.ofReal_natCast, ← ENNReal.ofReal_mul hk0.le]
  rw [mul_one_div_cancel hk0.ne', ENNReal.ofReal_one]

lemma rr_newTight (hd : 0 < disc) {n : PyNum} {k : ℤ} {p : Pld} (hnr : nr = .replaceOne ∨ nr = .replaceSpecial)
    (h : PldLibrary.fromRR disc n k nr = .ok p) : NewTight disc nr p {.randomizedResponse n k} := by
  refine ⟨by simp, fun _ _ => ?_⟩
  obtain ⟨hpp, -⟩ := rr_proper hd hnr h
  unfold PldLibrary.fromRR at h
  cases hz : n.real? with
  | none => simp [hz] at h
  | some x =>
    have hx : n.val.toReal = x := by rw [real?_val hz]; rfl
    simp only [hz] at h
    have hok : ¬ (x ≤ 0 ∨ 1 ≤ x ∨ k ≤ 1 ∨ nr = .addOrRemoveOne) := by
      rw [← Props.C23_rejects x k true disc hd nr, h]; simp
    push Not at hok
    obtain ⟨h0, h1, hk, -⟩ := hok
    obtain ⟨k', rfl⟩ : ∃ k' : ℕ, k = k' := ⟨k.toNat, by omega⟩
    have hk2 : 2 ≤ k' := by omega
    have hk0 : (0 : ℝ) < k' := by exact_mod_cast (by omega : 0 < k')
    have hnn := fun y o => rrProb_nonneg (k := k') h0.le h1.le y o
    obtain ⟨y⟩ : Nonempty (Fin k') := ⟨⟨0, by omega⟩⟩
    have py := Rdp.rr_prob h0.le h1.le y
    -- it is enough to bound the curves of one pair
    have key : ∀ (P Q : Measure (Fin k')) [IsProbabilityMeasure P] [IsProbabilityMeasure Q], PldEventPair nr (.randomizedResponse n k') (Fin k') P Q →
        (∀ e δ : ℝ, Indist P Q (e - disc) δ → p.remove.hs (e : EReal) ≤ δ) → (∀ e δ : ℝ, Indist Q P (e - disc) δ → p.add.hs (e : EReal) ≤ δ) →
        Tight disc nr p {.randomizedResponse n k'} (2e-15 + 1e-22 * (({.randomizedResponse n k'} : Multiset DpEvent).card : ℝ)) ∧
          p.remove.infinityMass ≤ 1 ∧ p.add.infinityMass ≤ 1 := by
      intro P Q hP hQ hC b1 b2
      obtain ⟨L, hL⟩ := exists_lossLaw P Q
      obtain ⟨L', hL'⟩ := exists_lossLaw Q P
      have single : ∀ A : LossLaw, LossLaw.convAll [A] = A := by
        intro A
        simp only [LossLaw.convAll]
        rw [conv_comm, zero_conv]
      refine ⟨⟨hpp.valid, [(.randomizedResponse n k', L, L')], rfl, ?_, ?_, ?_⟩, proper_inf hpp.nonneg hpp.mass, proper_inf hpp.nonnegAdd hpp.massAdd⟩
      · intro a ha
        rw [List.mem_singleton.1 ha]
        exact ⟨_, _, P, Q, hP, hQ, hC, hL, hL'⟩
      · simp only [List.map_cons, List.map_nil, single, Multiset.card_singleton, Nat.cast_one, one_mul]
        refine ⟨hpp.valid.wfRemove, hpp.nonneg, hpp.pess, hpp.mass.ge, by rw [hpp.mass]; norm_num, fun e => ?_⟩
        have := b1 e _ (hL.isHs _).1
        norm_num at this ⊢; linarith
      · simp only [List.map_cons, List.map_nil, single, Multiset.card_singleton, Nat.cast_one, one_mul]
        refine ⟨hpp.valid.wfAdd, hpp.nonnegAdd, hpp.valid.pess.trans hpp.pess, hpp.massAdd.ge, by rw [hpp.massAdd]; norm_num, fun e => ?_⟩
        have := b2 e _ (hL'.isHs _).1
        norm_num at this ⊢; linarith
    rcases hnr with rfl | rfl
    · obtain ⟨hl, hu⟩ := rr_nodup x k'
      rw [rr_eq_replaceOne h0 h1 hk2] at h
      obtain ⟨p', h', hv, hs, hr, -⟩ := fromTwoPmfs_spec _ _ hl hu true hd ⊥ true
      rw [h] at h'
      simp only [Except.ok.injEq] at h'
      subst h'
      have hadd : p.add = p.remove := hv.symm hs
      obtain ⟨y', hy'⟩ : ∃ y' : Fin k', y ≠ y' := by
        have : Nontrivial (Fin k') := Fin.nontrivial_iff_two_le.2 hk2
        exact (exists_ne y).imp fun _ h => h.symm
      have py' := Rdp.rr_prob h0.le h1.le y'
      have b : ∀ (y y' : Fin k'), y ≠ y' → ∀ e δ : ℝ, Indist (rrMech k' x y) (rrMech k' x y') (e - disc) δ → p.remove.hs (e : EReal) ≤ δ := by
        intro y y' hy e δ hi
        have h3 := (hr.pessimistic_bounds hd e).2
        rw [truncatedMass_bot, add_zero, rr_prob_hs h0 h1 hk2 y y' hy] at h3
        rw [rrMech_eq, rrMech_eq] at hi
        exact h3.trans ((Props.C20_isHs_finite Finset.univ (rrProb x k' y) (rrProb x k' y') (fun o _ => hnn y o) (fun o _ => hnn y' o) (e - disc)).2 hi)
      refine key (rrMech k' x y) (rrMech k' x y') ?_ (b y y' hy') (by rw [hadd]; exact b y' y hy'.symm)
      simp only [PldEventPair, hx, if_true, Int.toNat_natCast]
      exact .mk y y'
    · obtain ⟨hl, hu⟩ := rrs_nodup x k'
      rw [rr_eq_replaceSpecial h0 h1 hk2] at h
      obtain ⟨p', h', hv, hs, hr, hr'⟩ := fromTwoPmfs_spec _ _ hl hu true hd ⊥ false
      rw [h] at h'
      simp only [Except.ok.injEq] at h'
      subst h'
      have hr' := hr' rfl
      have pu := uniform_prob hk2
      have hun : ∀ o ∈ (Finset.univ : Finset (Fin k')), (0 : ℝ) ≤ 1 / (k' : ℝ) := fun _ _ => by positivity
      refine key (rrMech k' x y) (uniformResponse k') ?_ (fun e δ hi => ?_) fun e δ hi => ?_
      · simp only [PldEventPair, hx, Int.toNat_natCast, if_neg (show ¬ NeighborRel.replaceSpecial = .replaceOne by decide)]
        exact .mk y
      · have h3 := (hr.pessimistic_bounds hd e).2
        rw [truncatedMass_bot, add_zero, (rrs_prob_hs h0 h1 hk2 y _).1] at h3
        rw [rrMech_eq, uniformResponse] at hi
        exact h3.trans ((Props.C20_isHs_finite Finset.univ (rrProb x k' y) (fun _ => 1 / (k' : ℝ)) (fun o _ => hnn y o) hun (e - disc)).2 hi)
      · have h3 := (hr'.pessimistic_bounds hd e).2
        rw [truncatedMass_bot, add_zero, (rrs_prob_hs h0 h1 hk2 y _).2] at h3
        rw [rrMech_eq, uniformResponse] at hi
        exact h3.trans ((Props.C20_isHs_finite Finset.univ (fun _ => 1 / (k' : ℝ)) (rrProb x k' y) hun (fun o _ => hnn y o) (e - disc)).2 hi)

lemma tight_identity (hd : 0 < disc) : Tight disc nr (PldLibrary.identity disc) 0 0 := by
  obtain ⟨m, g, g1, g2, g3, g4, g5, g6, _⟩ := createFromRounded_symm (d := [(0, 1)]) (disc := disc) (inf := 0) (pess := true)
    (by simp [PyDict.keys]) hd
  have hn := g6 le_rfl (by simp)
  have hm : totalMass m = 1 := by
    unfold totalMass finiteMass
    rw [g5, g3]; simp [expect]
  have key : TightDir m LossLaw.zero (((0 : Multiset DpEvent).card : ℝ) * disc) 0 := by
    refine ⟨g1, hn, g4, hm.ge, by rw [hm]; norm_num, fun e => ?_⟩
    unfold Pmf.hs hockeyStick
    rw [g5, g3]
    simp [expect, LossLaw.zero, LossLaw.hs, lossHs]
  unfold PldLibrary.identity Pld.identity
  rw [g]
  exact ⟨valid_none g1, [], rfl, by simp, key, key⟩

/-- The library's operations keep the state tight. -/
theorem library_tight {nfl : ℕ → ℕ} (hnfl : ∀ k, k ≤ nfl k) (hq : NormalQuantile ppf) (hd : 0 < disc) :
    PldSound (PldLibrary.fns nfl ppf disc) nr (StateTight disc nr) (NewTight disc nr) (BaseTight disc nr) where
  identity := fun _ _ => (tight_identity hd).weaken (by simp)
  compose := fun p q r l l' hp hq' h => hp.compose hq' h
  selfCompose := fun p r c a hp hc h => hp.selfCompose hnfl hc h
  vacuous := by
    intro p l a ha hp hc hg
    have hok := hg a (Multiset.mem_cons_self a l)
    exfalso
    match a, ha, hok with
    | .poissonSampled q (.gaussian z), h, hok => exact hok.1 h
    | .poissonSampled q (.laplace z), h, hok => exact hok.1 h
    | .randomizedResponse p k, h, hok => exact hok.1 h
    | .mixtureOfGaussians d [s] ps, h, hok => exact hok
  gaussian := fun z c p _ hc h => gaussian_newTight hq hd hc h
  laplace := by
    intro z p _ h
    replace h : PldLibrary.fromLaplace disc z (.float 1) = .ok p := h
    have hne := PldLibrary.fromLaplace_real h
    unfold PldLibrary.fromLaplace at h
    cases hz : z.real? with
    | none => exact absurd hz hne
    | some x =>
      have hx : z.val.toReal = x := by rw [real?_val hz]; rfl
      simp only [hz, show (PyNum.float 1).real? = some 1 from rfl] at h
      exact laplace_baseTight hd (Props.offGrid_one disc) (total_ok h) (.inr ⟨rfl, by simp only [PldEventPair, hx]⟩)
  mixture := fun d ss ps p _ h ha => by exact absurd ha id
  poissonGaussian := by
    intro z q p _ _ h0 h hok
    replace h : PldLibrary.fromGaussian ppf disc z 1 q = .ok p := h
    have hne := PldLibrary.fromGaussian_real h
    unfold PldLibrary.fromGaussian at h
    cases hz : z.real? with
    | none => exact absurd hz hne
    | some x =>
      cases hy : q.real? with
      | none => simp [hz, hy] at h
      | some y =>
        have hx : z.val.toReal = x := by rw [real?_val hz]; rfl
        have hyy : q.val.toReal = y := by rw [real?_val hy]; rfl
        simp only [hz, hy, if_neg (show ¬ (1 : ℤ) < 0 by omega), if_neg (show ¬ (1 : ℤ) = 0 by omega), Int.cast_one, Real.sqrt_one, div_one] at h
        exact gaussian_baseTight hq hd (gridFree_off hy h0 hok.2.1) (total_ok h) (.inl (by simp only [PldEventPair, hx, hyy])) hok
  poissonLaplace := by
    intro z q p _ _ h0 h hok
    replace h : PldLibrary.fromLaplace disc z q = .ok p := h
    have hne := PldLibrary.fromLaplace_real h
    unfold PldLibrary.fromLaplace at h
    cases hz : z.real? with
    | none => exact absurd hz hne
    | some x =>
      cases hy : q.real? with
      | none => simp [hz, hy] at h
      | some y =>
        have hx : z.val.toReal = x := by rw [real?_val hz]; rfl
        have hyy : q.val.toReal = y := by rw [real?_val hy]; rfl
        simp only [hz, hy] at h
        exact laplace_baseTight hd (gridFree_off hy h0 hok.2.1) (total_ok h) (.inl (by simp only [PldEventPair, hx, hyy])) hok
  randomizedResponse := fun n k p hnr _ _ h => rr_newTight hd hnr h

/-! ### The mechanisms run one after the other -/

lemma adaptive_tight (Xs : List (DpEvent × LossLaw × LossLaw)) (h : ∀ x ∈ Xs, TightLaw nr x.1 x.2.1 x.2.2) :
    ∃ (Ω : Type) (_ : MeasurableSpace Ω) (P Q : Measure Ω), (IsProbabilityMeasure P ∧ IsProbabilityMeasure Q) ∧
      Adaptive (Xs.map fun x => PldEventPair nr x.1) Ω P Q ∧ (LossLaw.convAll (Xs.map fun x => x.2.1)).Of P Q ∧
      (LossLaw.convAll (Xs.map fun x => x.2.2)).Of Q P := by
  induction Xs with
  | nil => exact ⟨Unit, inferInstance, Measure.dirac (), Measure.dirac (), ⟨inferInstance, inferInstance⟩, .nil _, Advanced.zero_of, Advanced.zero_of⟩
  | cons x Xs ih =>
    obtain ⟨Ω', _, P', Q', ⟨_, _⟩, hA, h1, h2⟩ := ih fun y hy => h y (by simp [hy])
    obtain ⟨Ω, _, P, Q, _, _, hC, g1, g2⟩ := h x (by simp)
    refine ⟨Ω × Ω', inferInstance, P.prod P', Q.prod Q', ⟨inferInstance, inferInstance⟩, ?_, g1.prod h1, g2.prod h2⟩
    rw [← Measure.compProd_const, ← Measure.compProd_const]
    exact .cons P Q (Kernel.const _ P') (Kernel.const _ Q') hC fun _ => by simpa using hA

lemma reorder {Xs : List (DpEvent × LossLaw × LossLaw)} {l : List DpEvent} (h : l.Perm (Xs.map Prod.fst)) :
    ∃ Ys : List (DpEvent × LossLaw × LossLaw), Ys.Perm Xs ∧ Ys.map Prod.fst = l := by
  have hf : List.Forall₂ (fun a (x : DpEvent × LossLaw × LossLaw) => x.1 = a) (Xs.map Prod.fst) Xs := by
    clear h
    induction Xs with
    | nil => exact .nil
    | cons x Xs ih => exact .cons rfl ih
  obtain ⟨Ys, k1, k2⟩ := List.perm_comp_forall₂ h hf
  refine ⟨Ys, k2, ?_⟩
  clear k2 hf h
  induction k1 with
  | nil => rfl
  | cons h _ ih => rw [List.map_cons, ih, h]

/-- The deltas of a tight PLD are attained by mechanisms run one after the other. -/
lemma Tight.attained {p : Pld} {M : Multiset DpEvent} {s : ℝ} (h : Tight disc nr p M s) {l : List DpEvent} (hl : (l : Multiset DpEvent) = M) :
    ∃ (Ω : Type) (_ : MeasurableSpace Ω) (P Q : Measure Ω), Adaptive (l.map (PldEventPair nr)) Ω P Q ∧
      ∀ e δ : ℝ, Indist P Q (e - l.length * disc) δ → Indist Q P (e - l.length * disc) δ → p.getDeltaForEpsilon (e : EReal) ≤ δ + s := by
  obtain ⟨hv, Xs, h1, h2, h3, h4⟩ := h
  have hlen : (M.card : ℝ) = l.length := by rw [← hl]; rfl
  obtain ⟨Ys, k1, k2⟩ := reorder (Multiset.coe_eq_coe.1 (hl.trans h1.symm))
  obtain ⟨Ω, _, P, Q, ⟨_, _⟩, hA, g1, g2⟩ := adaptive_tight Ys fun x hx => h2 x (k1.subset hx)
  refine ⟨Ω, inferInstance, P, Q, ?_, fun e δ i1 i2 => ?_⟩
  · rw [← k2, List.map_map]; exact hA
  · rw [Pld.getDelta_eq hv]
    rw [hlen, ← convAll_perm (k1.map _)] at h3 h4
    have a1 := (g1.isHs (e - l.length * disc)).2 i1
    have a2 := (g2.isHs (e - l.length * disc)).2 i2
    exact max_le (by linarith [h3.hs e]) (by linarith [h4.hs e])

/-- A delta below the one given to `get_epsilon` at `e` bounds its result. -/
lemma Tight.epsilon {p : Pld} {M : Multiset DpEvent} {s : ℝ} (h : Tight disc nr p M s) {e δ : ℝ} (he : 0 ≤ e)
    (hlt : p.getDeltaForEpsilon (e : EReal) < δ) : p.getEpsilonForDelta δ ≤ e := by
  obtain ⟨hv, Xs, -, -, h3, h4⟩ := h
  rw [Pld.getDelta_eq hv] at hlt
  have inf : ∀ m : Pmf, m.NonNeg → m.infinityMass ≤ m.hs (e : EReal) := by
    intro m hn
    unfold Pmf.hs hockeyStick
    have := expect_nonneg hn.2 (φ := fun k => hinge (e : EReal) (k * m.disc)) (fun x _ => hinge_nonneg _ _)
    linarith
  have key : ∀ m : Pmf, m.WF → m.NonNeg → m.hs (e : EReal) < δ → m.getEpsilonForDelta δ ≤ e := by
    intro m hw hn hm
    by_contra hc
    have := Props.C12_epsilon_smallest_partial m hw hn δ (.inl ((inf m hn).trans_lt hm)) e he (not_le.1 hc)
    rw [Pmf.getDelta_eq_hs _ hw] at this
    linarith
  have k1 := key _ h3.wf h3.nonneg ((le_max_left _ _).trans_lt hlt)
  have k2 := key _ h4.wf h4.nonneg ((le_max_right _ _).trans_lt hlt)
  unfold Pld.getEpsilonForDelta
  split_ifs
  · exact k1
  · exact max_le k1 k2

end Verif.Spec

namespace Verif.PldAccountant
open Verif.Spec

variable {P : Type} (F : PldFns P) (nr : NeighborRel) {disc : ℝ}

lemma noise_isZero {z : PyNum} (h : z.val ≠ 0) : isZero z = false := (isZero_iff' z).2 h

mutual
/-- Events with noise do not mark the accountant non-private. -/
theorem tight_dp : ∀ (e : DpEvent) (c : ℤ) (s : PldState P), WfCounts e → (∀ a ∈ expand e, TightOk disc a) → s.nonDp = false →
    (maybeCompose F nr e c true s).1.nonDp = false
  | .noOp, _, _, _, _, h => by simpa [maybeCompose] using h
  | .nonPrivate, _, _, _, ht, _ => (ht .nonPrivate (by simp [expand])).elim
  | .unsupported, _, _, _, _, h => by simpa [maybeCompose] using h
  | .randomizedResponse p k, _, s, _, ht, h => by
      have := ht (.randomizedResponse p k) (by simp [expand])
      simp only [maybeCompose, noise_isZero this.2]
      split_ifs <;> simp_all [composeWith_nonDp]
  | .gaussian z, _, s, _, ht, h => by
      have := ht (.gaussian z) (by simp [expand])
      simp [maybeCompose, noise_isZero (z := z) this.1, composeWith_nonDp, h]
  | .laplace z, _, s, _, ht, h => by
      have := ht (.laplace z) (by simp [expand])
      simp [maybeCompose, noise_isZero (z := z) this.1, composeWith_nonDp, h]
  | .selfComposed e m, c, s, hw, ht, h => by
      simp only [maybeCompose]
      refine tight_dp e _ s hw.2 (fun a ha => ht a ?_) h
      rw [expand, repeatList, List.mem_flatten]
      exact ⟨expand e, List.mem_replicate.2 ⟨by have := hw.1; omega, rfl⟩, ha⟩
  | .composed es, c, s, hw, ht, h => by
      simp only [maybeCompose]
      exact tightList_dp es _ s hw (by simpa only [expand] using ht) h
  | .poissonSampled q e, c, s, _, ht, h => by
      have h' := ht (.poissonSampled q e) (by simp [expand])
      match e, h' with
      | .gaussian z, h' => simp only [maybeCompose, noise_isZero h'.1, noise_isZero h'.2.2.1]; split_ifs <;> simp_all [composeWith_nonDp]
      | .laplace z, h' => simp only [maybeCompose, noise_isZero h'.1, noise_isZero h'.2.2.1]; split_ifs <;> simp_all [composeWith_nonDp]
  | .sampledWithReplacement _ _ _, _, _, _, _, h => by simpa [maybeCompose] using h
  | .sampledWithoutReplacement _ _ e, _, _, _, _, h => by simpa [maybeCompose] using h
  | .singleEpochTreeAggregation _ _, _, _, _, _, h => by simpa [maybeCompose] using h
  | .repeatAndSelect e _ _, _, s, _, _, h => by simpa [maybeCompose] using h
  | .mixtureOfGaussians d ss ps, _, _, _, ht, _ => (ht (.mixtureOfGaussians d ss ps) (by simp [expand])).elim
theorem tightList_dp : ∀ (es : List DpEvent) (c : ℤ) (s : PldState P), WfCountsL es → (∀ a ∈ expandList es, TightOk disc a) →
    s.nonDp = false → (composeList F nr es c true s).1.nonDp = false
  | [], _, _, _, _, h => by simpa [composeList] using h
  | e :: es, c, s, hw, ht, h => by
      have h1 := tight_dp e c s hw.1 (fun a ha => ht a (by simp [expandList, ha])) h
      simp only [composeList]
      generalize maybeCompose F nr e c true s = r at *
      obtain ⟨a, r⟩ := r
      match r with
      | .error err => exact h1
      | .ok (some d) => exact h1
      | .ok none => exact tightList_dp es c a hw.2 (fun b hb => ht b (by simp [expandList, hb])) h1
end

theorem tight_dp_all (cs : List (DpEvent × ℤ)) : (∀ p ∈ cs, WfCounts p.1) → (∀ a ∈ applications cs, TightOk disc a) →
    ∀ s : AcctState (PldState P), s.ledger.Inv → s.acct.nonDp = false → (composeAll (accountant F nr) s cs).2 = true →
    (composeAll (accountant F nr) s cs).1.acct.nonDp = false := by
  induction cs with
  | nil => intro _ _ s _ hs _; simpa [composeAll] using hs
  | cons p cs ih =>
    intro hw ht s hinv hs hok
    obtain ⟨e, c⟩ := p
    have e1 : applications ((e, c) :: cs) = c.toNat • (expand e : Multiset DpEvent) + applications cs := by
      simp [applications]
    have hinv' := (Accountant.compose_ledger (dryRun F nr) s hinv (.event e) (.int c)).1
    have hokiff := Accountant.compose_ok (dryRun F nr) s hinv e c
    have hacct := Accountant.compose_acct_ok (dryRun F nr) s e c
    simp only [composeAll] at hok ⊢
    generalize (accountant F nr).compose s (.event e) (.int c) = r at *
    obtain ⟨s', r⟩ := r
    match r, hok with
    | .error err, h => simp at h
    | .ok (), hok =>
      simp only [true_iff, forall_const] at hokiff hacct hok hinv' ⊢
      refine ih (fun p hp => hw p (by simp [hp])) (fun a ha => ht a (by rw [e1]; exact Multiset.mem_add.2 (.inr ha))) s' hinv' ?_ hok
      rw [hacct]
      refine tight_dp F nr e c s.acct (hw (e, c) (by simp)) (fun a ha => ht a ?_) hs
      rw [e1]
      refine Multiset.mem_add.2 (.inl ((Multiset.mem_nsmul_of_ne_zero ?_).2 (by simpa using ha)))
      have := hokiff.2.1
      omega

end Verif.PldAccountant
