import Verif.Proofs.PldEndToEnd
import Verif.Proofs.MixtureBase

/-! # PLDs of additive noise mechanisms with grid points that are close to the limit of the loss -/

namespace Verif.Mech
open Verif.Spec Verif.Pld Verif.PldPmf MeasureTheory ProbabilityTheory

/-- A pessimistic PMF for the pair `(P, Q)`, with deltas that are valid up to `τ`. -/
structure NearGood {Ω : Type*} [MeasurableSpace Ω] (pmf : Pmf) (disc τ : ℝ) (P Q : Measure Ω) : Prop where
  wf : pmf.WF
  nonneg : pmf.NonNeg
  disc : pmf.disc = disc
  pess : pmf.pessimistic = true
  valid : CurveValid P Q fun e => pmf.getDeltaForEpsilon e + τ
  law : ∃ L : LossLaw, AtLeast pmf.infinityMass pmf.disc pmf.points L ∧ ∀ {Ω : Type} [MeasurableSpace Ω] (P Q : Measure Ω)
    [IsProbabilityMeasure P] (τ : ℝ), 0 ≤ τ → CurveValid P Q (fun e => pmf.getDeltaForEpsilon e + τ) → CurveValid P Q fun e => L.hs e + τ

section
variable {X : Type} [AddCommGroup X] [MeasurableSpace X] [MeasurableAdd X] {m : AdditiveNoise X} {ν : Measure X}
  [ν.IsAddRightInvariant] {f : X → ℝ}

lemma dots_near (h : Faithful m ν f) (hbot : m.adj = .remove → m.noiseCdf (m.invNo ⊥ + (m.toReal m.sensitivity : EReal)) = 1)
    {disc : ℝ} (hd : 0 < disc) {eps : List ℤ} {deltas : List ℝ} (hdel : m.getDeltas (eps.map fun k : ℤ => (k : ℝ) * disc) = .ok deltas)
    {pmf : Pmf} (hp : connectDots disc eps deltas = .ok pmf) :
    NearGood pmf disc (closeSlack m.samplingProb) (upper (ν.withDensity fun x => ENNReal.ofReal (f x)) m.sensitivity m.samplingProb m.adj)
      (lower (ν.withDensity fun x => ENNReal.ofReal (f x)) m.sensitivity m.samplingProb m.adj) := by
  have p1 := upper_prob h
  obtain ⟨hlen, hspec⟩ := getDeltas_spec hdel
  obtain ⟨hacc1, hacc2⟩ := Props.C20_accepts disc hd eps deltas
  have hok := (Props.dots_ok hd hp).1
  obtain ⟨m', g, g1, g2, g3, g4⟩ := hacc1 ⟨hok.len, hok.ne, hok.incr, hok.range, hok.anti⟩
  rw [hp] at g; cases g
  refine ⟨g1, g2, g3, g4, fun e => dots_slack hd (closeSlack_nonneg _) hp _ _ (fun x hx => ?_) e, dots_law hd hp⟩
  obtain ⟨d, d', k1, k2, -, k4⟩ := getDelta_near h hbot (x.1 * disc)
  rw [hspec _ hx, Except.ok.injEq] at k1
  subst k1
  exact Indist.mono k2.1 k4

end

lemma dotsContinuous_near {m : AdditiveNoise ℝ} {f : ℝ → ℝ} (h : Faithful m volume f)
    (hbot : m.adj = .remove → m.noiseCdf (m.invNo ⊥ + (m.toReal m.sensitivity : EReal)) = 1) {disc : ℝ} (hd : 0 < disc)
    {b : EReal × EReal} {pmf : Pmf} (hp : dotsContinuous m b disc = .ok pmf) :
    NearGood pmf disc (closeSlack m.samplingProb) (upper (volume.withDensity fun x => ENNReal.ofReal (f x)) m.sensitivity m.samplingProb m.adj)
      (lower (volume.withDensity fun x => ENNReal.ofReal (f x)) m.sensitivity m.samplingProb m.adj) := by
  unfold dotsContinuous at hp
  rw [bind_ok] at hp
  obtain ⟨up, -, hp⟩ := hp
  rw [bind_ok] at hp
  obtain ⟨lo, -, hp⟩ := hp
  rw [bind_ok] at hp
  obtain ⟨deltas, hdel, hp⟩ := hp
  rw [Props.C20_fixed_gap_agrees disc hd] at hp
  exact dots_near h hbot hd hdel hp

lemma dotsDiscrete_near {m : AdditiveNoise ℤ} {f : ℤ → ℝ} (h : Faithful m Measure.count f)
    (hbot : m.adj = .remove → m.noiseCdf (m.invNo ⊥ + (m.toReal m.sensitivity : EReal)) = 1) {disc : ℝ} (hd : 0 < disc)
    {b : ℤ × ℤ} {pmf : Pmf} (hp : dotsDiscrete m b disc = .ok pmf) :
    NearGood pmf disc (closeSlack m.samplingProb) (upper (Measure.count.withDensity fun x => ENNReal.ofReal (f x)) m.sensitivity m.samplingProb m.adj)
      (lower (Measure.count.withDensity fun x => ENNReal.ofReal (f x)) m.sensitivity m.samplingProb m.adj) := by
  unfold dotsDiscrete at hp
  rw [bind_ok] at hp
  obtain ⟨eps, -, hp⟩ := hp
  rw [bind_ok] at hp
  obtain ⟨deltas, hdel, hp⟩ := hp
  exact dots_near h hbot hd hdel hp

/-- Both directions. -/
structure NearPld {X : Type} [AddCommGroup X] [MeasurableSpace X] (p : Pld) (disc : ℝ) (μ : Measure X) (s : X) (q : ℝ) : Prop where
  valid : p.Valid
  remove : NearGood p.remove disc (closeSlack q) (upper μ s q .remove) (lower μ s q .remove)
  add : NearGood p.add disc (closeSlack q) (upper μ s q .add) (lower μ s q .add)

lemma subsampled_near {X : Type} [AddCommGroup X] [MeasurableSpace X] [MeasurableAdd X] {single : Adj → Option (Except Err Pmf)} {q disc : ℝ} {p : Pld}
    {μ : Measure X} {s : X} (hp : subsampledPld single q = some (.ok p))
    (hs : ∀ adj pmf, single adj = some (.ok pmf) → NearGood pmf disc (closeSlack q) (upper μ s q adj) (lower μ s q adj)) : NearPld p disc μ s q := by
  classical
  unfold subsampledPld at hp
  cases h1 : single .remove with
  | none => rw [h1] at hp; simp at hp
  | some r =>
    cases r with
    | error e => rw [h1] at hp; simp at hp
    | ok r =>
      rw [h1] at hp
      simp only [] at hp
      have g := hs _ _ h1
      by_cases hq : q = 1
      · rw [if_pos hq] at hp
        simp only [Option.some.injEq, Except.ok.injEq] at hp
        subst hp hq
        exact ⟨Pld.valid_none g.wf, g, g.wf, g.nonneg, g.disc, g.pess, fun ε => add_of_remove μ s (g.valid ε), g.law⟩
      · rw [if_neg hq] at hp
        cases h2 : single .add with
        | none => rw [h2] at hp; simp at hp
        | some a =>
          cases a with
          | error e => rw [h2] at hp; simp at hp
          | ok a =>
            rw [h2] at hp
            simp only [Option.some.injEq, Except.ok.injEq] at hp
            subst hp
            have g' := hs _ _ h2
            exact ⟨Pld.valid_some g.wf g'.wf (by rw [g.disc, g'.disc]) (by rw [g.pess, g'.pess]), g, g'⟩

lemma createContinuous_dots {fuel : ℕ} {m : AdditiveNoise ℝ} {bounds : Except Err (EReal × EReal)} {tail : Except Err (Tail ℝ)} {disc : ℝ} {pmf : Pmf}
    (h : createContinuous fuel m bounds tail true disc true = some (.ok pmf)) : ∃ b, dotsContinuous m b disc = .ok pmf := by
  unfold createContinuous at h
  rw [if_pos ⟨rfl, rfl⟩, Option.some.injEq, bind_ok] at h
  obtain ⟨b, -, h⟩ := h
  exact ⟨b, h⟩

lemma fromLaplace_near {fuel : ℕ} {b s disc q : ℝ} {p : Pld} (hp : fromLaplace fuel b s true disc q true = some (.ok p))
    (hd : 0 < disc) : NearPld p disc (laplace 0 b) s q := by
  refine subsampled_near hp ?_
  intro adj pmf h
  cases hm : mkLaplace b s q adj with
  | error e => rw [hm] at h; simp at h
  | ok m =>
    rw [hm] at h
    obtain ⟨b, h⟩ := createContinuous_dots h
    have hb := laplace_bot hm
    obtain ⟨hf, rfl, rfl, rfl, -, -⟩ := laplace_faithful hm
    rw [laplace_law]
    exact dotsContinuous_near hf (fun _ => hb) hd h

lemma fromGaussian_near {fuel : ℕ} {ppf : ℝ → ℝ} {σ s disc lb q : ℝ} {p : Pld}
    (hp : fromGaussian fuel ppf σ s true disc lb q true = some (.ok p)) (hd : 0 < disc) :
    NearPld p disc (gaussianReal 0 (Real.toNNReal (σ ^ 2))) s q := by
  refine subsampled_near hp ?_
  intro adj pmf h
  cases hm : mkGaussian σ s lb q adj with
  | error e => rw [hm] at h; simp at h
  | ok m =>
    rw [hm] at h
    obtain ⟨b, h⟩ := createContinuous_dots h
    have hb := gaussian_bot hm
    obtain ⟨hf, rfl, rfl, rfl, -, hσ⟩ := gaussian_faithful hm
    rw [gaussian_law hσ]
    exact dotsContinuous_near hf (fun _ => hb) hd h

lemma fromDiscreteLaplace_near {a disc q : ℝ} {s : ℤ} {p : Pld} (hp : fromDiscreteLaplace a s true disc q true = some (.ok p)) (hd : 0 < disc) :
    NearPld p disc (discreteLaplace a) s q := by
  refine subsampled_near hp ?_
  intro adj pmf h
  rw [Option.some.injEq, bind_ok] at h
  obtain ⟨m, hm, h⟩ := h
  unfold createDiscrete at h
  rw [if_pos ⟨rfl, rfl⟩] at h
  have hb := discreteLaplace_bot hm
  obtain ⟨hf, rfl, rfl, rfl, -, -⟩ := discreteLaplace_faithful hm
  exact dotsDiscrete_near hf (fun _ => hb) hd h

lemma fromDiscreteGaussian_near {σ disc q : ℝ} {s : ℤ} {bound : Option ℤ} {p : Pld}
    (hp : fromDiscreteGaussian σ s bound true disc q true = some (.ok p)) (hd : 0 < disc) :
    NearPld p disc (discreteGaussian σ (dgBound σ bound)) s q := by
  refine subsampled_near hp ?_
  intro adj pmf h
  rw [Option.some.injEq, bind_ok] at h
  obtain ⟨m, hm, h⟩ := h
  unfold createDiscrete at h
  rw [if_pos ⟨rfl, rfl⟩] at h
  have hb : adj = .remove → m.noiseCdf (m.invNo ⊥ + (m.toReal m.sensitivity : EReal)) = 1 := by
    rintro rfl; exact discreteGaussian_bot hm
  obtain ⟨hf, rfl, rfl, rfl, -, -, -⟩ := discreteGaussian_faithful hm
  exact dotsDiscrete_near hf hb hd h

end Verif.Mech

namespace Verif.Spec
open MeasureTheory ProbabilityTheory Verif.Pld Verif.PldPmf Verif.Mech

variable {ppf : ℝ → ℝ → ℝ} {disc : ℝ} {nr : NeighborRel}

/-- What the accountant needs, up to the tolerance. -/
lemma _root_.Verif.Mech.NearPld.base {X : Type} [AddCommGroup X] [MeasurableSpace X] {p : Pld} {μ : Measure X} {s : X} {q : ℝ} (h : NearPld p disc μ s q)
    {C C' : PairProp}
    (h1 : ∀ (Ω : Type) [MeasurableSpace Ω] (P Q : Measure Ω), C' Ω P Q → ∃ (P' Q' : Measure Ω) (g : Ω → Ω), Measurable g ∧
      C Ω P' Q' ∧ P = P'.map g ∧ Q = Q'.map g)
    (h2 : ∀ (Ω : Type) [MeasurableSpace Ω] (P Q : Measure Ω), C Ω P Q → ∀ ε δ,
      (Indist (upper μ s q .remove) (lower μ s q .remove) ε δ → Indist P Q ε δ) ∧
      (Indist (upper μ s q .add) (lower μ s q .add) ε δ → Indist Q P ε δ))
    (i1 : p.remove.infinityMass ≤ 1e-22) (i2 : p.add.infinityMass ≤ 1e-22) :
    p.Valid ∧ BaseDir p.remove (closeSlack q) C' ∧ BaseDir p.add (closeSlack q) (swapProp C') := by
  obtain ⟨L1, a1, l1⟩ := h.remove.law
  obtain ⟨L2, a2, l2⟩ := h.add.law
  refine ⟨h.valid, ⟨h.remove.wf, h.remove.nonneg, h.remove.pess, i1, L1, a1, ?_⟩, ⟨h.add.wf, h.add.nonneg, h.add.pess, i2, L2, a2, ?_⟩⟩
  · intro Ω _ P Q _ _ hC
    refine l1 P Q _ (closeSlack_nonneg q) fun e => ?_
    obtain ⟨P', Q', g, hg, hC', rfl, rfl⟩ := h1 Ω P Q hC
    exact Indist.map ((h2 Ω P' Q' hC' e _).1 (h.remove.valid e)) hg
  · intro Ω _ P Q _ _ hC
    refine l2 P Q _ (closeSlack_nonneg q) fun e => ?_
    obtain ⟨P', Q', g, hg, hC', rfl, rfl⟩ := h1 Ω Q P hC
    exact Indist.map ((h2 Ω P' Q' hC' e _).2 (h.add.valid e)) hg

lemma gridFree_off {q : PyNum} {x : ℝ} (hq : q.real? = some x) (h0 : q.val ≠ 0) (h : GridFree disc q) : Props.OffGrid disc x := by
  have hx := real?_val hq
  rcases h with h | h | h
  · exact absurd h h0
  · left
    rw [hx] at h
    exact_mod_cast h
  · right
    rw [hx] at h
    exact h

lemma poissonLaplace_base (hd : 0 < disc) {z q : PyNum} {p : Pld} (h0 : q.val ≠ 0) (h : PldLibrary.fromLaplace disc z q = .ok p) :
    BaseCov disc nr p (.poissonSampled q (.laplace z)) := by
  classical
  intro _
  have hne := PldLibrary.fromLaplace_real h
  unfold PldLibrary.fromLaplace at h
  cases hz : z.real? with
  | none => exact absurd hz hne
  | some x =>
    cases hq : q.real? with
    | none => simp [hz, hq] at h
    | some y =>
      have hx : z.val.toReal = x := by rw [real?_val hz]; rfl
      have hy : q.val.toReal = y := by rw [real?_val hq]; rfl
      simp only [hz, hq] at h
      have h := total_ok h
      obtain ⟨hb, -, q0, q1⟩ := Props.laplace_params h
      obtain ⟨i1, i2⟩ := fromLaplace_inf h hd
      by_cases hg : GridFree disc q
      · obtain ⟨h1, -, h3⟩ := Props.C32_laplace_partial h hd (gridFree_off hq h0 hg)
        refine h1.base ?_ (by norm_num at i1 ⊢; linarith) (by norm_num at i2 ⊢; linarith)
        simp only [PldEventPair, hx, hy]
        exact dominatesAll_sampledLaplace hb h3
      · simp only [eventSlack, if_neg hg, PldEventPair, hx, hy]
        exact (fromLaplace_near h hd).base (sampledLaplacePair_map hb) (fun Ω _ P Q hC ε δ => sampledLaplace_indist hb q0.le q1 hC ε δ)
          (by norm_num at i1 ⊢; linarith) (by norm_num at i2 ⊢; linarith)

lemma poissonGaussian_base (hn : NormalQuantile ppf) (hd : 0 < disc) {z q : PyNum} {p : Pld} (h0 : q.val ≠ 0)
    (h : PldLibrary.fromGaussian ppf disc z 1 q = .ok p) : BaseCov disc nr p (.poissonSampled q (.gaussian z)) := by
  classical
  intro _
  have hne := PldLibrary.fromGaussian_real h
  unfold PldLibrary.fromGaussian at h
  cases hz : z.real? with
  | none => exact absurd hz hne
  | some x =>
    cases hq : q.real? with
    | none => simp [hz, hq] at h
    | some y =>
      have hx : z.val.toReal = x := by rw [real?_val hz]; rfl
      have hy : q.val.toReal = y := by rw [real?_val hq]; rfl
      simp only [hz, hq, if_neg (show ¬ (1 : ℤ) < 0 by omega), if_neg (show ¬ (1 : ℤ) = 0 by omega), Int.cast_one, Real.sqrt_one, div_one] at h
      have h := total_ok h
      obtain ⟨hσ, hs, q0, q1⟩ := Props.gaussian_params h
      have he : 0.5 * Real.exp (-50) < 1 / 2 := by linarith [exp_neg_fifty]
      have hppf := quantile_nonpos hn hσ (by positivity) he
      obtain ⟨i1, i2⟩ := fromGaussian_inf h hppf (hn x _ hσ (by positivity) (by linarith)).le hd
      by_cases hg : GridFree disc q
      · obtain ⟨h1, -, h3⟩ := Props.C32_gaussian_partial h hppf hd (gridFree_off hq h0 hg)
        refine h1.base ?_ (i1.trans exp_neg_fifty) (i2.trans exp_neg_fifty)
        simp only [PldEventPair, hx, hy]
        exact dominatesAll_sampledGaussian h3
      · simp only [eventSlack, if_neg hg, PldEventPair, hx, hy]
        exact (fromGaussian_near h hd).base sampledGaussianPair_map (fun Ω _ P Q hC ε δ => sampledGaussian_indist hσ hs q0.le q1 hC ε δ)
          (i1.trans exp_neg_fifty) (i2.trans exp_neg_fifty)

end Verif.Spec
