import Verif.Proofs.PldTightRR
import Verif.Props.RdpFracAccountant

/-! # Mechanisms that attain the PLD accountant's bounds, as seen by the RDP accountant -/

namespace Verif.Spec
open MeasureTheory ProbabilityTheory

/-- Renaming the outputs does not change the loss. -/
lemma LossLaw.Of.map {L : LossLaw} {Ω Ω' : Type} [MeasurableSpace Ω] [MeasurableSpace Ω'] {P Q : Measure Ω} (h : L.Of P Q) (e : Ω ≃ᵐ Ω') :
    L.Of (P.map e) (Q.map e) := by
  obtain ⟨S, f, hS, hf, h0, hQ, hP, hd, hL⟩ := h
  have hpre : e ⁻¹' (e.symm ⁻¹' S) = S := by ext x; simp
  have hprec : e ⁻¹' (e.symm ⁻¹' S)ᶜ = Sᶜ := by ext x; simp
  have hSm : MeasurableSet (e.symm ⁻¹' S) := e.symm.measurable hS
  have hr : (P.map e).restrict (e.symm ⁻¹' S)ᶜ = (P.restrict Sᶜ).map e := by
    rw [Measure.restrict_map e.measurable hSm.compl, hprec]
  refine ⟨e.symm ⁻¹' S, f ∘ e.symm, hSm, hf.comp e.symm.measurable, fun x => h0 _, ?_, ?_, ?_, ?_⟩
  · rw [Measure.map_apply e.measurable hSm, hpre, hQ]
  · rw [map_measureReal_apply e.measurable hSm, hpre, hP]
  · rw [hr, hd]
    ext t ht
    have hm : Measurable fun x => ENNReal.ofReal ((f ∘ e.symm) x) := (hf.comp e.symm.measurable).ennreal_ofReal
    rw [Measure.map_apply e.measurable ht, withDensity_apply _ (e.measurable ht), withDensity_apply _ ht, setLIntegral_map ht hm e.measurable]
    simp
  · have hm : Measurable fun x => Real.log ((f ∘ e.symm) x) := Real.measurable_log.comp (hf.comp e.symm.measurable)
    rw [hr, hL, Measure.map_map hm e.measurable]
    congr 1
    funext x; simp

/-- `L` and `L'` are the exact loss laws of a mechanism described by `a` for the RDP accountant. -/
def CrossLaw (nr : NeighborRel) (a : DpEvent) (L L' : LossLaw) : Prop :=
  ∃ (Ω : Type) (_ : MeasurableSpace Ω) (P Q : Measure Ω), IsProbabilityMeasure P ∧ IsProbabilityMeasure Q ∧
    EventPair nr a Ω P Q ∧ EventPair nr a Ω Q P ∧ L.Of P Q ∧ L'.Of Q P

instance (z : ℝ) : Unique (Fin [z].length) := inferInstanceAs (Unique (Fin 1))

lemma poisson_cross {z q : ℝ} {R : Type} [DecidableEq R] {d : ℕ} (f : Finset R → Vec d) {Δ : ℝ} (D : Finset R) :
    (poissonMech q (fun S => gaussianVec (f S) (z * Δ)) D).map (MeasurableEquiv.funUnique (Fin [z].length) (Vec d)).symm =
      poissonGaussiansMech q (fun k : Fin [z].length => [z][k] * Δ) (fun _ => f) D := by
  have hm := (MeasurableEquiv.funUnique (Fin [z].length) (Vec d)).symm.measurable
  unfold poissonMech poissonGaussiansMech
  rw [← Measure.mapₗ_apply_of_measurable hm, map_sum]
  refine Finset.sum_congr rfl fun S _ => ?_
  rw [Measure.mapₗ_apply_of_measurable hm, Measure.map_smul]
  congr 1
  have := (measurePreserving_funUnique (gaussianVec (f S) (z * Δ)) (Fin [z].length)).symm.map_eq
  rw [this]
  unfold gaussians
  congr 1
  funext k
  rw [show k = ⟨0, by simp⟩ from Subsingleton.elim _ _]
  rfl

lemma cross_of_tight {disc : ℝ} {nr : NeighborRel} {a : DpEvent} {L L' : LossLaw} (hok : TightOk disc a) (hc : Covered a) (h : TightLaw nr a L L') :
    CrossLaw nr a L L' := by
  obtain ⟨Ω, _, P, Q, hP, hQ, hC, h1, h2⟩ := h
  match a, hok, hc, hC with
  | .gaussian z, hok, hc, hC =>
    have hs : GaussianPair z.val.toReal Ω P Q ∧ GaussianPair z.val.toReal Ω Q P := by
      refine ⟨hC, ?_⟩
      cases hC with
      | mk a b Δ hΔ h => exact .mk b a Δ hΔ (by rwa [norm_sub_rev])
    exact ⟨Ω, _, P, Q, hP, hQ, by simpa only [EventPair, if_neg hok.2] using hs.1, by simpa only [EventPair, if_neg hok.2] using hs.2, h1, h2⟩
  | .laplace z, hok, hc, hC =>
    have hs : LaplacePair z.val.toReal Ω P Q ∧ LaplacePair z.val.toReal Ω Q P := by
      refine ⟨hC, ?_⟩
      cases hC with
      | mk a b Δ hΔ h => exact .mk b a Δ hΔ (by simpa only [abs_sub_comm] using h)
    exact ⟨Ω, _, P, Q, hP, hQ, by simpa only [EventPair, if_neg hok.2] using hs.1, by simpa only [EventPair, if_neg hok.2] using hs.2, h1, h2⟩
  | .poissonSampled q (.gaussian z), hok, hc, hC =>
    obtain ⟨Δ, hΔ, hC⟩ := hC
    cases hC with
    | mk f hf D r hr =>
      have hn : noises (.gaussian z) = [z.val.toReal] := by simp [noises, expand]
      refine ⟨_, _, _, _, Measure.isProbabilityMeasure_map (MeasurableEquiv.measurable _).aemeasurable,
        Measure.isProbabilityMeasure_map (MeasurableEquiv.measurable _).aemeasurable, ?_, ?_,
        h1.map (MeasurableEquiv.funUnique (Fin [z.val.toReal].length) _).symm, h2.map (MeasurableEquiv.funUnique (Fin [z.val.toReal].length) _).symm⟩
      · rw [EventPair, hn, poisson_cross, poisson_cross]
        exact .remove (fun _ => f) (fun _ => Δ) (fun _ => hΔ) (fun _ s r => hf s r) D r hr
      · rw [EventPair, hn, poisson_cross, poisson_cross]
        exact .add (fun _ => f) (fun _ => Δ) (fun _ => hΔ) (fun _ s r => hf s r) D r hr
  | .poissonSampled q (.laplace z), hok, hc, hC =>
    rw [Covered] at hc
    rcases hc with ⟨z', h, _⟩ | h
    · simp at h
    · exact absurd h (by simp [FloatGaussians])
  | .randomizedResponse p k, hok, hc, hC =>
    refine ⟨Ω, _, P, Q, hP, hQ, ?_, ?_, h1, h2⟩
    · rw [EventPair]
      simp only [PldEventPair] at hC
      split_ifs at hC ⊢
      · exact hC
      · cases hC with
        | mk x => exact .toSpecial x
    · rw [EventPair]
      simp only [PldEventPair] at hC
      split_ifs at hC ⊢
      · cases hC with
        | mk x y => exact .mk y x
      · cases hC with
        | mk x => exact .ofSpecial x

variable {disc : ℝ} {nr : NeighborRel}

lemma adaptive_cross (Xs : List (DpEvent × LossLaw × LossLaw)) (h : ∀ x ∈ Xs, CrossLaw nr x.1 x.2.1 x.2.2) :
    ∃ (Ω : Type) (_ : MeasurableSpace Ω) (P Q : Measure Ω), (IsProbabilityMeasure P ∧ IsProbabilityMeasure Q) ∧
      Adaptive (Xs.map fun x => EventPair nr x.1) Ω P Q ∧ Adaptive (Xs.map fun x => EventPair nr x.1) Ω Q P ∧
      (LossLaw.convAll (Xs.map fun x => x.2.1)).Of P Q ∧ (LossLaw.convAll (Xs.map fun x => x.2.2)).Of Q P := by
  induction Xs with
  | nil =>
    exact ⟨Unit, inferInstance, Measure.dirac (), Measure.dirac (), ⟨inferInstance, inferInstance⟩, .nil _, .nil _, Advanced.zero_of, Advanced.zero_of⟩
  | cons x Xs ih =>
    obtain ⟨Ω', _, P', Q', ⟨_, _⟩, hA, hB, h1, h2⟩ := ih fun y hy => h y (by simp [hy])
    obtain ⟨Ω, _, P, Q, _, _, hC, hD, g1, g2⟩ := h x (by simp)
    refine ⟨Ω × Ω', inferInstance, P.prod P', Q.prod Q', ⟨inferInstance, inferInstance⟩, ?_, ?_, g1.prod h1, g2.prod h2⟩
    · rw [← Measure.compProd_const, ← Measure.compProd_const]
      exact .cons P Q (Kernel.const _ P') (Kernel.const _ Q') hC fun _ => by simpa using hA
    · rw [← Measure.compProd_const, ← Measure.compProd_const]
      exact .cons Q P (Kernel.const _ Q') (Kernel.const _ P') hD fun _ => by simpa using hB

/-- The deltas of a tight PLD are attained by mechanisms that the RDP accountant accounts for. -/
lemma Tight.cross {p : Pld} {M : Multiset DpEvent} {s : ℝ} (h : Tight disc nr p M s) (hok : ∀ a ∈ M, TightOk disc a) (hc : ∀ a ∈ M, Covered a)
    {l : List DpEvent} (hl : (l : Multiset DpEvent) = M) :
    ∃ (Ω : Type) (_ : MeasurableSpace Ω) (P Q : Measure Ω), Adaptive (l.map (EventPair nr)) Ω P Q ∧ Adaptive (l.map (EventPair nr)) Ω Q P ∧
      ∀ e δ : ℝ, Indist P Q (e - l.length * disc) δ → Indist Q P (e - l.length * disc) δ → p.getDeltaForEpsilon (e : EReal) ≤ δ + s := by
  obtain ⟨hv, Xs, h1, h2, h3, h4⟩ := h
  have hlen : (M.card : ℝ) = l.length := by rw [← hl]; rfl
  obtain ⟨Ys, k1, k2⟩ := reorder (Multiset.coe_eq_coe.1 (hl.trans h1.symm))
  have hmem : ∀ x ∈ Ys, x.1 ∈ M := fun x hx => by
    rw [← hl, ← k2]
    exact List.mem_map.2 ⟨x, hx, rfl⟩
  obtain ⟨Ω, _, P, Q, ⟨_, _⟩, hA, hB, g1, g2⟩ := adaptive_cross (nr := nr) Ys fun x hx =>
    cross_of_tight (hok _ (hmem x hx)) (hc _ (hmem x hx)) (h2 x (k1.subset hx))
  refine ⟨Ω, inferInstance, P, Q, ?_, ?_, fun e δ i1 i2 => ?_⟩
  · rw [← k2, List.map_map]; exact hA
  · rw [← k2, List.map_map]; exact hB
  · rw [Pld.getDelta_eq hv]
    rw [hlen, ← convAll_perm (k1.map _)] at h3 h4
    have a1 := (g1.isHs (e - l.length * disc)).2 i1
    have a2 := (g2.isHs (e - l.length * disc)).2 i2
    exact max_le (by linarith [h3.hs e]) (by linarith [h4.hs e])

end Verif.Spec
