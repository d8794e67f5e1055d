import Verif.Proofs.PldTight
import Verif.Props.Discretization
import Verif.Spec.PldTight

/-! # Mechanisms that attain the bounds of the accountant -/

namespace Verif.Spec
open MeasureTheory ProbabilityTheory Verif.Pld Verif.PldPmf Verif.Mech
open scoped RealInnerProductSpace

/-- `L` and `L'` are the exact loss laws, in the two orders, of a mechanism described by `a`. -/
def TightLaw (nr : NeighborRel) (a : DpEvent) (L L' : LossLaw) : Prop :=
  ∃ (Ω : Type) (_ : MeasurableSpace Ω) (P Q : Measure Ω), IsProbabilityMeasure P ∧ IsProbabilityMeasure Q ∧ PldEventPair nr a Ω P Q ∧ L.Of P Q ∧ L'.Of Q P

/-! ### Additive noise -/

lemma laplace_neg (b : ℝ) : (laplace 0 b).map (fun x => -x) = laplace 0 b := by
  have hm : Measurable fun x : ℝ => -x := measurable_neg
  ext t ht
  rw [Measure.map_apply hm ht]
  unfold laplace
  rw [withDensity_apply _ ht, withDensity_apply _ (hm ht)]
  have hv : (volume : Measure ℝ).map (fun x => -x) = volume := Measure.map_neg_eq_self volume
  conv_rhs => rw [← hv, setLIntegral_map ht (by fun_prop) hm]
  refine lintegral_congr fun x => ?_
  simp

lemma mixShift_neg {ν : Measure ℝ} (hν : ν.map (fun x => -x) = ν) (q s : ℝ) : (mixShift ν q (-s)).map (fun x => -x) = mixShift ν q s := by
  unfold mixShift
  rw [mix_map _ _ _ measurable_neg, hν, Measure.map_map measurable_neg (measurable_add_const _)]
  have e : ((fun x : ℝ => -x) ∘ fun x => x + -s) = (fun x => x + s) ∘ fun x => -x := by
    funext x; simp [add_comm]
  rw [e, ← Measure.map_map (measurable_add_const _) measurable_neg, hν]

/-- A pair whose image under `g` is the one-dimensional worst case. -/
structure Canonical {Ω : Type} [MeasurableSpace Ω] (P Q : Measure Ω) (ν : Measure ℝ) (q : ℝ) : Prop where
  probP : IsProbabilityMeasure P
  probQ : IsProbabilityMeasure Q
  image : ∃ g : Ω → ℝ, Measurable g ∧ P.map g = mixShift ν q (-1) ∧ Q.map g = ν

lemma Canonical.indist {Ω : Type} [MeasurableSpace Ω] {P Q : Measure Ω} {ν : Measure ℝ} {q : ℝ} (h : Canonical P Q ν q)
    (hν : ν.map (fun x => -x) = ν) {ε δ : ℝ} :
    (Indist P Q ε δ → Indist (upper ν 1 q .remove) (lower ν 1 q .remove) ε δ) ∧
    (Indist Q P ε δ → Indist (upper ν 1 q .add) (lower ν 1 q .add) ε δ) := by
  obtain ⟨g, hg, h1, h2⟩ := h.image
  refine ⟨fun hi => ?_, fun hi => ?_⟩
  · have := Indist.map hi hg
    rwa [h1, h2] at this
  · have := Indist.map (Indist.map hi hg) measurable_neg
    rwa [h1, h2, mixShift_neg hν, hν] at this

/-- The laws of a canonical pair are above the exact curves. -/
lemma Canonical.laws {Ω : Type} [MeasurableSpace Ω] {P Q : Measure Ω} {ν : Measure ℝ} {q : ℝ} (h : Canonical P Q ν q)
    (hν : ν.map (fun x => -x) = ν) : ∃ L L' : LossLaw, L.Of P Q ∧ L'.Of Q P ∧
      ∀ f : Adj → ℝ → ℝ, (∀ adj, HsCurve (upper ν 1 q adj) (lower ν 1 q adj) (f adj)) → ∀ e, f .remove e ≤ L.hs e ∧ f .add e ≤ L'.hs e := by
  have := h.probP
  have := h.probQ
  obtain ⟨L, hL⟩ := exists_lossLaw P Q
  obtain ⟨L', hL'⟩ := exists_lossLaw Q P
  exact ⟨L, L', hL, hL', fun f hf e => ⟨(hf .remove e).2 ((h.indist hν).1 (hL.isHs e).1), (hf .add e).2 ((h.indist hν).2 (hL'.isHs e).1)⟩⟩

lemma mixShift_prob {ν : Measure ℝ} [IsProbabilityMeasure ν] {q : ℝ} (q0 : 0 ≤ q) (q1 : q ≤ 1) (s : ℝ) : IsProbabilityMeasure (mixShift ν q s) := by
  have : IsProbabilityMeasure (ν.map fun x => x + s) := Measure.isProbabilityMeasure_map (measurable_add_const s).aemeasurable
  refine ⟨?_⟩
  unfold mixShift
  rw [Measure.add_apply, Measure.smul_apply, Measure.smul_apply, measure_univ, measure_univ, smul_eq_mul, smul_eq_mul, mul_one, mul_one,
    ← ENNReal.ofReal_add (by linarith) q0]
  simp

lemma laplace_canonical {z q : ℝ} (hz : 0 < z) (q0 : 0 ≤ q) (q1 : q ≤ 1) :
    Canonical (ENNReal.ofReal (1 - q) • laplaceVec (fun _ : Fin 1 => 0) z + ENNReal.ofReal q • laplaceVec (fun _ : Fin 1 => -1) z)
      (laplaceVec (fun _ : Fin 1 => 0) z) (laplace 0 z) q := by
  have hm : Measurable fun x : Fin 1 → ℝ => x 0 := measurable_pi_apply 0
  have e : ∀ t : ℝ, (laplaceVec (fun _ : Fin 1 => t) z).map (fun x => x 0) = laplace t z := by
    intro t
    have := laplace_prob t hz
    exact (measurePreserving_eval (fun _ : Fin 1 => laplace t z) 0).map_eq
  have hp := laplace_prob 0 hz
  have i1 : (ENNReal.ofReal (1 - q) • laplaceVec (fun _ : Fin 1 => 0) z + ENNReal.ofReal q • laplaceVec (fun _ : Fin 1 => -1) z).map (fun x => x 0) =
      mixShift (laplace 0 z) q (-1) := by
    rw [mix_map _ _ _ hm, e, e, mixShift, laplace_shift]
  refine ⟨prob_of_map hm ?_, prob_of_map hm ?_, fun x => x 0, hm, i1, e 0⟩
  · rw [i1]; exact mixShift_prob q0 q1 _
  · rw [e]; exact hp

lemma gaussian_canonical {z q : ℝ} (hz : 0 < z) (q0 : 0 ≤ q) (q1 : q ≤ 1) :
    Canonical (ENNReal.ofReal (1 - q) • gaussianVec ((0 : ℝ) • (EuclideanSpace.single 0 1 : Vec 1)) z +
      ENNReal.ofReal q • gaussianVec ((-1 : ℝ) • (EuclideanSpace.single 0 1 : Vec 1)) z)
      (gaussianVec ((0 : ℝ) • (EuclideanSpace.single 0 1 : Vec 1)) z) (gaussianReal 0 (Real.toNNReal (z ^ 2))) q := by
  have hm : Measurable fun x : Vec 1 => ⟪(EuclideanSpace.single 0 1 : Vec 1), x⟫ := by fun_prop
  have i1 : (ENNReal.ofReal (1 - q) • gaussianVec ((0 : ℝ) • (EuclideanSpace.single 0 1 : Vec 1)) z +
      ENNReal.ofReal q • gaussianVec ((-1 : ℝ) • (EuclideanSpace.single 0 1 : Vec 1)) z).map (fun x : Vec 1 => ⟪(EuclideanSpace.single 0 1 : Vec 1), x⟫) =
      mixShift (gaussianReal 0 (Real.toNNReal (z ^ 2))) q (-1) := by
    rw [mix_map _ _ _ hm, gaussianVec_proj hz, gaussianVec_proj hz, mixShift, gaussianReal_map_add_const, zero_add]
  refine ⟨prob_of_map hm ?_, prob_of_map hm ?_, _, hm, i1, gaussianVec_proj hz 0⟩
  · rw [i1]; exact mixShift_prob q0 q1 _
  · rw [gaussianVec_proj hz]; infer_instance

lemma gaussianReal_neg (v : NNReal) : (gaussianReal 0 v).map (fun x => -x) = gaussianReal 0 v := by rw [gaussianReal_map_neg, neg_zero]

/-- The laws of the Laplace events. -/
lemma laplace_tight {nr : NeighborRel} {a : DpEvent} {z q : ℝ} (hz : 0 < z) (q0 : 0 ≤ q) (q1 : q ≤ 1)
    (ha : PldEventPair nr a = SampledLaplacePair z q ∨ q = 1 ∧ PldEventPair nr a = LaplacePair z) : ∃ L L' : LossLaw, TightLaw nr a L L' ∧
      ∀ f : Adj → ℝ → ℝ, (∀ adj, HsCurve (upper (laplace 0 z) 1 q adj) (lower (laplace 0 z) 1 q adj) (f adj)) → ∀ e, f .remove e ≤ L.hs e ∧ f .add e ≤ L'.hs e := by
  have hc := laplace_canonical hz q0 q1
  obtain ⟨L, L', h1, h2, h3⟩ := hc.laws (laplace_neg z)
  refine ⟨L, L', ⟨_, _, _, _, hc.probP, hc.probQ, ?_, h1, h2⟩, h3⟩
  rcases ha with ha | ⟨rfl, ha⟩
  · rw [ha]
    refine ⟨1, one_pos, ?_⟩
    rw [mul_one]
    have := SampledLaplace.mk (b := z) (s := 1) (q := q) (R := Unit) (d := 1) (fun S _ => if () ∈ S then -1 else 0) (by
      intro S r
      by_cases hS : () ∈ S
      · simp [hS]
      · simp [hS]) ∅ () (by simp)
    rw [poissonMech_single, poissonMech_empty] at this
    simpa using this
  · rw [ha]
    have := LaplacePair.mk (z := z) (d := 1) (fun _ => -1) (fun _ => 0) 1 one_pos (by simp)
    simpa using this

/-- The laws of the Gaussian events. -/
lemma gaussian_tight {nr : NeighborRel} {a : DpEvent} {z q : ℝ} (hz : 0 < z) (q0 : 0 ≤ q) (q1 : q ≤ 1)
    (ha : PldEventPair nr a = SampledGaussianPair z q ∨ q = 1 ∧ PldEventPair nr a = GaussianPair z) : ∃ L L' : LossLaw, TightLaw nr a L L' ∧
      ∀ f : Adj → ℝ → ℝ, (∀ adj, HsCurve (upper (gaussianReal 0 (Real.toNNReal (z ^ 2))) 1 q adj) (lower (gaussianReal 0 (Real.toNNReal (z ^ 2))) 1 q adj) (f adj)) →
        ∀ e, f .remove e ≤ L.hs e ∧ f .add e ≤ L'.hs e := by
  have hc := gaussian_canonical hz q0 q1
  obtain ⟨L, L', h1, h2, h3⟩ := hc.laws (gaussianReal_neg _)
  have hn : ‖(EuclideanSpace.single 0 1 : Vec 1)‖ = 1 := by simp
  refine ⟨L, L', ⟨_, _, _, _, hc.probP, hc.probQ, ?_, h1, h2⟩, h3⟩
  rcases ha with ha | ⟨rfl, ha⟩
  · rw [ha]
    refine ⟨1, one_pos, ?_⟩
    rw [mul_one]
    have := SampledGaussian.mk (σ := z) (s := 1) (q := q) (R := Unit) (d := 1) (fun S => (if () ∈ S then (-1 : ℝ) else 0) • (EuclideanSpace.single 0 1 : Vec 1)) (by
      intro S r
      by_cases hS : () ∈ S
      · simp [hS]
      · simp [hS]) ∅ () (by simp)
    rw [poissonMech_single, poissonMech_empty] at this
    simpa using this
  · rw [ha]
    have := GaussianPair.mk (z := z) (d := 1) ((-1 : ℝ) • (EuclideanSpace.single 0 1 : Vec 1)) ((0 : ℝ) • (EuclideanSpace.single 0 1 : Vec 1)) 1 one_pos (by simp)
    simpa using this

end Verif.Spec
