import Verif.Proofs.PldTightRR
import Verif.Proofs.NoiseMonotone
import Verif.Proofs.RdpRR
import Verif.Spec.PldMilder

/-! # Milder events have smaller privacy curves -/

namespace Verif.Spec
open MeasureTheory ProbabilityTheory Verif.Pld Verif.PldPmf Verif.Mech

variable {nr : NeighborRel}

lemma sampledGaussianPair_noise {z z' q : ℝ} (h0 : 0 < z') (hz : z' ≤ z) {Ω : Type} [MeasurableSpace Ω] {P Q : Measure Ω}
    (h : SampledGaussianPair z q Ω P Q) : SampledGaussianPair z' q Ω P Q := by
  obtain ⟨Δ, hΔ, h⟩ := h
  have h1 : Δ ≤ Δ * (z / z') := le_mul_of_one_le_right hΔ.le ((one_le_div h0).2 hz)
  refine ⟨Δ * (z / z'), by have := h0.trans_le hz; positivity, ?_⟩
  rw [show z' * (Δ * (z / z')) = z * Δ by field_simp]
  cases h with
  | mk f hf D r hr => exact .mk f (fun S r => (hf S r).trans h1) D r hr

lemma sampledLaplacePair_noise {z z' q : ℝ} (h0 : 0 < z') (hz : z' ≤ z) {Ω : Type} [MeasurableSpace Ω] {P Q : Measure Ω}
    (h : SampledLaplacePair z q Ω P Q) : SampledLaplacePair z' q Ω P Q := by
  obtain ⟨Δ, hΔ, h⟩ := h
  have h1 : Δ ≤ Δ * (z / z') := le_mul_of_one_le_right hΔ.le ((one_le_div h0).2 hz)
  refine ⟨Δ * (z / z'), by have := h0.trans_le hz; positivity, ?_⟩
  rw [show z' * (Δ * (z / z')) = z * Δ by field_simp]
  cases h with
  | mk f hf D r hr => exact .mk f (fun S r => (hf S r).trans h1) D r hr

lemma gaussianPair_sampled {z : ℝ} {Ω : Type} [MeasurableSpace Ω] {P Q : Measure Ω} (h : GaussianPair z Ω P Q) : SampledGaussianPair z 1 Ω P Q := by
  cases h with
  | mk a b Δ hΔ hab => exact ⟨Δ, hΔ, sampledGaussian_one hΔ.le a b hab⟩

lemma laplacePair_sampled {z : ℝ} {Ω : Type} [MeasurableSpace Ω] {P Q : Measure Ω} (h : LaplacePair z Ω P Q) : SampledLaplacePair z 1 Ω P Q := by
  cases h with
  | mk a b Δ hΔ hab => exact ⟨Δ, hΔ, sampledLaplace_one hΔ.le a b hab⟩

lemma sampledGaussianPair_bound {z z' q q' : ℝ} (h0 : 0 < z') (hz : z' ≤ z) (q0 : 0 < q) (hq : q ≤ q') (q1 : q' ≤ 1) {Ω : Type} [MeasurableSpace Ω]
    {P Q : Measure Ω} (h : SampledGaussianPair z q Ω P Q) (ε δ : ℝ) :
    (Indist (upper (gaussianReal 0 (Real.toNNReal (z' ^ 2))) 1 q' .remove) (lower (gaussianReal 0 (Real.toNNReal (z' ^ 2))) 1 q' .remove) ε δ →
      Indist P Q ε δ) ∧
    (Indist (upper (gaussianReal 0 (Real.toNNReal (z' ^ 2))) 1 q' .add) (lower (gaussianReal 0 (Real.toNNReal (z' ^ 2))) 1 q' .add) ε δ →
      Indist Q P ε δ) := by
  obtain ⟨P', Q', g, hg, hC, rfl, rfl⟩ := sampledGaussianPair_map Ω P Q (sampledGaussianPair_noise h0 hz h)
  have k := sampledGaussian_indist h0 one_pos q0.le (hq.trans q1) hC ε δ
  exact ⟨fun hi => Indist.map (k.1 (indist_sampling _ 1 q0 hq q1 .remove ε δ hi)) hg, fun hi => Indist.map (k.2 (indist_sampling _ 1 q0 hq q1 .add ε δ hi)) hg⟩

lemma sampledLaplacePair_bound {z z' q q' : ℝ} (h0 : 0 < z') (hz : z' ≤ z) (q0 : 0 < q) (hq : q ≤ q') (q1 : q' ≤ 1) {Ω : Type} [MeasurableSpace Ω]
    {P Q : Measure Ω} (h : SampledLaplacePair z q Ω P Q) (ε δ : ℝ) :
    (Indist (upper (laplace 0 z') 1 q' .remove) (lower (laplace 0 z') 1 q' .remove) ε δ → Indist P Q ε δ) ∧
    (Indist (upper (laplace 0 z') 1 q' .add) (lower (laplace 0 z') 1 q' .add) ε δ → Indist Q P ε δ) := by
  obtain ⟨P', Q', g, hg, hC, rfl, rfl⟩ := sampledLaplacePair_map h0 Ω P Q (sampledLaplacePair_noise h0 hz h)
  have k := sampledLaplace_indist h0 q0.le (hq.trans q1) hC ε δ
  have := laplace_prob 0 h0
  exact ⟨fun hi => Indist.map (k.1 (indist_sampling _ 1 q0 hq q1 .remove ε δ hi)) hg, fun hi => Indist.map (k.2 (indist_sampling _ 1 q0 hq q1 .add ε δ hi)) hg⟩

/-- `a` has exact laws that are above those of `L` and `L'`. -/
def Above (nr : NeighborRel) (a : DpEvent) (L L' : LossLaw) : Prop :=
  ∃ M M' : LossLaw, TightLaw nr a M M' ∧ ∀ e, L.hs e ≤ M.hs e ∧ L'.hs e ≤ M'.hs e

lemma gaussian_above {a a' : DpEvent} {z z' q q' : ℝ} (h0 : 0 < z') (hz : z' ≤ z) (q0 : 0 < q) (hq : q ≤ q') (q1 : q' ≤ 1)
    (ha : PldEventPair nr a = SampledGaussianPair z q ∨ q = 1 ∧ PldEventPair nr a = GaussianPair z)
    (ha' : PldEventPair nr a' = SampledGaussianPair z' q' ∨ q' = 1 ∧ PldEventPair nr a' = GaussianPair z') {L L' : LossLaw}
    (h : TightLaw nr a L L') : Above nr a' L L' := by
  obtain ⟨Ω, _, P, Q, _, _, hC, h1, h2⟩ := h
  have hC' : SampledGaussianPair z q Ω P Q := by
    rcases ha with ha | ⟨rfl, ha⟩
    · rwa [ha] at hC
    · rw [ha] at hC; exact gaussianPair_sampled hC
  obtain ⟨M, M', hM, hle⟩ := gaussian_tight h0 (q0.le.trans hq) q1 ha'
  obtain ⟨f, hf⟩ := Props.gaussian_curves h0 one_pos (q0.trans_le hq) q1
  refine ⟨M, M', hM, fun e => ⟨le_trans ?_ (hle f hf e).1, le_trans ?_ (hle f hf e).2⟩⟩
  · exact (h1.isHs e).2 ((sampledGaussianPair_bound h0 hz q0 hq q1 hC' e _).1 (hf .remove e).1)
  · exact (h2.isHs e).2 ((sampledGaussianPair_bound h0 hz q0 hq q1 hC' e _).2 (hf .add e).1)

lemma laplace_above {a a' : DpEvent} {z z' q q' : ℝ} (h0 : 0 < z') (hz : z' ≤ z) (q0 : 0 < q) (hq : q ≤ q') (q1 : q' ≤ 1)
    (ha : PldEventPair nr a = SampledLaplacePair z q ∨ q = 1 ∧ PldEventPair nr a = LaplacePair z)
    (ha' : PldEventPair nr a' = SampledLaplacePair z' q' ∨ q' = 1 ∧ PldEventPair nr a' = LaplacePair z') {L L' : LossLaw}
    (h : TightLaw nr a L L') : Above nr a' L L' := by
  obtain ⟨Ω, _, P, Q, _, _, hC, h1, h2⟩ := h
  have hC' : SampledLaplacePair z q Ω P Q := by
    rcases ha with ha | ⟨rfl, ha⟩
    · rwa [ha] at hC
    · rw [ha] at hC; exact laplacePair_sampled hC
  obtain ⟨M, M', hM, hle⟩ := laplace_tight h0 (q0.le.trans hq) q1 ha'
  obtain ⟨f, hf⟩ := Props.laplace_curves h0 one_pos (q0.trans_le hq) q1
  refine ⟨M, M', hM, fun e => ⟨le_trans ?_ (hle f hf e).1, le_trans ?_ (hle f hf e).2⟩⟩
  · exact (h1.isHs e).2 ((sampledLaplacePair_bound h0 hz q0 hq q1 hC' e _).1 (hf .remove e).1)
  · exact (h2.isHs e).2 ((sampledLaplacePair_bound h0 hz q0 hq q1 hC' e _).2 (hf .add e).1)

/-! ### Randomised response -/

lemma one_lt_top : (1 : EReal) < ⊤ := EReal.coe_lt_top 1

lemma real_bounds {z z' : EReal} (h0 : 0 < z') (hz : z' ≤ z) (ht : z < ⊤) : 0 < z'.toReal ∧ z'.toReal ≤ z.toReal :=
  ⟨EReal.toReal_pos h0 (hz.trans_lt ht).ne, EReal.toReal_le_toReal hz (ne_of_gt (lt_of_le_of_lt bot_le h0)) ht.ne⟩

lemma real_le_one {q : EReal} (h0 : 0 < q) (h1 : q ≤ 1) : q.toReal ≤ 1 := by
  have := EReal.toReal_le_toReal h1 (ne_of_gt (lt_of_le_of_lt bot_le h0)) one_lt_top.ne
  simpa using this

lemma rr_mix {k : ℕ} (hk : 2 ≤ k) {p p' : ℝ} (h0 : 0 < p') (hp : p' ≤ p) (h1 : p ≤ 1) : ∃ t : ℝ, 0 ≤ t ∧ t ≤ 1 ∧ ∀ (x : Fin k) (S : Set (Fin k)),
    (rrMech k p x).real S = (1 - t) * (rrMech k p' x).real S + t * (uniformResponse k).real S := by
  have hp1 : 0 ≤ 1 - p := by linarith
  obtain ⟨t, t0, t1, ht⟩ : ∃ t : ℝ, 0 ≤ t ∧ t ≤ 1 ∧ (1 - t) * (1 - p') = 1 - p := by
    rcases (hp.trans h1).lt_or_eq with h | h
    · have h' : 0 < 1 - p' := by linarith
      refine ⟨1 - (1 - p) / (1 - p'), ?_, ?_, ?_⟩
      · rw [sub_nonneg, div_le_one h']; linarith
      · have : 0 ≤ (1 - p) / (1 - p') := by positivity
        linarith
      · rw [sub_sub_cancel, div_mul_cancel₀ _ h'.ne']
    · exact ⟨0, le_rfl, zero_le_one, by rw [h]; linarith⟩
  have hk0 : (0 : ℝ) < k := by exact_mod_cast (by omega : 0 < k)
  refine ⟨t, t0, t1, fun x S => ?_⟩
  classical
  have hp0 : 0 < p := h0.trans_le hp
  rw [rrMech_eq, rrMech_eq, uniformResponse, finMeasure_real _ _ (fun o _ => rrProb_nonneg hp0.le h1 x o) (MeasurableSet.of_discrete),
    finMeasure_real _ _ (fun o _ => rrProb_nonneg h0.le (hp.trans h1) x o) (MeasurableSet.of_discrete),
    finMeasure_real _ _ (fun o _ => by positivity) (MeasurableSet.of_discrete), Finset.mul_sum, Finset.mul_sum, ← Finset.sum_add_distrib]
  refine Finset.sum_congr rfl fun o _ => ?_
  have e : p = 1 - (1 - t) * (1 - p') := by linarith
  by_cases ho : o ∈ S
  · simp only [if_pos ho, rrProb]
    split_ifs <;> (rw [e]; field_simp; ring)
  · simp [if_neg ho]

/-- With some probability the answer is replaced by one that does not depend on the data. -/
lemma indist_resample {Ω : Type} [MeasurableSpace Ω] {P Q P' Q' U : Measure Ω} [IsProbabilityMeasure P] [IsProbabilityMeasure Q] [IsProbabilityMeasure U]
    {t : ℝ} (t0 : 0 ≤ t) (t1 : t ≤ 1) (hP : ∀ S, P'.real S = (1 - t) * P.real S + t * U.real S)
    (hQ : ∀ S, Q'.real S = (1 - t) * Q.real S + t * U.real S) {ε δ : ℝ} (h : Indist P Q ε δ) : Indist P' Q' ε δ := by
  intro S hS
  have a := h S hS
  have b := h Set.univ MeasurableSet.univ
  have c : U.real S ≤ 1 := measureReal_le_one
  have c0 : 0 ≤ U.real S := measureReal_nonneg
  have d0 : 0 ≤ δ := by simpa using h ∅ MeasurableSet.empty
  rw [probReal_univ, probReal_univ] at b
  rw [hP, hQ]
  have b1 := mul_le_mul_of_nonneg_left b (mul_nonneg t0 c0)
  have a1 := mul_le_mul_of_nonneg_left a (sub_nonneg.2 t1)
  have e1 : t * U.real S * δ ≤ t * δ := by nlinarith [mul_nonneg t0 d0]
  nlinarith

lemma rr_above {p p' : PyNum} {k : ℤ} (hk : 2 ≤ k) (h0 : 0 < p'.val) (hp : p'.val ≤ p.val) (h1 : p.val ≤ 1) {L L' : LossLaw}
    (h : TightLaw nr (.randomizedResponse p k) L L') : Above nr (.randomizedResponse p' k) L L' := by
  have ht : p.val ≠ ⊤ := (h1.trans_lt one_lt_top).ne
  have g0 : 0 < p'.val.toReal := EReal.toReal_pos h0 (fun hc => ht (top_le_iff.1 (hc ▸ hp)))
  have gp : p'.val.toReal ≤ p.val.toReal := EReal.toReal_le_toReal hp (fun hc => by rw [hc] at h0; simp at h0) ht
  have g1 : p.val.toReal ≤ 1 := real_le_one (h0.trans_le hp) h1
  have hk' : 2 ≤ k.toNat := by omega
  obtain ⟨t, t0, t1, hmix⟩ := rr_mix hk' g0 gp g1
  have := uniform_prob hk'
  have := fun x : Fin k.toNat => Rdp.rr_prob g0.le (gp.trans g1) x
  have hun : ∀ S, (uniformResponse k.toNat).real S = (1 - t) * (uniformResponse k.toNat).real S + t * (uniformResponse k.toNat).real S := fun S => by ring
  obtain ⟨Ω, _, P, Q, _, _, hC, i1, i2⟩ := h
  simp only [PldEventPair] at hC
  by_cases hnr : nr = .replaceOne
  · rw [if_pos hnr] at hC
    cases hC with
    | mk x y =>
      obtain ⟨M, hM⟩ := exists_lossLaw (rrMech k.toNat p'.val.toReal x) (rrMech k.toNat p'.val.toReal y)
      obtain ⟨M', hM'⟩ := exists_lossLaw (rrMech k.toNat p'.val.toReal y) (rrMech k.toNat p'.val.toReal x)
      refine ⟨M, M', ⟨_, _, _, _, inferInstance, inferInstance, ?_, hM, hM'⟩, fun e => ⟨?_, ?_⟩⟩
      · simp only [PldEventPair, if_pos hnr]; exact .mk x y
      · exact (i1.isHs e).2 (indist_resample t0 t1 (hmix x) (hmix y) (hM.isHs e).1)
      · exact (i2.isHs e).2 (indist_resample t0 t1 (hmix y) (hmix x) (hM'.isHs e).1)
  · rw [if_neg hnr] at hC
    cases hC with
    | mk x =>
      obtain ⟨M, hM⟩ := exists_lossLaw (rrMech k.toNat p'.val.toReal x) (uniformResponse k.toNat)
      obtain ⟨M', hM'⟩ := exists_lossLaw (uniformResponse k.toNat) (rrMech k.toNat p'.val.toReal x)
      refine ⟨M, M', ⟨_, _, _, _, inferInstance, inferInstance, ?_, hM, hM'⟩, fun e => ⟨?_, ?_⟩⟩
      · simp only [PldEventPair, if_neg hnr]; exact .mk x
      · exact (i1.isHs e).2 (indist_resample t0 t1 (hmix x) hun (hM.isHs e).1)
      · exact (i2.isHs e).2 (indist_resample t0 t1 hun (hmix x) (hM'.isHs e).1)

/-! ### All events -/

lemma PldMilder.above {a a' : DpEvent} (hm : PldMilder a a') {L L' : LossLaw} (h : TightLaw nr a L L') : Above nr a' L L' := by
  cases hm with
  | gaussian z z' h0 hz ht =>
    obtain ⟨g0, gz⟩ := real_bounds h0 hz ht
    exact gaussian_above g0 gz one_pos le_rfl le_rfl (.inr ⟨rfl, rfl⟩) (.inr ⟨rfl, rfl⟩) h
  | laplace z z' h0 hz ht =>
    obtain ⟨g0, gz⟩ := real_bounds h0 hz ht
    exact laplace_above g0 gz one_pos le_rfl le_rfl (.inr ⟨rfl, rfl⟩) (.inr ⟨rfl, rfl⟩) h
  | sampledGaussian q q' z z' q0 hq q1 h0 hz ht =>
    obtain ⟨g0, gz⟩ := real_bounds h0 hz ht
    obtain ⟨k0, kq⟩ := real_bounds q0 hq (q1.trans_lt one_lt_top)
    exact gaussian_above g0 gz k0 kq (real_le_one (q0.trans_le hq) q1) (.inl rfl) (.inl rfl) h
  | sampledLaplace q q' z z' q0 hq q1 h0 hz ht =>
    obtain ⟨g0, gz⟩ := real_bounds h0 hz ht
    obtain ⟨k0, kq⟩ := real_bounds q0 hq (q1.trans_lt one_lt_top)
    exact laplace_above g0 gz k0 kq (real_le_one (q0.trans_le hq) q1) (.inl rfl) (.inl rfl) h
  | unsampledGaussian q z z' q0 q1 h0 hz ht =>
    obtain ⟨g0, gz⟩ := real_bounds h0 hz ht
    exact gaussian_above g0 gz (EReal.toReal_pos q0 (q1.trans_lt one_lt_top).ne) (real_le_one q0 q1) le_rfl (.inl rfl) (.inr ⟨rfl, rfl⟩) h
  | unsampledLaplace q z z' q0 q1 h0 hz ht =>
    obtain ⟨g0, gz⟩ := real_bounds h0 hz ht
    exact laplace_above g0 gz (EReal.toReal_pos q0 (q1.trans_lt one_lt_top).ne) (real_le_one q0 q1) le_rfl (.inl rfl) (.inr ⟨rfl, rfl⟩) h
  | randomizedResponse p p' k hk h0 hp h1 => exact rr_above hk h0 hp h1 h

/-- Events with parameters in range describe some mechanism. -/
lemma PldMilder.exists_tight {a : DpEvent} (hm : PldMilder a a) : ∃ L L' : LossLaw, TightLaw nr a L L' := by
  cases hm with
  | gaussian z _ h0 _ ht =>
    obtain ⟨L, L', h, -⟩ := gaussian_tight (nr := nr) (a := .gaussian z) (EReal.toReal_pos h0 ht.ne) zero_le_one le_rfl (.inr ⟨rfl, rfl⟩)
    exact ⟨L, L', h⟩
  | laplace z _ h0 _ ht =>
    obtain ⟨L, L', h, -⟩ := laplace_tight (nr := nr) (a := .laplace z) (EReal.toReal_pos h0 ht.ne) zero_le_one le_rfl (.inr ⟨rfl, rfl⟩)
    exact ⟨L, L', h⟩
  | sampledGaussian q _ z _ q0 _ q1 h0 _ ht =>
    obtain ⟨L, L', h, -⟩ := gaussian_tight (nr := nr) (a := .poissonSampled q (.gaussian z)) (EReal.toReal_pos h0 ht.ne)
      (EReal.toReal_pos q0 (q1.trans_lt one_lt_top).ne).le (real_le_one q0 q1) (.inl rfl)
    exact ⟨L, L', h⟩
  | sampledLaplace q _ z _ q0 _ q1 h0 _ ht =>
    obtain ⟨L, L', h, -⟩ := laplace_tight (nr := nr) (a := .poissonSampled q (.laplace z)) (EReal.toReal_pos h0 ht.ne)
      (EReal.toReal_pos q0 (q1.trans_lt one_lt_top).ne).le (real_le_one q0 q1) (.inl rfl)
    exact ⟨L, L', h⟩
  | randomizedResponse p _ k hk h0 _ h1 =>
    have hk' : 2 ≤ k.toNat := by omega
    have := uniform_prob hk'
    have := fun x : Fin k.toNat => Rdp.rr_prob (EReal.toReal_pos h0 (h1.trans_lt one_lt_top).ne).le (real_le_one h0 h1) x
    obtain ⟨x⟩ : Nonempty (Fin k.toNat) := ⟨⟨0, by omega⟩⟩
    by_cases hnr : nr = .replaceOne
    · obtain ⟨M, hM⟩ := exists_lossLaw (rrMech k.toNat p.val.toReal x) (rrMech k.toNat p.val.toReal x)
      exact ⟨M, M, _, _, _, _, inferInstance, inferInstance, by simp only [PldEventPair, if_pos hnr]; exact .mk x x, hM, hM⟩
    · obtain ⟨M, hM⟩ := exists_lossLaw (rrMech k.toNat p.val.toReal x) (uniformResponse k.toNat)
      obtain ⟨M', hM'⟩ := exists_lossLaw (uniformResponse k.toNat) (rrMech k.toNat p.val.toReal x)
      exact ⟨M, M', _, _, _, _, inferInstance, inferInstance, by simp only [PldEventPair, if_neg hnr]; exact .mk x, hM, hM'⟩

/-- Every law is above that of a mechanism that releases nothing. -/
lemma zero_le_of {L : LossLaw} {Ω : Type} [MeasurableSpace Ω] {P Q : Measure Ω} [IsProbabilityMeasure P] [IsProbabilityMeasure Q] (h : L.Of P Q) (e : ℝ) :
    LossLaw.zero.hs e ≤ L.hs e := by
  have hs : LossLaw.zero.hs e = max 0 (1 - Real.exp e) := by
    unfold LossLaw.hs lossHs LossLaw.zero
    simp only [zero_add]
    rw [integral_dirac' _ _ (measurable_hinge _).stronglyMeasurable, hinge_coe, sub_zero]
  have a := (h.isHs e).1 Set.univ MeasurableSet.univ
  rw [probReal_univ, probReal_univ] at a
  rw [hs]
  exact max_le (hs_bounds L e).1 (by linarith)

lemma PldMilderAll.above {l l' : List DpEvent} (hm : PldMilderAll l l') : ∀ Xs : List (DpEvent × LossLaw × LossLaw), Xs.map Prod.fst = l →
    (∀ x ∈ Xs, TightLaw nr x.1 x.2.1 x.2.2) → ∃ Ys : List (DpEvent × LossLaw × LossLaw), Ys.map Prod.fst = l' ∧
      (∀ x ∈ Ys, TightLaw nr x.1 x.2.1 x.2.2) ∧ ∀ e, (LossLaw.convAll (Xs.map fun x => x.2.1)).hs e ≤ (LossLaw.convAll (Ys.map fun x => x.2.1)).hs e ∧
        (LossLaw.convAll (Xs.map fun x => x.2.2)).hs e ≤ (LossLaw.convAll (Ys.map fun x => x.2.2)).hs e := by
  induction hm with
  | nil =>
    intro Xs h _
    obtain rfl := List.map_eq_nil_iff.1 h
    exact ⟨[], rfl, by simp, fun e => ⟨le_rfl, le_rfl⟩⟩
  | cons a a' l l' ha _ ih =>
    intro Xs h ht
    obtain ⟨x, Xs, rfl, rfl, h'⟩ := List.map_eq_cons_iff.1 h
    obtain ⟨Ys, g1, g2, g3⟩ := ih Xs h' fun y hy => ht y (by simp [hy])
    obtain ⟨M, M', hM, hle⟩ := ha.above (ht x (by simp))
    refine ⟨(a', M, M') :: Ys, by simp [g1], fun y hy => ?_, fun e => ⟨?_, ?_⟩⟩
    · rcases List.mem_cons.1 hy with rfl | hy
      · exact hM
      · exact g2 y hy
    · exact conv_hs_mono (fun e => (hle e).1) (fun e => (g3 e).1) e
    · exact conv_hs_mono (fun e => (hle e).2) (fun e => (g3 e).2) e
  | skip a' l l' ha _ ih =>
    intro Xs h ht
    obtain ⟨Ys, g1, g2, g3⟩ := ih Xs h ht
    obtain ⟨M, M', hM⟩ := ha.exists_tight (nr := nr)
    have hM2 := hM
    obtain ⟨Ω, _, P, Q, _, _, _, i1, i2⟩ := hM2
    refine ⟨(a', M, M') :: Ys, by simp [g1], fun y hy => ?_, fun e => ⟨?_, ?_⟩⟩
    · rcases List.mem_cons.1 hy with rfl | hy
      · exact hM
      · exact g2 y hy
    · have := conv_hs_mono (fun e => zero_le_of i1 e) (fun e => (g3 e).1) e
      rwa [zero_conv] at this
    · have := conv_hs_mono (fun e => zero_le_of i2 e) (fun e => (g3 e).2) e
      rwa [zero_conv] at this

/-- The deltas of a tight PLD are bounded by those of mechanisms described by harsher events. -/
lemma Tight.harsher {disc : ℝ} {p : Pld} {M : Multiset DpEvent} {s : ℝ} (h : Tight disc nr p M s) {l l' : List DpEvent} (hl : (l : Multiset DpEvent) = M)
    (hm : PldMilderAll l l') :
    ∃ (Ω : Type) (_ : MeasurableSpace Ω) (P Q : Measure Ω), Adaptive (l'.map (PldEventPair nr)) Ω P Q ∧
      ∀ e δ : ℝ, Indist P Q (e - l.length * disc) δ → Indist Q P (e - l.length * disc) δ → p.getDeltaForEpsilon (e : EReal) ≤ δ + s := by
  obtain ⟨hv, Xs, h1, h2, h3, h4⟩ := h
  have hlen : (M.card : ℝ) = l.length := by rw [← hl]; rfl
  obtain ⟨Ys, k1, k2⟩ := reorder (Multiset.coe_eq_coe.1 (hl.trans h1.symm))
  obtain ⟨Zs, j1, j2, j3⟩ := hm.above (nr := nr) Ys k2 fun x hx => h2 x (k1.subset hx)
  obtain ⟨Ω, _, P, Q, ⟨_, _⟩, hA, g1, g2⟩ := adaptive_tight Zs j2
  refine ⟨Ω, inferInstance, P, Q, ?_, fun e δ i1 i2 => ?_⟩
  · rw [← j1, List.map_map]; exact hA
  · rw [Pld.getDelta_eq hv]
    rw [hlen, ← convAll_perm (k1.map _)] at h3 h4
    have a1 := (g1.isHs (e - l.length * disc)).2 i1
    have a2 := (g2.isHs (e - l.length * disc)).2 i2
    have := j3 (e - l.length * disc)
    exact max_le (by linarith [h3.hs e]) (by linarith [h4.hs e])

end Verif.Spec
