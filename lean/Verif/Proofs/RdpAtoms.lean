import Verif.Proofs.GaussianJoint
import Verif.Props.Accountant
import Verif.Props.EffNoise
import Verif.Props.RdpTree
import Verif.Props.RdpRandomizedResponse
import Verif.Props.RdpLaplace
import Verif.Props.SampledWithoutReplacement

/-!
# The RDP value added by the accountant for one elementary event bounds the divergence of the mechanism
-/

namespace Verif.Props
open Verif Verif.Spec Verif.Rdp MeasureTheory ProbabilityTheory

variable {n : ℕ}

lemma addTo_ok {rdp : Arr n} {c : ℤ} {v : Except Err (Arr n)} (h : (RdpAccountant.addTo rdp c v).2 = .ok none) :
    ∃ a, v = .ok a ∧ (RdpAccountant.addTo rdp c v).1 = fun i => rdp i + ((c : ℝ) : EReal) * a i := by
  cases v with
  | error e => simp [RdpAccountant.addTo] at h
  | ok a => exact ⟨a, rfl, rfl⟩

lemma val_cases (z : PyNum) : z.val = ⊤ ∨ ∃ x : ℝ, z.val = (x : EReal) := by
  cases z with
  | int k => exact Or.inr ⟨k, rfl⟩
  | float x => exact Or.inr ⟨x, rfl⟩
  | inf => exact Or.inl rfl

lemma repeatList_mem {α : Type*} {k : ℤ} {l : List α} {a : α} (h : a ∈ repeatList k l) : a ∈ l := by
  unfold repeatList at h
  obtain ⟨l', h1, h2⟩ := List.mem_flatten.1 h
  rwa [List.eq_of_mem_replicate h1] at h2

mutual
lemma expand_floatGaussians : ∀ (e : DpEvent), FloatGaussians e → ∀ a ∈ expand e, ∃ x : ℝ, a = .gaussian (.float x) ∧ 0 < x
  | .gaussian (.float x), h => by
      intro a ha
      simp only [expand, List.mem_singleton] at ha
      exact ⟨x, ha, h⟩
  | .gaussian (.int _), h => by simp [FloatGaussians] at h
  | .gaussian .inf, h => by simp [FloatGaussians] at h
  | .selfComposed e m, h => by
      rw [FloatGaussians] at h
      intro a ha
      rw [expand] at ha
      exact expand_floatGaussians e h.2 a (repeatList_mem ha)
  | .composed es, h => by
      rw [FloatGaussians] at h
      intro a ha
      rw [expand] at ha
      exact expandList_floatGaussians es h.2 a ha
  | .noOp, h | .nonPrivate, h | .unsupported, h | .randomizedResponse _ _, h | .laplace _, h
  | .poissonSampled _ _, h | .sampledWithReplacement _ _ _, h | .sampledWithoutReplacement _ _ _, h
  | .singleEpochTreeAggregation _ _, h | .repeatAndSelect _ _ _, h | .mixtureOfGaussians _ _ _, h => by
      simp [FloatGaussians] at h
lemma expandList_floatGaussians : ∀ (es : List DpEvent), FloatGaussiansL es → ∀ a ∈ expandList es, ∃ x : ℝ, a = .gaussian (.float x) ∧ 0 < x
  | [], _ => by simp [expandList]
  | e :: es, h => by
      rw [FloatGaussiansL] at h
      intro a ha
      rw [expandList, List.mem_append] at ha
      rcases ha with ha | ha
      · exact expand_floatGaussians e h.1 a ha
      · exact expandList_floatGaussians es h.2 a ha
end

/-- The effective noise multiplier of what a covered sampled event contains. -/
lemma effNoise_covered {e : DpEvent} (h : (∃ z, e = .gaussian z ∧ 0 < z.val ∧ z.val ≠ ⊤) ∨ FloatGaussians e) :
    ∃ (sigma : PyNum) (z : ℝ), effNoise e = .ok (.num sigma) ∧ sigma.val = (z : EReal) ∧ 0 < z ∧ (∀ x ∈ noises e, 0 < x) ∧
      1 / z ^ 2 = ((noises e).map fun x => 1 / x ^ 2).sum := by
  rcases h with ⟨s, rfl, h0, ht⟩ | h
  · rcases val_cases s with hs | ⟨x, hx⟩
    · exact absurd hs ht
    · have hx0 : 0 < x := by rw [hx] at h0; exact_mod_cast h0
      refine ⟨s, x, by simp [effNoise], hx, hx0, ?_, ?_⟩
      · intro y hy
        simp [noises, expand, hx] at hy
        rwa [hy]
      · simp [noises, expand, hx]
  · obtain ⟨z, hz, he, hs⟩ := effNoise_spec e h
    have hmem : ∀ a ∈ expand e, ∃ x : ℝ, a = .gaussian (.float x) ∧ 0 < x := expand_floatGaussians e h
    refine ⟨.float z, z, he, rfl, hz, ?_, ?_⟩
    · intro y hy
      obtain ⟨a, ha, rfl⟩ := List.mem_map.1 hy
      obtain ⟨x, rfl, hx⟩ := hmem a ha
      simpa [PyNum.val] using hx
    · rw [hs, noises, List.map_map]
      congr 1
      refine List.map_congr_left fun a ha => ?_
      obtain ⟨x, rfl, hx⟩ := hmem a ha
      simp [precision, PyNum.val]

lemma renyi_le_of {α : ℝ} (hα : 1 ≤ α) {Ω Ω' : Type*} [MeasurableSpace Ω] [MeasurableSpace Ω'] {P Q : Measure Ω} {P' Q' : Measure Ω'}
    [IsProbabilityMeasure P] [IsProbabilityMeasure Q] {r : EReal} (h : renyiDiv α P Q ≤ r)
    (hr : ∀ x : ℝ, renyiDiv α P Q ≤ (x : EReal) → renyiDiv α P' Q' ≤ (x : EReal)) : renyiDiv α P' Q' ≤ r := by
  induction r with
  | bot => exact absurd (le_trans (RdpConv.renyi_nonneg hα) h) (by simp)
  | top => exact le_top
  | coe x => exact hr x h

lemma gaussMix_zero (v : NNReal) : gaussMix 0 v = gaussianReal 0 v := by simp [gaussMix]
lemma gaussMix_one (v : NNReal) : gaussMix 1 v = gaussianReal 1 v := by simp [gaussMix]

lemma renyi_gaussian_rev {α : ℝ} (hα : 1 ≤ α) {v : NNReal} {r : ℝ} (h : renyiDiv α (gaussianReal 1 v) (gaussianReal 0 v) ≤ (r : EReal)) :
    renyiDiv α (gaussianReal 0 v) (gaussianReal 1 v) ≤ (r : EReal) := by
  have h1 : (gaussianReal 1 v).map (fun x => 1 - x) = gaussianReal 0 v := by
    rw [gaussianReal_map_const_sub]; simp
  have h0 : (gaussianReal 0 v).map (fun x => 1 - x) = gaussianReal 1 v := by
    rw [gaussianReal_map_const_sub]; simp
  have := renyi_map hα (f := fun x : ℝ => 1 - x) (by fun_prop) h
  rwa [h1, h0] at this

/-- The Poisson-sampled Gaussian mechanism, at all real orders. -/
lemma poisson_sound {frac : ℝ → PyNum → ℝ → EReal} {α : ℝ} (hfrac : (∃ m : ℤ, α = m) ∨ FracBound frac) {sigma : PyNum} {z : ℝ}
    (hs : sigma.val = (z : EReal)) (hz : 0 < z) {q : ℝ} (h0 : 0 ≤ q) (h1 : q ≤ 1) (hα : 1 ≤ α) {r : EReal} (hr : poissonOneOrder frac q sigma (α : EReal) = .ok r)
    {Ω : Type} [MeasurableSpace Ω] (P Q : Measure Ω) (h : PoissonGaussianPair q z Ω P Q) : renyiDiv α P Q ≤ r := by
  have hv : Real.toNNReal (z ^ 2) ≠ 0 := by simpa using hz.ne'
  have hz0 : ¬ ((α : EReal) = ⊤ ∨ sigma.val = 0) := by
    rw [hs]; push Not; exact ⟨EReal.coe_ne_top _, by exact_mod_cast hz.ne'⟩
  rcases h0.eq_or_lt with rfl | hq0
  · unfold poissonOneOrder at hr
    rw [if_pos rfl] at hr
    cases hr
    have hself := RdpConv.renyi_self α hα (P := gaussianReal 0 (Real.toNNReal (z ^ 2)))
    exact renyi_poissonGaussian_of le_rfl h1 hα (r₀ := 0) (by rw [gaussMix_zero, hself]; rfl) (by rw [gaussMix_zero, hself]; rfl) P Q h
  rcases h1.eq_or_lt with rfl | hq1
  · rw [C39_gaussian_exact frac sigma z hs hz α hα, Except.ok.injEq] at hr
    refine renyi_le_of hα hr.le fun x hx => ?_
    refine renyi_poissonGaussian_of h0 le_rfl hα (by rwa [gaussMix_one]) ?_ P Q h
    rw [gaussMix_one]
    exact renyi_gaussian_rev hα hx
  rcases hα.eq_or_lt with rfl | hα1
  · unfold poissonOneOrder at hr
    rw [if_neg hq0.ne', if_neg hz0, if_neg hq1.ne, if_pos (by rfl)] at hr
    cases hr
  by_cases hint : ∃ m : ℤ, α = m
  · obtain ⟨m, rfl⟩ := hint
    have hm2 : 2 ≤ m.toNat := by
      have : 1 < m := by exact_mod_cast hα1
      omega
    have hm : ((m.toNat : ℕ) : ℝ) = m := by
      have : ((m.toNat : ℤ)) = m := Int.toNat_of_nonneg (by have : 1 < m := by exact_mod_cast hα1
                                                            omega)
      exact_mod_cast this
    rw [← hm] at hr ⊢
    exact C39_poisson_mechanism frac sigma z hs hz q h0 h1 m.toNat hm2 P Q h r hr
  · have hb := hfrac.resolve_left hint q z α sigma hq0 hq1 hz hs hα1 hint
    have := gaussMix_prob h0 h1 (Real.toNNReal (z ^ 2))
    have hne : ¬ (α : EReal) = 1 := by intro hc; exact hα1.ne' (by exact_mod_cast hc)
    unfold poissonOneOrder at hr
    rw [if_neg hq0.ne', if_neg hz0, if_neg hq1.ne, if_neg hne, EReal.toReal_coe, logA, dif_neg hint, Except.ok.injEq] at hr
    rw [hr] at hb
    refine renyi_le_of (P := gaussMix q (Real.toNNReal (z ^ 2))) hα hb fun x hx => ?_
    exact renyi_poissonGaussian_fwd h0 h1 hz hα1 hx P Q h

lemma PoissonGaussianPair.prob {q z : ℝ} (h0 : 0 ≤ q) (h1 : q ≤ 1) {Ω : Type} [MeasurableSpace Ω] {P Q : Measure Ω}
    (h : PoissonGaussianPair q z Ω P Q) : IsProbabilityMeasure P ∧ IsProbabilityMeasure Q := by
  have key : ∀ {R : Type} [DecidableEq R] {d : ℕ} (σ : ℝ) (f : Finset R → Vec d) (D : Finset R), IsProbabilityMeasure (poissonGaussianMech q σ f D) := by
    intro R _ d σ f D
    constructor
    unfold poissonGaussianMech
    rw [Measure.finsetSum_apply]
    simp only [Measure.smul_apply, measure_univ, smul_eq_mul, mul_one]
    exact poisson_weights h0 h1 D
  cases h <;> exact ⟨key _ _ _, key _ _ _⟩

lemma WorGaussianPair.prob {k m : ℕ} (hm : m ≤ k) {z : ℝ} {Ω : Type} [MeasurableSpace Ω] {P Q : Measure Ω}
    (h : WorGaussianPair k m z Ω P Q) : IsProbabilityMeasure P ∧ IsProbabilityMeasure Q := by
  have key : ∀ {R : Type} {d : ℕ} (σ : ℝ) (f : Multiset R → Vec d) (D : Fin k → R), IsProbabilityMeasure (worGaussianMech m σ f D) := by
    intro R d σ f D
    constructor
    unfold worGaussianMech
    rw [Measure.finsetSum_apply]
    simp only [Measure.smul_apply, measure_univ, smul_eq_mul, mul_one, Finset.sum_const, Finset.card_powersetCard, Finset.card_univ,
      Fintype.card_fin]
    have hc : (0 : ℝ) < k.choose m := by exact_mod_cast Nat.choose_pos hm
    rw [nsmul_eq_mul, ← ENNReal.ofReal_natCast, ← ENNReal.ofReal_mul hc.le, mul_one_div_cancel hc.ne', ENNReal.ofReal_one]
  cases h
  exact ⟨key _ _ _, key _ _ _⟩

lemma poissonGaussian_ok {frac : ℝ → PyNum → ℝ → EReal} {orders : Fin n → EReal} {q : PyNum} {sigma : PyNum} {a : Arr n}
    (h : poissonGaussian frac orders q (.num sigma) = .ok a) (i : Fin n) :
    0 ≤ q.val.toReal ∧ q.val.toReal ≤ 1 ∧ 0 ≤ sigma.val ∧ poissonOneOrder frac q.val.toReal sigma (orders i) = .ok (a i) := by
  unfold poissonGaussian at h
  by_cases h1 : ¬ (0 ≤ q.val ∧ q.val ≤ 1)
  · rw [if_pos h1] at h; cases h
  rw [if_neg h1] at h
  dsimp only at h
  by_cases h2 : sigma.val < 0
  · rw [if_pos h2] at h; cases h
  rw [if_neg h2] at h
  rw [not_not] at h1
  refine ⟨EReal.toReal_nonneg h1.1, ?_, not_lt.1 h2, collect_ok h i⟩
  have := EReal.toReal_le_toReal h1.2 (by intro h; rw [h] at h1; simp at h1) (EReal.coe_ne_top 1)
  simpa using this

lemma tree_norm {orders : Fin n → EReal} {z : PyNum} {x : ℝ} (hx : z.val = (x : EReal)) (h0 : 0 < x) {s : ℤ ⊕ List ℤ} {a : Arr n}
    (h : tree orders z s = .ok a) : tree orders z (.inr ((treeCounts s).map fun c : ℕ => (c : ℤ))) = .ok a := by
  have h1 : ¬ z.val < 0 := by rw [hx, not_lt]; exact_mod_cast h0.le
  have h2 : ¬ z.val = 0 := by rw [hx]; exact_mod_cast h0.ne'
  unfold tree at h ⊢
  rw [if_neg h1, if_neg h2] at h ⊢
  cases s with
  | inl c =>
    simp only [Sum.inl.injEq, reduceCtorEq, or_false] at h
    by_cases hc : c = 0
    · rw [if_pos hc] at h; cases h
    rw [if_neg hc] at h
    by_cases hn : ∃ d ∈ [c], d < 0
    · rw [if_pos hn] at h; cases h
    rw [if_neg hn] at h
    have hc0 : 0 ≤ c := by simpa using hn
    have e : (treeCounts (.inl c)).map (fun c : ℕ => (c : ℤ)) = [c] := by simp [treeCounts, hc0]
    rw [e, if_neg (by simp)]
    dsimp only
    rw [if_neg hn]
    exact h
  | inr l =>
    simp only [Sum.inr.injEq, reduceCtorEq, false_or] at h
    by_cases hc : l = []
    · rw [if_pos hc] at h; cases h
    rw [if_neg hc] at h
    by_cases hn : ∃ d ∈ l, d < 0
    · rw [if_pos hn] at h; cases h
    rw [if_neg hn] at h
    have e : (treeCounts (.inr l)).map (fun c : ℕ => (c : ℤ)) = l := by
      rw [treeCounts, List.map_map]
      conv_rhs => rw [← List.map_id l]
      refine List.map_congr_left fun c hcl => ?_
      have : 0 ≤ c := by
        by_contra hneg
        exact hn ⟨c, hcl, not_le.1 hneg⟩
      simp [this]
    rw [e, if_neg (by simpa using hc)]
    dsimp only
    rw [if_neg hn]
    exact h

lemma value_eq (c : ℝ) (a : EReal) (hc : c = 1) : (0 : EReal) + (c : EReal) * a = a := by
  rw [hc, zero_add, EReal.coe_one, one_mul]

/-- One event other than `RepeatAndSelect`: the value that the accountant adds is an upper bound on the Rényi divergence of every
mechanism that the event describes. -/
theorem atom_sound_base (orders : Fin n → ℝ) (frac : ℝ → PyNum → ℝ → EReal)
    (ras : Arr n → PyNum → PyNum → Except Err (Arr n)) (nr : NeighborRel) (e : DpEvent) (i : Fin n) (hfrac : RenyiTight (orders i) e ∨ FracBound frac) (he : RdpAccountant.Elementary e) (hc : Covered e)
    (hrep : ∀ e' m s, e ≠ .repeatAndSelect e' m s) (hok : RdpAccountant.Ok (fns (fun i => (orders i : EReal)) frac (wor fun i => (orders i : EReal)) ras) nr e)
    (hα : 1 ≤ orders i) {Ω : Type} [MeasurableSpace Ω] (P Q : Measure Ω) [IsProbabilityMeasure P] [IsProbabilityMeasure Q]
    (h : EventPair nr e Ω P Q) :
    renyiDiv (orders i) P Q ≤
      (RdpAccountant.maybeCompose (fns (fun i => (orders i : EReal)) frac (wor fun i => (orders i : EReal)) ras) nr e 1 true RdpAccountant.init).1 i := by
  unfold RdpAccountant.Ok at hok
  unfold RdpAccountant.init
  cases e with
  | noOp => exact absurd he (by simp [RdpAccountant.Elementary])
  | selfComposed => exact absurd he (by simp [RdpAccountant.Elementary])
  | composed => exact absurd he (by simp [RdpAccountant.Elementary])
  | nonPrivate => simp [RdpAccountant.maybeCompose]
  | unsupported => simp [RdpAccountant.maybeCompose] at hok
  | sampledWithReplacement => simp [RdpAccountant.maybeCompose] at hok
  | mixtureOfGaussians => simp [RdpAccountant.maybeCompose] at hok
  | repeatAndSelect e' m s => exact absurd rfl (hrep e' m s)
  | gaussian z =>
    simp only [RdpAccountant.maybeCompose, if_true] at hok ⊢
    obtain ⟨a, ha, hv⟩ := addTo_ok hok
    rw [hv]
    simp only
    rw [value_eq _ _ (by simp)]
    obtain ⟨-, -, hs0, hr⟩ := poissonGaussian_ok (show poissonGaussian frac _ _ _ = _ from ha) i
    rw [show (PyNum.val (.float 1)).toReal = 1 by simp [PyNum.val]] at hr
    simp only [EventPair] at h
    rcases val_cases z with ht | ⟨x, hx⟩
    · rw [if_pos ht] at h
      cases h
      rw [RdpConv.renyi_self _ hα]
      have hne : ¬ (((orders i : ℝ) : EReal) = ⊤ ∨ z.val = 0) := by rw [ht]; simp
      have hz : halfInvSq z = 0 := by
        cases z with
        | int => simp [PyNum.val] at ht
        | float => simp [PyNum.val] at ht
        | inf => rfl
      rw [poissonOneOrder, if_neg one_ne_zero, if_neg hne, if_pos rfl, hz, Except.ok.injEq] at hr
      rw [← hr]; simp
    · rw [if_neg (by rw [hx]; exact EReal.coe_ne_top x), hx, EReal.toReal_coe] at h
      have hx0 : 0 ≤ x := by rw [hx] at hs0; exact_mod_cast hs0
      rcases hx0.eq_or_lt with rfl | hx0
      · rw [poissonOneOrder, if_neg one_ne_zero, if_pos (Or.inr (by rw [hx]; rfl)), Except.ok.injEq] at hr
        rw [← hr]; exact le_top
      · exact C39_gaussian_mechanism frac z x hx hx0 _ hα P Q h _ hr
  | laplace z =>
    simp only [RdpAccountant.maybeCompose, if_true] at hok ⊢
    simp only [EventPair] at h
    cases hrec : RdpAccountant.recip z with
    | error err => rw [hrec] at hok; simp at hok
    | ok eps =>
      rw [hrec] at hok
      simp only at hok ⊢
      obtain ⟨a, ha, hv⟩ := addTo_ok hok
      rw [hv]
      simp only
      rw [value_eq _ _ (by simp)]
      have hr := collect_ok (show collect (fun i => laplaceRdp eps ((orders i : ℝ) : EReal)) = .ok a from ha) i
      rcases val_cases z with ht | ⟨x, hx⟩
      · rw [if_pos ht] at h
        cases h
        rw [RdpConv.renyi_self _ hα]
        have he0 : eps = 0 := by
          cases z with
          | int => simp [PyNum.val] at ht
          | float => simp [PyNum.val] at ht
          | inf => simpa [RdpAccountant.recip] using hrec.symm
        subst he0
        rw [laplaceRdp, laplaceRdp_arg le_rfl hα] at hr
        have hz : ((0 : ℝ) : EReal) = a i := by
          dsimp only at hr
          rw [EReal.toReal_coe] at hr
          by_cases h1 : orders i = 1
          · simpa [h1] using hr
          · by_cases h2 : orders i < 1.1
            · simpa [h1, h2] using hr
            · simpa [h1, h2] using hr
        rw [← hz]; simp
      · rw [if_neg (by rw [hx]; exact EReal.coe_ne_top x), hx, EReal.toReal_coe] at h
        have he : x ≠ 0 ∧ eps = 1 / x := by
          cases z with
          | int k =>
            have : (k : ℝ) = x := by simpa [PyNum.val] using hx
            subst this
            simp only [RdpAccountant.recip] at hrec
            split_ifs at hrec with hk
            cases hrec
            exact ⟨by exact_mod_cast hk, rfl⟩
          | float y =>
            have : y = x := by simpa [PyNum.val] using hx
            subst this
            simp only [RdpAccountant.recip] at hrec
            split_ifs at hrec with hk
            cases hrec
            exact ⟨hk, rfl⟩
          | inf => simp [PyNum.val] at hx
        have hx0 : 0 < x := by
          by_contra hneg
          have : eps < 0 := by rw [he.2]; exact one_div_neg.2 (lt_of_le_of_ne (not_lt.1 hneg) he.1)
          rw [laplaceRdp, if_pos this] at hr
          cases hr
        rw [he.2] at hr
        exact C40_mechanism x hx0 _ P Q h _ hr
  | poissonSampled q e =>
    rw [Covered] at hc
    rw [EventPair] at h
    obtain ⟨sigma, z, hen, hs, hz, hpos, hsum⟩ := effNoise_covered hc
    simp only [RdpAccountant.maybeCompose, hen, if_true] at hok ⊢
    by_cases hnr : nr = .addOrRemoveOne ∨ nr = .replaceSpecial
    · rw [if_pos hnr] at hok ⊢
      obtain ⟨a, ha, hv⟩ := addTo_ok hok
      rw [hv]
      simp only
      rw [value_eq _ _ (by simp)]
      obtain ⟨h0, h1, -, hr⟩ := poissonGaussian_ok (show poissonGaussian frac _ _ _ = _ from ha) i
      obtain ⟨d, P', Q', g, hg, hpair, rfl, rfl⟩ := poissonGaussians_reduce hpos hz hsum P Q h
      obtain ⟨hp, hq⟩ := PoissonGaussianPair.prob h0 h1 hpair
      exact renyi_le_of hα (poisson_sound (hfrac.imp_left fun h => let ⟨m, hm⟩ := h.1; ⟨m, by rw [hm]; rfl⟩) hs hz h0 h1 hα hr P' Q' hpair) fun x hx => renyi_map hα hg hx
    · rw [if_neg hnr] at hok; simp at hok
  | sampledWithoutReplacement k m e =>
    rw [Covered] at hc
    rw [EventPair] at h
    obtain ⟨hk, hcov⟩ := hc
    obtain ⟨sigma, z, hen, hs, hz, hpos, hsum⟩ := effNoise_covered hcov
    simp only [RdpAccountant.maybeCompose, hen, if_true] at hok ⊢
    by_cases hnr : nr = .replaceOne
    · rw [if_pos hnr] at hok ⊢
      rw [RdpAccountant.ratio, if_neg hk.ne'] at hok ⊢
      simp only at hok ⊢
      obtain ⟨a, ha, hv⟩ := addTo_ok hok
      rw [hv]
      simp only
      rw [value_eq _ _ (by simp)]
      have hr := collect_ok (show collect (fun i => worScalar ((m : ℝ) / (k : ℝ)) sigma ((orders i : ℝ) : EReal)) = .ok a from ha) i
      have hkr : (0 : ℝ) < k := by exact_mod_cast hk
      have hq : (m : ℝ) / k ≤ 1 ∧ 0 ≤ (m : ℝ) / k := by
        by_contra hcon
        rw [worScalar, if_pos (fun hh => hcon ⟨hh.1, hh.2.1⟩)] at hr
        cases hr
      have hm0 : 0 ≤ m := by
        have : 0 ≤ (m : ℝ) := by
          by_contra hneg
          exact absurd hq.2 (not_le.2 (div_neg_of_neg_of_pos (not_le.1 hneg) hkr))
        exact_mod_cast this
      have hmk : m ≤ k := by
        have := (div_le_one hkr).1 hq.1
        exact_mod_cast this
      have em : ((m.toNat : ℕ) : ℝ) = m := by exact_mod_cast Int.toNat_of_nonneg hm0
      have ek : ((k.toNat : ℕ) : ℝ) = k := by exact_mod_cast Int.toNat_of_nonneg hk.le
      rw [← em, ← ek] at hr
      have hle : m.toNat ≤ k.toNat := Int.toNat_le_toNat hmk
      obtain ⟨d, P', Q', g, hg, hpair, rfl, rfl⟩ := worGaussians_reduce hpos hz hsum P Q h
      obtain ⟨hp, hq⟩ := WorGaussianPair.prob hle hpair
      exact renyi_le_of hα (C58_wor_mechanism _ _ hle z hz sigma hs _ hα P' Q' hpair _ hr) fun x hx => renyi_map hα hg hx
    · rw [if_neg hnr] at hok; simp at hok
  | singleEpochTreeAggregation z s =>
    simp only [RdpAccountant.maybeCompose, if_true] at hok ⊢
    by_cases hnr : nr = .replaceSpecial
    · rw [if_pos hnr] at hok ⊢
      obtain ⟨a, ha, hv⟩ := addTo_ok hok
      rw [hv]
      simp only
      rw [value_eq _ _ (by simp)]
      have ha' : tree (fun i => ((orders i : ℝ) : EReal)) z s = .ok a := ha
      simp only [EventPair] at h
      rcases val_cases z with ht | ⟨x, hx⟩
      · rw [if_pos ht] at h
        cases h
        rw [RdpConv.renyi_self _ hα]
        have hz : halfInvSq z = 0 := by
          cases z with
          | int => simp [PyNum.val] at ht
          | float => simp [PyNum.val] at ht
          | inf => rfl
        unfold tree at ha'
        rw [if_neg (by rw [ht]; simp), if_neg (by rw [ht]; simp)] at ha'
        split_ifs at ha'
        dsimp only at ha'
        split_ifs at ha'
        rw [Except.ok.injEq] at ha'
        rw [← ha', hz]; simp
      · rw [if_neg (by rw [hx]; exact EReal.coe_ne_top x), hx, EReal.toReal_coe] at h
        rcases lt_trichotomy x 0 with hx0 | rfl | hx0
        · unfold tree at ha'
          rw [if_pos (by rw [hx]; exact_mod_cast hx0)] at ha'; cases ha'
        · unfold tree at ha'
          rw [if_neg (by rw [hx]; simp), if_pos (by rw [hx]; rfl), Except.ok.injEq] at ha'
          rw [← ha']; exact le_top
        · exact C41_mechanism _ z x hx hx0 _ a (tree_norm hx hx0 ha') i _ hα rfl P Q h
    · rw [if_neg hnr] at hok; simp at hok
  | randomizedResponse p k =>
    simp only [RdpAccountant.maybeCompose, if_true] at hok ⊢
    by_cases hnr : nr = .replaceSpecial ∨ nr = .replaceOne
    · rw [if_pos hnr] at hok ⊢
      obtain ⟨a, ha, hv⟩ := addTo_ok hok
      rw [hv]
      simp only
      rw [value_eq _ _ (by simp)]
      have ha' : Rdp.randomizedResponse (fun i => ((orders i : ℝ) : EReal)) p k nr = .ok a := ha
      have hk : 1 ≤ k := by
        by_contra hk
        unfold Rdp.randomizedResponse at ha'
        by_cases h1 : p.val < 0 ∨ p.val > 1
        · rw [if_pos h1] at ha'; cases ha'
        · rw [if_neg h1, if_pos (by omega)] at ha'; cases ha'
      have ek : ((k.toNat : ℕ) : ℤ) = k := Int.toNat_of_nonneg (by omega)
      rw [← ek] at ha'
      simp only [EventPair] at h
      rcases hnr with rfl | rfl
      · rw [if_neg (by simp)] at h
        exact C38_replace_special_mechanism _ p k.toNat a ha' i _ rfl P Q h
      · rw [if_pos rfl] at h
        exact C38_replace_one_mechanism _ p k.toNat a ha' i _ rfl P Q h
    · rw [if_neg hnr] at hok; simp at hok

end Verif.Props
