import Verif.Proofs.RdpSelect
import Verif.Proofs.SmallestNoiseGauss
import Verif.Proofs.Guarantee
import Mathlib.MeasureTheory.Measure.WithDensity

/-! # Mechanisms that attain the Rényi divergences computed by the RDP accountant -/

namespace Verif.Spec
open MeasureTheory ProbabilityTheory
open scoped RealInnerProductSpace ENNReal

/-! ### Independent mechanisms -/

/-- The Rényi divergence of two independent mechanisms is the sum of their divergences. -/
lemma renyi_prod {Ω Ω' : Type*} [MeasurableSpace Ω] [MeasurableSpace Ω'] {α : ℝ} (hα : 1 < α) (P Q : Measure Ω) (P' Q' : Measure Ω')
    [IsProbabilityMeasure P] [IsProbabilityMeasure Q] [IsProbabilityMeasure P'] [IsProbabilityMeasure Q'] :
    renyiDiv α (P.prod P') (Q.prod Q') = renyiDiv α P Q + renyiDiv α P' Q' := by
  by_cases h : P ≪ Q
  · by_cases h' : P' ≪ Q'
    · have hc : (0 : EReal) ≤ ((1 / (α - 1) : ℝ) : EReal) := by
        have : 0 < α - 1 := by linarith
        exact EReal.coe_nonneg.2 (by positivity)
      unfold renyiDiv
      rw [if_neg hα.ne', if_neg hα.ne', if_neg hα.ne', if_pos h, if_pos h', if_pos (h.prod h'),
        ← EReal.left_distrib_of_nonneg_of_ne_top hc (EReal.coe_ne_top _), ← ENNReal.log_mul_add]
      congr 2
      have e : P.prod P' = (Q.prod Q').withDensity fun z => P.rnDeriv Q z.1 * P'.rnDeriv Q' z.2 := by
        rw [← prod_withDensity (Measure.measurable_rnDeriv _ _) (Measure.measurable_rnDeriv _ _), Measure.withDensity_rnDeriv_eq _ _ h,
          Measure.withDensity_rnDeriv_eq _ _ h']
      have m1 : Measurable (P.rnDeriv Q) := Measure.measurable_rnDeriv _ _
      have m2 : Measurable (P'.rnDeriv Q') := Measure.measurable_rnDeriv _ _
      rw [e, renyiMoment_withDensity _ _ (f := fun z : Ω × Ω' => P.rnDeriv Q z.1 * P'.rnDeriv Q' z.2) (by fun_prop)]
      simp_rw [ENNReal.mul_rpow_of_nonneg _ _ (by linarith : (0 : ℝ) ≤ α)]
      rw [lintegral_prod_mul (f := fun x => P.rnDeriv Q x ^ α) (g := fun x => P'.rnDeriv Q' x ^ α) (m1.pow_const α).aemeasurable (m2.pow_const α).aemeasurable]
      rfl
    · have hn : ¬ P.prod P' ≪ Q.prod Q' := by
        intro hp
        have := hp.map measurable_snd
        rw [Measure.map_snd_prod, Measure.map_snd_prod, measure_univ, measure_univ, one_smul, one_smul] at this
        exact h' this
      have h0 := RdpConv.renyi_nonneg (P := P) (Q := Q) hα.le
      have e1 : renyiDiv α P' Q' = ⊤ := by rw [renyiDiv, if_neg hα.ne', if_neg h']
      have e2 : renyiDiv α (P.prod P') (Q.prod Q') = ⊤ := by rw [renyiDiv, if_neg hα.ne', if_neg hn]
      rw [e1, e2, EReal.add_top_of_ne_bot (by rintro hb; rw [hb] at h0; simp at h0)]
  · have hn : ¬ P.prod P' ≪ Q.prod Q' := by
      intro hp
      have := hp.map measurable_fst
      rw [Measure.map_fst_prod, Measure.map_fst_prod, measure_univ, measure_univ, one_smul, one_smul] at this
      exact h this
    have h0 := RdpConv.renyi_nonneg (P := P') (Q := Q') hα.le
    have e1 : renyiDiv α P Q = ⊤ := by rw [renyiDiv, if_neg hα.ne', if_neg h]
    have e2 : renyiDiv α (P.prod P') (Q.prod Q') = ⊤ := by rw [renyiDiv, if_neg hα.ne', if_neg hn]
    rw [e1, e2, EReal.top_add_of_ne_bot (by rintro hb; rw [hb] at h0; simp at h0)]

/-- A mechanism in `C` has divergence at least `r` at order `α`. -/
def Attains (α : ℝ) (C : PairProp) (r : EReal) : Prop :=
  ∃ (Ω : Type) (_ : MeasurableSpace Ω) (P Q : Measure Ω), IsProbabilityMeasure P ∧ IsProbabilityMeasure Q ∧ C Ω P Q ∧ r ≤ renyiDiv α P Q

lemma Attains.list {α : ℝ} (hα : 1 < α) (l : List (PairProp × EReal)) (h : ∀ x ∈ l, Attains α x.1 x.2) :
    Attains α (fun Ω [MeasurableSpace Ω] P Q => Adaptive (l.map Prod.fst) Ω P Q) (l.map Prod.snd).sum := by
  induction l with
  | nil => exact ⟨Unit, inferInstance, Measure.dirac (), Measure.dirac (), inferInstance, inferInstance, .nil _, RdpConv.renyi_nonneg hα.le⟩
  | cons x l ih =>
    obtain ⟨Ω', _, P', Q', _, _, hA, h1⟩ := ih fun y hy => h y (by simp [hy])
    obtain ⟨Ω, _, P, Q, _, _, hC, h2⟩ := h x (by simp)
    refine ⟨Ω × Ω', inferInstance, P.prod P', Q.prod Q', inferInstance, inferInstance, ?_, ?_⟩
    · rw [← Measure.compProd_const, ← Measure.compProd_const]
      exact .cons P Q (Kernel.const _ P') (Kernel.const _ Q') hC fun _ => by simpa using hA
    · rw [renyi_prod hα, List.map_cons, List.sum_cons]
      exact add_le_add h2 h1

/-- Data processing: what can be computed from the outputs has at most the divergence of the outputs. -/
lemma renyi_map_le {α : ℝ} (hα : 1 ≤ α) {Ω Ω' : Type} [MeasurableSpace Ω] [MeasurableSpace Ω'] {P Q : Measure Ω} [IsProbabilityMeasure P]
    [IsProbabilityMeasure Q] {f : Ω → Ω'} (hf : Measurable f) : renyiDiv α (P.map f) (Q.map f) ≤ renyiDiv α P Q :=
  Props.renyi_le_of hα le_rfl fun _ hx => renyi_map hα hf hx

/-! ### Gaussian and Laplace noise -/

lemma gaussianVec_zero {d : ℕ} (a : Vec d) : gaussianVec a 0 = Measure.dirac a := by
  unfold gaussianVec
  simp

lemma dirac_infinite {α : ℝ} (hα : 1 < α) {Ω : Type} [MeasurableSpace Ω] [MeasurableSingletonClass Ω] {a b : Ω} (h : a ≠ b) :
    renyiDiv α (Measure.dirac a) (Measure.dirac b) = ⊤ := by
  unfold renyiDiv
  rw [if_neg hα.ne', if_neg]
  intro hac
  have := @hac {a} (by simp [h.symm])
  simp at this

lemma gaussian_attains {α : ℝ} (hα : 1 < α) {z : ℝ} (hz : 0 < z) :
    Attains α (GaussianPair z) (renyiDiv α (gaussianReal 1 (Real.toNNReal (z ^ 2))) (gaussianReal 0 (Real.toNNReal (z ^ 2)))) := by
  refine ⟨_, _, _, _, ?_, ?_, GaussianPair.mk (z := z) (d := 1) ((1 : ℝ) • (EuclideanSpace.single 0 1 : Vec 1))
    ((0 : ℝ) • (EuclideanSpace.single 0 1 : Vec 1)) 1 one_pos (by simp), ?_⟩
  · infer_instance
  · infer_instance
  · rw [mul_one, ← gaussianVec_proj hz 1, ← gaussianVec_proj hz 0]
    exact renyi_map_le hα.le (by fun_prop)

lemma gaussian_attains_zero {α : ℝ} (hα : 1 < α) : Attains α (GaussianPair 0) ⊤ := by
  refine ⟨_, _, _, _, ?_, ?_, GaussianPair.mk (z := 0) (d := 1) (EuclideanSpace.single 0 1 : Vec 1) 0 1 one_pos (by simp), ?_⟩
  · infer_instance
  · infer_instance
  · rw [zero_mul, gaussianVec_zero, gaussianVec_zero, dirac_infinite hα]
    intro h
    have := congrArg norm h
    simp at this

lemma laplace_attains {α : ℝ} (hα : 1 < α) {z : ℝ} (hz : 0 < z) : Attains α (LaplacePair z) (renyiDiv α (laplace 1 z) (laplace 0 z)) := by
  have p := fun t => laplace_prob t hz
  have e : ∀ t : ℝ, (laplaceVec (fun _ : Fin 1 => t) z).map (fun x => x 0) = laplace t z := fun t =>
    (measurePreserving_eval (fun _ : Fin 1 => laplace t z) 0).map_eq
  have q : ∀ t : ℝ, IsProbabilityMeasure (laplaceVec (fun _ : Fin 1 => t) z) := fun t => by unfold laplaceVec; infer_instance
  refine ⟨_, _, _, _, ?_, ?_, LaplacePair.mk (z := z) (d := 1) (fun _ => 1) (fun _ => 0) 1 one_pos (by simp), ?_⟩
  · rw [mul_one]; exact q 1
  · rw [mul_one]; exact q 0
  · have := q 1
    have := q 0
    rw [mul_one, ← e 1, ← e 0]
    exact renyi_map_le hα.le (measurable_pi_apply 0)

/-! ### Several Gaussian queries on a Poisson sample -/

/-- Equal queries with different noise, averaged, are one query with the effective noise. -/
lemma gaussians_proj {zs : List ℝ} (hzs : ∀ z ∈ zs, 0 < z) {z : ℝ} (hz : 0 < z) (hsum : 1 / z ^ 2 = (zs.map fun x => 1 / x ^ 2).sum) (t : ℝ) :
    (gaussians (fun _ : Fin zs.length => t • (EuclideanSpace.single 0 1 : Vec 1)) fun k => zs[k]).map
      (fun y => z ^ 2 * ∑ k, y k 0 / zs[k] ^ 2) = gaussianReal t (Real.toNNReal (z ^ 2)) := by
  set w : Vec (zs.length * 1) := stack (fun _ : Fin zs.length => (EuclideanSpace.single 0 1 : Vec 1)) fun k => zs[k] with hw
  have hm : Measurable fun y : Fin zs.length → Vec 1 => z ^ 2 * ∑ k, y k 0 / zs[k] ^ 2 := by fun_prop
  have e : (zs.map fun x => 1 / x ^ 2).sum = ∑ k : Fin zs.length, 1 / zs[k] ^ 2 := by
    rw [← List.sum_ofFn]
    congr 1
    refine List.ext_getElem (by simp) fun n h1 h2 => by simp
  have hn : ‖w‖ ^ 2 = 1 / z ^ 2 := by
    have := norm_stack_sub (fun _ : Fin zs.length => (EuclideanSpace.single 0 1 : Vec 1)) (fun _ => 0) fun k => zs[k]
    have h0 : stack (fun _ : Fin zs.length => (0 : Vec 1)) (fun k => zs[k]) = 0 := by
      ext j; simp [stack]
    rw [h0, sub_zero] at this
    rw [hw, this, hsum, e]
    simp
  have hw0 : w ≠ 0 := by
    intro h
    rw [h, norm_zero] at hn
    have : 0 < 1 / z ^ 2 := by positivity
    nlinarith
  have hst : stack (fun _ : Fin zs.length => t • (EuclideanSpace.single 0 1 : Vec 1)) (fun k => zs[k]) = 0 + t • w := by
    ext j
    simp only [hw, stack, PiLp.add_apply, PiLp.zero_apply, PiLp.smul_apply, smul_eq_mul, zero_add, mul_div_assoc]
  rw [gaussians_eq _ (fun k : Fin zs.length => zs[k]) fun k => hzs _ (List.getElem_mem _), hst, (Wor.gaussianVec_dir 0 w hw0 one_pos t).1, Measure.map_map (measurable_blocks _) (measurable_spread _ _ _ _),
    Measure.map_map hm ((measurable_blocks _).comp (measurable_spread _ _ _ _))]
  have : ((fun y : Fin zs.length → Vec 1 => z ^ 2 * ∑ k, y k 0 / zs[k] ^ 2) ∘ blocks (fun k => zs[k]) ∘ spread 0 w (1 / ‖w‖) ‖w‖) = Prod.fst := by
    funext p
    have h2 := (Wor.gaussianVec_dir 0 w hw0 one_pos t).2 p
    rw [inner_zero_right, zero_add, hn] at h2
    simp only [Function.comp]
    generalize spread 0 w (1 / ‖w‖) ‖w‖ p = x at h2 ⊢
    have h3 : ⟪w, x⟫ = ∑ k, x (finProdFinEquiv (k, 0)) / zs[k] := by
      rw [PiLp.inner_apply, ← finProdFinEquiv.sum_comp, Fintype.sum_prod_type]
      refine Finset.sum_congr rfl fun k _ => ?_
      rw [Fin.sum_univ_one, hw, stack_apply]
      simp [div_eq_mul_inv]
    have h4 : ∑ k, (blocks (fun k : Fin zs.length => zs[k]) x k) 0 / zs[k] ^ 2 = ⟪w, x⟫ := by
      rw [h3]
      refine Finset.sum_congr rfl fun k _ => ?_
      have := (hzs zs[k] (List.getElem_mem _)).ne'
      show zs[k] * x (finProdFinEquiv (k, 0)) / zs[k] ^ 2 = _
      field_simp
    rw [h4, h2]
    field_simp
  rw [this, Measure.map_fst_prod, measure_univ, one_smul, hn]
  simp

lemma poisson_attains {α : ℝ} (hα : 1 < α) {zs : List ℝ} (hzs : ∀ z ∈ zs, 0 < z) {z : ℝ} (hz : 0 < z)
    (hsum : 1 / z ^ 2 = (zs.map fun x => 1 / x ^ 2).sum) {q : ℝ} (q0 : 0 ≤ q) (q1 : q ≤ 1) :
    Attains α (PoissonGaussiansPair q zs) (renyiDiv α (ENNReal.ofReal (1 - q) • gaussianReal 0 (Real.toNNReal (z ^ 2)) +
      ENNReal.ofReal q • gaussianReal 1 (Real.toNNReal (z ^ 2))) (gaussianReal 0 (Real.toNNReal (z ^ 2)))) := by
  set f : Fin zs.length → Finset Unit → Vec 1 := fun _ s => (if () ∈ s then (1 : ℝ) else 0) • EuclideanSpace.single 0 1 with hf
  have hm : Measurable fun y : Fin zs.length → Vec 1 => z ^ 2 * ∑ k, y k 0 / zs[k] ^ 2 := by fun_prop
  have hσ : (fun k : Fin zs.length => zs[k] * (1 : ℝ)) = fun k => zs[k] := by funext k; rw [mul_one]
  have hp : ∀ t : ℝ, IsProbabilityMeasure (gaussians (fun _ : Fin zs.length => t • (EuclideanSpace.single 0 1 : Vec 1)) fun k => zs[k]) := fun t => by
    unfold gaussians; infer_instance
  have e0 : poissonGaussiansMech q (fun k : Fin zs.length => zs[k] * (1 : ℝ)) f ∅ =
      gaussians (fun _ : Fin zs.length => (0 : ℝ) • (EuclideanSpace.single 0 1 : Vec 1)) fun k => zs[k] := by
    rw [hσ]
    simp [poissonGaussiansMech, hf]
  have e1 : poissonGaussiansMech q (fun k : Fin zs.length => zs[k] * (1 : ℝ)) f (insert () ∅) =
      ENNReal.ofReal (1 - q) • gaussians (fun _ : Fin zs.length => (0 : ℝ) • (EuclideanSpace.single 0 1 : Vec 1)) (fun k => zs[k]) +
      ENNReal.ofReal q • gaussians (fun _ : Fin zs.length => (1 : ℝ) • (EuclideanSpace.single 0 1 : Vec 1)) fun k => zs[k] := by
    rw [hσ]
    have := poissonMech_single q fun s => gaussians (fun k => f k s) fun k : Fin zs.length => zs[k]
    simpa [poissonGaussiansMech, hf, poissonMech] using this
  have p1 : IsProbabilityMeasure (poissonGaussiansMech q (fun k : Fin zs.length => zs[k] * (1 : ℝ)) f (insert () ∅)) := by
    rw [e1]
    constructor
    rw [Measure.add_apply, Measure.smul_apply, Measure.smul_apply, measure_univ, measure_univ, smul_eq_mul, smul_eq_mul, mul_one, mul_one,
      ← ENNReal.ofReal_add (by linarith) q0]
    simp
  refine ⟨_, _, _, _, ?_, ?_, PoissonGaussiansPair.remove (q := q) (zs := zs) f (fun _ => 1) (fun _ => one_pos) ?_ ∅ () (by simp), ?_⟩
  · exact p1
  · rw [e0]; exact hp 0
  · intro k s r
    by_cases hs : () ∈ s
    · simp [hf, hs]
    · simp [hf, hs]
  · rw [e1] at p1 ⊢
    have := hp 0
    rw [e0, ← gaussians_proj hzs hz hsum 0, ← gaussians_proj hzs hz hsum 1, ← mix_map _ _ _ hm]
    exact renyi_map_le hα.le hm

/-! ### Tree aggregation -/

lemma foldr_max_mem {l : List ℕ} (h : 0 < l.foldr max 0) : l.foldr max 0 ∈ l := by
  induction l with
  | nil => simp at h
  | cons a l ih =>
    simp only [List.foldr_cons] at h ⊢
    rcases le_total (l.foldr max 0) a with hle | hle
    · rw [max_eq_left hle]; simp
    · rw [max_eq_right hle] at h ⊢
      exact List.mem_cons_of_mem _ (ih h)

/-- A record used in the first step of the largest tree is below a node of each level. -/
lemma tree_attains {α : ℝ} (hα : 1 < α) {z : ℝ} {g : EReal} (hg : Attains α (GaussianPair z) g) (counts : List ℕ) :
    Attains α (TreePair z counts) (List.replicate (Nat.clog 2 (counts.foldr max 0 + 1)) g).sum := by
  set N := counts.foldr max 0 with hN
  obtain ⟨T, hT⟩ : ∃ T, 0 < N → counts[T]? = some N := by
    by_cases h : 0 < N
    · obtain ⟨T, hT⟩ := List.mem_iff_getElem?.1 (foldr_max_mem h)
      exact ⟨T, fun _ => hT⟩
    · exact ⟨0, fun h' => absurd h' h⟩
  set l : List (ℕ × ℕ × ℕ) := (List.range (Nat.clog 2 (N + 1))).map fun j => (T, j, 0) with hl
  have hnode : ∀ v ∈ l, v.1 = T ∧ v.2.2 = 0 ∧ 2 ^ v.2.1 ≤ N := by
    intro v hv
    obtain ⟨j, hj, rfl⟩ := List.mem_map.1 hv
    have := Nat.pow_lt_of_lt_clog (List.mem_range.1 hj)
    exact ⟨rfl, rfl, by simp only; omega⟩
  have hb : ∀ v ∈ l, v.1 = T ∧ Below 0 v.2 := by
    intro v hv
    obtain ⟨h1, h2, -⟩ := hnode v hv
    refine ⟨h1, ?_⟩
    rw [show v.2 = (v.2.1, v.2.2) from rfl, below_iff, h2]; simp
  obtain ⟨Ω, _, P, Q, h1, h2, h3, h4⟩ := Attains.list hα (l.map fun v => ((if v.1 = T ∧ Below 0 v.2 then GaussianPair z else SamePair : PairProp), g)) (by
    intro x hx
    obtain ⟨v, hv, rfl⟩ := List.mem_map.1 hx
    simp only [if_pos (hb v hv)]
    exact hg)
  refine ⟨Ω, _, P, Q, h1, h2, TreePair.mk l ?_ ?_ T 0 P Q ?_, ?_⟩
  · exact List.nodup_range.map fun a b h => by simpa using h
  · intro v hv
    obtain ⟨e1, e2, e3⟩ := hnode v hv
    refine ⟨N, by rw [e1]; exact hT (lt_of_lt_of_le (by positivity) e3), ?_⟩
    unfold IsTreeNode
    rw [e2]; omega
  · rw [List.map_map] at h3
    exact h3
  · rw [List.map_map, show (Prod.snd ∘ fun v : ℕ × ℕ × ℕ => ((if v.1 = T ∧ Below 0 v.2 then GaussianPair z else SamePair : PairProp), g)) = fun _ => g from rfl,
      List.map_const', hl, List.length_map, List.length_range] at h4
    exact h4

end Verif.Spec

namespace Verif.Props
open Verif Verif.Spec Verif.Rdp MeasureTheory ProbabilityTheory

lemma halfInvSq_inf {z : PyNum} (h : z.val = ⊤) : halfInvSq z = 0 := by
  cases z with
  | int => simp [PyNum.val] at h
  | float => simp [PyNum.val] at h
  | inf => rfl

lemma same_attains {α : ℝ} {r : EReal} (hα : 1 < α) (h : r = 0) : Attains α SamePair r :=
  ⟨Unit, inferInstance, Measure.dirac (), Measure.dirac (), inferInstance, inferInstance, .mk _, by rw [h]; exact RdpConv.renyi_nonneg hα.le⟩

variable {n : ℕ}

/-- One event: some mechanism that the event describes has at least the divergence that the accountant adds. -/
theorem atom_attains (orders : Fin n → ℝ) (frac : ℝ → PyNum → ℝ → EReal) (ras : Arr n → PyNum → PyNum → Except Err (Arr n)) (nr : NeighborRel)
    (e : DpEvent) (he : RdpAccountant.Elementary e) (i : Fin n) (hα : 1 < orders i) (ht : RenyiTight (orders i) e)
    (hok : RdpAccountant.Ok (fns (fun i => (orders i : EReal)) frac (wor fun i => (orders i : EReal)) ras) nr e) :
    Attains (orders i) (EventPair nr e)
      ((RdpAccountant.maybeCompose (fns (fun i => (orders i : EReal)) frac (wor fun i => (orders i : EReal)) ras) nr e 1 true RdpAccountant.init).1 i) := by
  unfold RdpAccountant.Ok at hok
  unfold RdpAccountant.init
  cases e with
  | noOp => exact absurd he (by simp [RdpAccountant.Elementary])
  | selfComposed => exact absurd he (by simp [RdpAccountant.Elementary])
  | composed => exact absurd he (by simp [RdpAccountant.Elementary])
  | nonPrivate =>
    refine ⟨Bool, inferInstance, Measure.dirac true, Measure.dirac false, inferInstance, inferInstance, by simp only [EventPair]; trivial, ?_⟩
    rw [dirac_infinite hα (by simp)]
    exact le_top
  | unsupported => simp [RdpAccountant.maybeCompose] at hok
  | sampledWithReplacement => simp [RdpAccountant.maybeCompose] at hok
  | mixtureOfGaussians => simp [RdpAccountant.maybeCompose] at hok
  | repeatAndSelect => exact absurd ht (by simp [RenyiTight])
  | sampledWithoutReplacement => exact absurd ht (by simp [RenyiTight])
  | gaussian z =>
    simp only [RdpAccountant.maybeCompose, if_true] at hok ⊢
    obtain ⟨a, ha, hv⟩ := addTo_ok hok
    rw [hv]
    simp only
    rw [value_eq _ _ (by simp)]
    obtain ⟨-, -, hs0, hr⟩ := poissonGaussian_ok (show poissonGaussian frac _ _ _ = _ from ha) i
    rw [show (PyNum.val (.float 1)).toReal = 1 by simp [PyNum.val]] at hr
    simp only [EventPair]
    rcases val_cases z with ht | ⟨x, hx⟩
    · rw [if_pos ht]
      have hne : ¬ (((orders i : ℝ) : EReal) = ⊤ ∨ z.val = 0) := by rw [ht]; simp
      rw [poissonOneOrder, if_neg one_ne_zero, if_neg hne, if_pos rfl, halfInvSq_inf ht, Except.ok.injEq] at hr
      exact same_attains hα (by rw [← hr]; simp)
    · rw [if_neg (by rw [hx]; exact EReal.coe_ne_top x), hx, EReal.toReal_coe]
      have hx0 : 0 ≤ x := by rw [hx] at hs0; exact_mod_cast hs0
      rcases hx0.eq_or_lt with rfl | hx0
      · rw [poissonOneOrder, if_neg one_ne_zero, if_pos (Or.inr (by rw [hx]; rfl)), Except.ok.injEq] at hr
        rw [← hr]; exact gaussian_attains_zero hα
      · rw [C39_gaussian_exact frac z x hx hx0 _ hα.le, Except.ok.injEq] at hr
        rw [← hr]; exact gaussian_attains hα hx0
  | laplace z =>
    simp only [RdpAccountant.maybeCompose, if_true] at hok ⊢
    simp only [EventPair]
    simp only [RenyiTight] at ht
    cases hrec : RdpAccountant.recip z with
    | error err => rw [hrec] at hok; simp at hok
    | ok eps =>
      rw [hrec] at hok
      simp only at hok ⊢
      obtain ⟨a, ha, hv⟩ := addTo_ok hok
      rw [hv]
      simp only
      rw [value_eq _ _ (by simp)]
      have hr := collect_ok (show collect (fun i => laplaceRdp eps ((orders i : ℝ) : EReal)) = .ok a from ha) i
      rcases val_cases z with hz | ⟨x, hx⟩
      · rw [if_pos hz]
        have he0 : eps = 0 := by
          cases z with
          | int => simp [PyNum.val] at hz
          | float => simp [PyNum.val] at hz
          | inf => simpa [RdpAccountant.recip] using hrec.symm
        subst he0
        have h0 := C40_exact 0 1 one_pos le_rfl (orders i) (.inr ht)
        have := Verif.Spec.laplace_prob 0 one_pos
        rw [zero_div, hr, Except.ok.injEq, RdpConv.renyi_self _ hα.le] at h0
        exact same_attains hα h0
      · rw [if_neg (by rw [hx]; exact EReal.coe_ne_top x), hx, EReal.toReal_coe]
        have he : x ≠ 0 ∧ eps = 1 / x := by
          cases z with
          | int k =>
            have : (k : ℝ) = x := by simpa [PyNum.val] using hx
            subst this
            simp only [RdpAccountant.recip] at hrec
            split_ifs at hrec with hk
            cases hrec
            exact ⟨by exact_mod_cast hk, rfl⟩
          | float y =>
            have : y = x := by simpa [PyNum.val] using hx
            subst this
            simp only [RdpAccountant.recip] at hrec
            split_ifs at hrec with hk
            cases hrec
            exact ⟨hk, rfl⟩
          | inf => simp [PyNum.val] at hx
        have hx0 : 0 < x := by
          by_contra hneg
          have : eps < 0 := by rw [he.2]; exact one_div_neg.2 (lt_of_le_of_ne (not_lt.1 hneg) he.1)
          rw [laplaceRdp, if_pos this] at hr
          cases hr
        rw [he.2, C40_exact 1 x hx0 zero_le_one _ (.inr ht), Except.ok.injEq] at hr
        rw [← hr]
        exact laplace_attains hα hx0
  | poissonSampled q e =>
    obtain ⟨⟨m, hm⟩, hc⟩ := ht
    rw [EventPair]
    obtain ⟨sigma, z, hen, hs, hz, hpos, hsum⟩ := effNoise_covered hc
    simp only [RdpAccountant.maybeCompose, hen, if_true] at hok ⊢
    by_cases hnr : nr = .addOrRemoveOne ∨ nr = .replaceSpecial
    · rw [if_pos hnr] at hok ⊢
      obtain ⟨a, ha, hv⟩ := addTo_ok hok
      rw [hv]
      simp only
      rw [value_eq _ _ (by simp)]
      obtain ⟨h0, h1, -, hr⟩ := poissonGaussian_ok (show poissonGaussian frac _ _ _ = _ from ha) i
      have hm2 : 2 ≤ m := by
        rw [hm] at hα
        exact_mod_cast hα
      rw [hm, C39_poisson_exact frac sigma z hs hz _ h0 h1 m hm2, Except.ok.injEq] at hr
      rw [← hr, hm]
      exact poisson_attains (by rw [← hm]; exact hα) hpos hz hsum h0 h1
    · rw [if_neg hnr] at hok; simp at hok
  | singleEpochTreeAggregation z s =>
    simp only [RenyiTight] at ht
    simp only [RdpAccountant.maybeCompose, if_true] at hok ⊢
    by_cases hnr : nr = .replaceSpecial
    · rw [if_pos hnr] at hok ⊢
      obtain ⟨a, ha, hv⟩ := addTo_ok hok
      rw [hv]
      simp only
      rw [value_eq _ _ (by simp)]
      have ha' : tree (fun i => ((orders i : ℝ) : EReal)) z s = .ok a := ha
      simp only [EventPair]
      rcases val_cases z with hz | ⟨x, hx⟩
      · rw [if_pos hz]
        unfold tree at ha'
        rw [if_neg (by rw [hz]; simp), if_neg (by rw [hz]; simp)] at ha'
        split_ifs at ha'
        dsimp only at ha'
        split_ifs at ha'
        rw [Except.ok.injEq] at ha'
        exact same_attains hα (by rw [← ha', halfInvSq_inf hz]; simp)
      · rw [if_neg (by rw [hx]; exact EReal.coe_ne_top x), hx, EReal.toReal_coe]
        rcases lt_trichotomy x 0 with hx0 | rfl | hx0
        · unfold tree at ha'
          rw [if_pos (by rw [hx]; exact_mod_cast hx0)] at ha'; cases ha'
        · rcases ht with ht | ⟨c, hc, hc0⟩
          · exact absurd (by rw [hx]; rfl) ht
          obtain ⟨Ω, _, P, Q, h1, h2, h3, h4⟩ := tree_attains hα (gaussian_attains_zero hα) (treeCounts s)
          refine ⟨Ω, _, P, Q, h1, h2, h3, le_top.trans ?_⟩
          refine le_trans (le_of_eq ?_) h4
          have hN : c ≤ (treeCounts s).foldr max 0 := le_foldr_max hc
          obtain ⟨k, hk⟩ : ∃ k, Nat.clog 2 ((treeCounts s).foldr max 0 + 1) = k + 1 :=
            Nat.exists_eq_succ_of_ne_zero (Nat.clog_pos (by norm_num) (by omega)).ne'
          rw [hk, List.replicate_succ, List.sum_cons]
          have : (0 : EReal) ≤ (List.replicate k (⊤ : EReal)).sum := List.sum_nonneg fun y hy => by rw [List.eq_of_mem_replicate hy]; exact le_top
          rw [EReal.top_add_of_ne_bot (by rintro hb; rw [hb] at this; simp at this)]
        · have hn := tree_norm hx hx0 ha'
          have key := tree_attains hα (gaussian_attains hα hx0) (treeCounts s)
          have hv : Real.toNNReal (x ^ 2) ≠ 0 := by simpa using hx0.ne'
          rw [renyi_gaussian' hα.le 1 hv, Real.coe_toNNReal _ (sq_nonneg x)] at key
          have e1 : a i = ((orders i * (Nat.clog 2 ((treeCounts s).foldr max 0 + 1)) * (1 / (2 * x ^ 2)) : ℝ) : EReal) := by
            unfold tree at hn
            have h1 : ¬ z.val < 0 := by rw [hx, not_lt]; exact_mod_cast hx0.le
            have h2 : ¬ z.val = 0 := by rw [hx]; exact_mod_cast hx0.ne'
            rw [if_neg h1, if_neg h2] at hn
            by_cases h3 : (Sum.inr ((treeCounts s).map fun c : ℕ => (c : ℤ)) : ℤ ⊕ List ℤ) = .inl 0 ∨
                (Sum.inr ((treeCounts s).map fun c : ℕ => (c : ℤ)) : ℤ ⊕ List ℤ) = .inr []
            · rw [if_pos h3] at hn; simp at hn
            rw [if_neg h3] at hn
            dsimp only at hn
            split_ifs at hn with h4
            simp only [Except.ok.injEq] at hn
            rw [← hn]
            dsimp only
            rw [foldr_max_cast, depth_eq, halfInvSq_eq hx, ← EReal.coe_mul, ← EReal.coe_mul, Real.coe_toNNReal _ (sq_nonneg x), Int.cast_natCast]
          rw [e1]
          refine (congrArg (Attains _ _) ?_).mp key
          rw [List.sum_replicate, ← EReal.coe_nsmul, nsmul_eq_mul]
          congr 1
          ring
    · rw [if_neg hnr] at hok; simp at hok
  | randomizedResponse p k =>
    simp only [RdpAccountant.maybeCompose, if_true] at hok ⊢
    by_cases hnr : nr = .replaceSpecial ∨ nr = .replaceOne
    · rw [if_pos hnr] at hok ⊢
      obtain ⟨a, ha, hv⟩ := addTo_ok hok
      rw [hv]
      simp only
      rw [value_eq _ _ (by simp)]
      have ha' : Rdp.randomizedResponse (fun i => ((orders i : ℝ) : EReal)) p k nr = .ok a := ha
      have hk : 1 ≤ k := by
        by_contra hk
        unfold Rdp.randomizedResponse at ha'
        by_cases h1 : p.val < 0 ∨ p.val > 1
        · rw [if_pos h1] at ha'; cases ha'
        · rw [if_neg h1, if_pos (by omega)] at ha'; cases ha'
      have ek : ((k.toNat : ℕ) : ℤ) = k := Int.toNat_of_nonneg (by omega)
      rw [← ek] at ha'
      simp only [EventPair]
      obtain ⟨h0, h1, h2⟩ := rr_ok ha'
      have h3 := h2 i
      have hk0 : 0 < k.toNat := by omega
      have hu := uniform_prob (k := k.toNat) hk0
      have hp := fun x => rr_prob (k := k.toNat) h0 h1 x
      rcases hnr with rfl | rfl
      · rw [if_neg (by simp), C38_replace_special_exact _ h0 h1 k.toNat ⟨0, hk0⟩ _ hα, Except.ok.injEq] at h3
        rw [if_neg (by simp), ← h3]
        rcases le_total (renyiDiv (orders i) (rrMech k.toNat p.val.toReal ⟨0, hk0⟩) (uniformResponse k.toNat))
          (renyiDiv (orders i) (uniformResponse k.toNat) (rrMech k.toNat p.val.toReal ⟨0, hk0⟩)) with hle | hle
        · rw [max_eq_right hle]
          exact ⟨_, _, _, _, hu, hp _, .ofSpecial _, le_rfl⟩
        · rw [max_eq_left hle]
          exact ⟨_, _, _, _, hp _, hu, .toSpecial _, le_rfl⟩
      · rw [if_pos rfl] at h3 ⊢
        by_cases hk1 : k.toNat = 1
        · refine ⟨_, _, _, _, hp _, hp _, .mk ⟨0, hk0⟩ ⟨0, hk0⟩, ?_⟩
          have : a i = 0 := by
            unfold rrReplaceOne at h3
            rw [if_neg (by rw [not_le]; exact_mod_cast hα), if_pos (.inl (by omega)), Except.ok.injEq] at h3
            exact h3.symm
          rw [this]
          have := hp ⟨0, hk0⟩
          exact RdpConv.renyi_nonneg hα.le
        · have hne : (⟨0, hk0⟩ : Fin k.toNat) ≠ ⟨1, by omega⟩ := by simp
          rw [C38_replace_one_exact _ h0 h1 k.toNat _ _ hne _ hα, Except.ok.injEq] at h3
          rw [← h3]
          exact ⟨_, _, _, _, hp _, hp _, .mk _ _, le_rfl⟩
    · rw [if_neg hnr] at hok; simp at hok

end Verif.Props
