import Verif.Proofs.Noticeable
import Verif.Props.RdpMonotone
import Verif.Props.RdpParam

/-!
# C79: composing more never reports less, with the series of the library and no allowance

`Noticeable e` (`Verif/Spec/Noticeable.lean`): wherever `e` takes a Poisson sample, it is for Gaussian queries, and the sampling probability is at
least `2e-5` and at least `2e-5` times the (joint) noise multiplier. `rdpAfter`, `Quiet` as in `Verif/Props/RdpMonotone.lean`.
-/

namespace Verif.Props
open Verif Verif.Spec Verif.Rdp Verif.RdpConv Verif.Frac MeasureTheory ProbabilityTheory

/-- The series, with negative values replaced by zero. -/
noncomputable def logAFracPos (q : ℝ) (sigma : PyNum) (alpha : ℝ) : EReal := max 0 (logAFrac q sigma alpha)

/-- **C79, the series.** For a sample that is not negligible the library's value at a fractional order between 1.1 and 11 is not negative. -/
theorem C79_series_nonneg (q z α : ℝ) (sigma : PyNum) (h0 : 0 < q) (h1 : q < 1) (hz : 0 < z) (hs : sigma.val = (z : EReal)) (hq : 2e-5 ≤ q)
    (hqz : 2e-5 * z ≤ q) (ha : 1.1 ≤ α) (hb : α ≤ 11) (hi : ¬ ∃ m : ℤ, α = m) : 0 ≤ logAFrac q sigma α := by
  refine series_nonneg h0 h1 hz hs ?_ ha hb hi
  rcases le_total z 1 with h | h
  · rw [max_eq_right h, mul_one]; exact hq
  · rw [max_eq_left h]; exact hqz

/-- Orders that are integers or between 1.1 and 11, like all orders used by default. -/
def UsualOrders {n : ℕ} (orders : Fin n → ℝ) : Prop := ∀ i, (∃ m : ℤ, orders i = m) ∨ (1.1 ≤ orders i ∧ orders i ≤ 11)

variable {n : ℕ} {orders : Fin n → ℝ}

lemma poisson_agree (ho : UsualOrders orders) {q sigma : PyNum} {z : ℝ} (hz : 0 < z) (hs : sigma.val = (z : EReal)) (hq : 2e-5 ≤ q.val.toReal)
    (hqz : 2e-5 * z ≤ q.val.toReal) :
    poissonGaussian logAFrac (fun i => (orders i : EReal)) q (.num sigma) = poissonGaussian logAFracPos (fun i => (orders i : EReal)) q (.num sigma) := by
  unfold poissonGaussian
  by_cases hv : 0 ≤ q.val ∧ q.val ≤ 1
  swap
  · rw [if_pos hv, if_pos hv]
  rw [if_neg (not_not.2 hv), if_neg (not_not.2 hv)]
  simp only
  congr 2
  funext i
  have h1 : q.val.toReal ≤ 1 := by
    have := EReal.toReal_le_toReal hv.2 (by intro h; rw [h] at hv; exact absurd hv.1 (by simp)) (by exact_mod_cast EReal.coe_ne_top 1)
    simpa using this
  unfold poissonOneOrder
  split_ifs with c1 c2 c3 c4
  · rfl
  · rfl
  · rfl
  · rfl
  · congr 2
    rw [EReal.toReal_coe]
    unfold logA
    split_ifs with c5
    · rfl
    · rcases ho i with h | ⟨ha, hb⟩
      · exact absurd h c5
      · rw [logAFracPos, max_eq_right]
        refine C79_series_nonneg _ z _ sigma ?_ (lt_of_le_of_ne h1 c3) hz hs hq hqz ha hb c5
        norm_num at hq; linarith

lemma gaussian_agree (sigma : PyNum) : poissonGaussian logAFrac (fun i => (orders i : EReal)) (.float 1) (.num sigma) =
    poissonGaussian logAFracPos (fun i => (orders i : EReal)) (.float 1) (.num sigma) := by
  have h1 : (PyNum.float 1).val.toReal = 1 := by simp [PyNum.val]
  simp only [poissonGaussian, h1, poissonOneOrder, if_true]

mutual
lemma compose_agree (ho : UsualOrders orders) (nr : NeighborRel) : ∀ (e : DpEvent), Noticeable e → ∀ (count : ℤ) (doC : Bool) (rdp : Arr n),
    RdpAccountant.maybeCompose (libFns orders logAFrac) nr e count doC rdp = RdpAccountant.maybeCompose (libFns orders logAFracPos) nr e count doC rdp
  | .selfComposed e m, h, count, doC, rdp => by
    rw [Noticeable] at h
    rw [RdpAccountant.maybeCompose, RdpAccountant.maybeCompose]
    exact compose_agree ho nr e h _ _ _
  | .composed es, h, count, doC, rdp => by
    rw [Noticeable] at h
    rw [RdpAccountant.maybeCompose, RdpAccountant.maybeCompose]
    exact composeList_agree ho nr es h _ _ _
  | .repeatAndSelect e mean shape, h, count, doC, rdp => by
    rw [Noticeable] at h
    rw [RdpAccountant.maybeCompose, RdpAccountant.maybeCompose, compose_agree ho nr e h, compose_agree ho nr e h]
    rfl
  | .gaussian z, h, count, doC, rdp => by
    rw [RdpAccountant.maybeCompose, RdpAccountant.maybeCompose]
    simp only [libFns, fns]
    rw [gaussian_agree]
  | .poissonSampled q e, h, count, doC, rdp => by
    rw [Noticeable] at h
    obtain ⟨hg, h1, h2⟩ := h
    obtain ⟨s, z, he, hs, hz, -, hp⟩ := effNoise_covered hg
    rw [RdpAccountant.maybeCompose, RdpAccountant.maybeCompose, he]
    simp only [libFns, fns]
    rw [poisson_agree ho hz hs h1]
    have hsq : Real.sqrt (totalPrecision e) = 1 / z := by
      rw [totalPrecision, ← hp, ← one_div_pow, Real.sqrt_sq (by positivity)]
    rw [hsq, mul_one_div, le_div_iff₀ hz] at h2
    exact h2
  | .noOp, _, _, _, _ | .nonPrivate, _, _, _, _ | .unsupported, _, _, _, _ | .randomizedResponse _ _, _, _, _, _ | .laplace _, _, _, _, _
  | .sampledWithReplacement _ _ _, _, _, _, _ | .sampledWithoutReplacement _ _ _, _, _, _, _
  | .singleEpochTreeAggregation _ _, _, _, _, _ | .mixtureOfGaussians _ _ _, _, _, _, _ => by
    simp only [RdpAccountant.maybeCompose, libFns, fns]
lemma composeList_agree (ho : UsualOrders orders) (nr : NeighborRel) : ∀ (es : List DpEvent), NoticeableL es → ∀ (count : ℤ) (doC : Bool) (rdp : Arr n),
    RdpAccountant.composeList (libFns orders logAFrac) nr es count doC rdp = RdpAccountant.composeList (libFns orders logAFracPos) nr es count doC rdp
  | [], _, _, _, _ => by rw [RdpAccountant.composeList, RdpAccountant.composeList]
  | e :: es, h, count, doC, rdp => by
    rw [NoticeableL] at h
    rw [RdpAccountant.composeList, RdpAccountant.composeList, compose_agree ho nr e h.1]
    split
    · exact composeList_agree ho nr es h.2 _ _ _
    · rfl
end

lemma composeAll_agree (ho : UsualOrders orders) (nr : NeighborRel) (l : List (DpEvent × ℤ)) (hl : ∀ p ∈ l, Noticeable p.1) (s : AcctState (Arr n)) :
    composeAll (rdpAccountant orders logAFrac nr) s l = composeAll (rdpAccountant orders logAFracPos nr) s l := by
  induction l generalizing s with
  | nil => rfl
  | cons p l ih =>
    obtain ⟨e, c⟩ := p
    have hc : (rdpAccountant orders logAFrac nr).compose s (.event e) (.int c) = (rdpAccountant orders logAFracPos nr).compose s (.event e) (.int c) := by
      unfold Accountant.compose
      simp only [RdpAccountant.accountant]
      rw [compose_agree ho nr e (hl (e, c) (by simp))]
      simp only [compose_agree ho nr e (hl (e, c) (by simp))]
    have ih := fun s => ih (fun p hp => hl p (List.mem_cons_of_mem _ hp)) s
    rw [composeAll, composeAll, hc]
    split
    · exact ih _
    · rw [ih]

lemma pos_nonneg : FracNonneg orders logAFracPos := fun _ _ _ _ _ _ _ => le_max_left _ _

lemma quiet_agree (ho : UsualOrders orders) {nr : NeighborRel} {l : List (DpEvent × ℤ)} (hl : ∀ p ∈ l, Noticeable p.1) (h : Quiet orders logAFrac nr l) :
    Quiet orders logAFracPos nr l := by
  unfold Quiet Accepted at *
  rwa [composeAll_agree ho nr l hl] at h

lemma rdpAfter_agree (ho : UsualOrders orders) (nr : NeighborRel) {l : List (DpEvent × ℤ)} (hl : ∀ p ∈ l, Noticeable p.1) :
    rdpAfter orders logAFrac nr l = rdpAfter orders logAFracPos nr l := by
  unfold rdpAfter
  rw [composeAll_agree ho nr l hl]

/-- **C79, the values, with the library's series.** If the samples are not negligible, no RDP value is negative and none is lowered by further calls:
nothing is assumed about the series and nothing allowed for its early stop. -/
theorem C79_rdp_noticeable (ho : ∀ i, 1 ≤ orders i) (hu : UsualOrders orders) (nr : NeighborRel) (cs ds : List (DpEvent × ℤ))
    (hl : ∀ p ∈ cs ++ ds, WfCounts p.1 ∧ Noticeable p.1) (hq : Quiet orders logAFrac nr (cs ++ ds)) (i : Fin n) :
    0 ≤ rdpAfter orders logAFrac nr cs i ∧ rdpAfter orders logAFrac nr cs i ≤ rdpAfter orders logAFrac nr (cs ++ ds) i := by
  rw [rdpAfter_agree hu nr fun p hp => (hl p hp).2, rdpAfter_agree hu nr (l := cs) fun p hp => (hl p (List.mem_append_left _ hp)).2]
  exact C79_rdp orders ho logAFracPos pos_nonneg nr cs ds (fun p hp => (hl p hp).1) (quiet_agree hu (fun p hp => (hl p hp).2) hq) i

/-- **C79, `get_epsilon`, with the library's series.** -/
theorem C79_get_epsilon_noticeable (ho : ∀ i, 1 ≤ orders i) (hu : UsualOrders orders) (nr : NeighborRel) (cs ds : List (DpEvent × ℤ))
    (hl : ∀ p ∈ cs ++ ds, WfCounts p.1 ∧ Noticeable p.1) (hq : Quiet orders logAFrac nr (cs ++ ds)) (delta a a' : ℝ) (eps eps' : EReal)
    (h : computeEpsilon (List.ofFn orders) (List.ofFn (rdpAfter orders logAFrac nr cs)) delta = .ok (eps, a))
    (h' : computeEpsilon (List.ofFn orders) (List.ofFn (rdpAfter orders logAFrac nr (cs ++ ds))) delta = .ok (eps', a')) : eps ≤ eps' := by
  rw [rdpAfter_agree hu nr fun p hp => (hl p hp).2] at h'
  rw [rdpAfter_agree hu nr (l := cs) fun p hp => (hl p (List.mem_append_left _ hp)).2] at h
  exact C79_get_epsilon orders ho logAFracPos pos_nonneg nr cs ds (fun p hp => (hl p hp).1) (quiet_agree hu (fun p hp => (hl p hp).2) hq) delta a a' eps eps' h h'

/-- **C79, `get_delta`, with the library's series.** -/
theorem C79_get_delta_noticeable (ho : ∀ i, 1 ≤ orders i) (hu : UsualOrders orders) (nr : NeighborRel) (cs ds : List (DpEvent × ℤ))
    (hl : ∀ p ∈ cs ++ ds, WfCounts p.1 ∧ Noticeable p.1) (hq : Quiet orders logAFrac nr (cs ++ ds)) (eps d d' a a' : ℝ)
    (h : computeDelta (List.ofFn orders) (List.ofFn (rdpAfter orders logAFrac nr cs)) eps = .ok (d, a))
    (h' : computeDelta (List.ofFn orders) (List.ofFn (rdpAfter orders logAFrac nr (cs ++ ds))) eps = .ok (d', a')) : d ≤ d' := by
  rw [rdpAfter_agree hu nr fun p hp => (hl p hp).2] at h'
  rw [rdpAfter_agree hu nr (l := cs) fun p hp => (hl p (List.mem_append_left _ hp)).2] at h
  exact C79_get_delta orders ho logAFracPos pos_nonneg nr cs ds (fun p hp => (hl p hp).1) (quiet_agree hu (fun p hp => (hl p hp).2) hq) eps d d' a a' h h'

/-- The hypotheses can be met: steps of training with sampling probability 0.01 and noise multiplier 1.1, at order 2.5. -/
example (m : ℤ) (hm : 1 ≤ m) : UsualOrders (fun _ : Fin 1 => (5 / 2 : ℝ)) ∧
    (∀ p ∈ sgdRun (.float 0.01) (.float 1.1) m, WfCounts p.1 ∧ Noticeable p.1) ∧
    Quiet (fun _ : Fin 1 => (5 / 2 : ℝ)) logAFrac .addOrRemoveOne (sgdRun (.float 0.01) (.float 1.1) m) := by
  have ho : ∀ i : Fin 1, (1 : ℝ) < (fun _ : Fin 1 => (5 / 2 : ℝ)) i := fun _ => by norm_num
  obtain ⟨h1, h2⟩ := sgd_accepted (orders := fun _ : Fin 1 => (5 / 2 : ℝ)) ho logAFrac (nr := .addOrRemoveOne) (by simp) (q := .float 0.01) (z := .float 1.1)
    (by simp only [PyNum.val]; exact_mod_cast (by norm_num : (0 : ℝ) ≤ 0.01)) (by simp only [PyNum.val]; exact_mod_cast (by norm_num : (0.01 : ℝ) ≤ 1))
    (by simp only [PyNum.val]; exact_mod_cast (by norm_num : (0 : ℝ) ≤ 1.1)) hm
  refine ⟨fun _ => .inr (by norm_num), fun p hp => ⟨h1 p hp, ?_⟩, .inr h2⟩
  simp only [sgdRun, List.mem_singleton] at hp
  subst hp
  rw [Noticeable, Noticeable]
  have e : totalPrecision (.gaussian (.float 1.1)) = (1 / 1.1) ^ 2 := by simp [totalPrecision, noises, expand, PyNum.val]
  rw [e, Real.sqrt_sq (by norm_num)]
  refine ⟨.inl ⟨_, rfl, ?_, by simp [PyNum.val]⟩, ?_, ?_⟩
  · simp only [PyNum.val]; exact_mod_cast (by norm_num : (0 : ℝ) < 1.1)
  · simp only [PyNum.val, EReal.toReal_coe]; norm_num
  · simp only [PyNum.val, EReal.toReal_coe]; norm_num

end Verif.Props
