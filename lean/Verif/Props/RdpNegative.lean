import Verif.Proofs.RdpNegative
import Verif.Proofs.PldEventLaws
import Verif.Props.RdpParam
import Verif.Props.RdpTight

/-!
# C79, C62: RDP values can be negative, so that composing more can erase everything composed before

At a fractional order the series for a Poisson-sampled Gaussian stops when its terms are small. With little sampling and much noise the partial sum is
below one, its logarithm negative, and so is the RDP value that the accountant adds. `historyEvents`, `rdpAfter`, `Accepted` as in C59, C79;
`sgdRun q z n`: `n` steps of Gaussian noise `z` on Poisson samples with probability `q`; `Adaptive`, `EventPair` as in C59.
-/

namespace Verif.Props
open Verif Verif.Spec Verif.Rdp Verif.RdpConv Verif.Frac MeasureTheory ProbabilityTheory

/-- The sampling probability and the noise multiplier. -/
noncomputable def tinyQ : PyNum := .float (Real.exp (-80))
noncomputable def hugeZ : PyNum := .float (Real.exp 80)

lemma tiny_facts : 0 ≤ tinyQ.val ∧ tinyQ.val ≤ 1 ∧ 0 < hugeZ.val := by
  obtain ⟨-, hq, hs⟩ := big_facts
  refine ⟨?_, ?_, ?_⟩
  · simp only [tinyQ, PyNum.val]; exact_mod_cast (Real.exp_pos (-80)).le
  · simp only [tinyQ, PyNum.val]; exact_mod_cast (by linarith : Real.exp (-80) ≤ 1)
  · simp only [hugeZ, PyNum.val]; exact_mod_cast Real.exp_pos 80

/-- The value of one such step at order 5/2. -/
lemma negative_curve {n : ℕ} {orders : Fin n → ℝ} {nr : NeighborRel} {i : Fin n} (hi : orders i = 5 / 2)
    (ok : RdpAccountant.Ok (libFns orders logAFrac) nr (.poissonSampled tinyQ (.gaussian hugeZ))) :
    ∃ w : ℝ, w < 0 ∧ RdpAccountant.curve (libFns orders logAFrac) nr (.poissonSampled tinyQ (.gaussian hugeZ)) i = (w : EReal) := by
  obtain ⟨hq0, hq1, hz⟩ := tiny_facts
  obtain ⟨v, hv, hval⟩ := neg_value
  obtain ⟨-, hq, -⟩ := big_facts
  refine ⟨v * (5 / 2 - 1)⁻¹, mul_neg_of_neg_of_pos hv (by norm_num), ?_⟩
  simp only [RdpAccountant.Ok, RdpAccountant.curve, RdpAccountant.maybeCompose, if_true, effNoise] at ok ⊢
  by_cases hnr : nr = .addOrRemoveOne ∨ nr = .replaceSpecial
  swap
  · rw [if_neg hnr] at ok; simp at ok
  rw [if_pos hnr] at ok ⊢
  obtain ⟨a, ha, hc⟩ := addTo_curve ok
  rw [hc]
  have ha : poissonGaussian logAFrac (fun i => (orders i : EReal)) tinyQ (.num hugeZ) = .ok a := ha
  rw [poissonGaussian, if_neg (not_not.2 ⟨hq0, hq1⟩), if_neg (not_lt.2 hz.le)] at ha
  have hv := collect_ok ha i
  have hq' : tinyQ.val.toReal = Real.exp (-80) := by simp only [tinyQ, PyNum.val, EReal.toReal_coe]
  have h1 : Real.exp (-80) < 1 := by linarith
  rw [hq', hi, poissonOneOrder, if_neg (Real.exp_pos _).ne', if_neg (by push Not; exact ⟨EReal.coe_ne_top _, hz.ne'⟩), if_neg h1.ne, if_neg (by
    intro h
    have : (5 / 2 : ℝ) = 1 := by exact_mod_cast h
    norm_num at this), EReal.toReal_coe, logA, dif_neg frac_five_halves, Except.ok.injEq] at hv
  rw [← hv, EReal.coe_mul, ← hval]
  rfl

lemma history_append (l l' : List (DpEvent × ℤ)) : historyEvents (l ++ l') = historyEvents l ++ historyEvents l' := by
  simp [historyEvents]

lemma accepted_both {n : ℕ} {orders : Fin n → ℝ} {nr : NeighborRel} {l l' : List (DpEvent × ℤ)} (hl : ∀ p ∈ l, WfCounts p.1)
    (hl' : ∀ p ∈ l', WfCounts p.1) (h : Accepted orders logAFrac nr l) (h' : Accepted orders logAFrac nr l') : Accepted orders logAFrac nr (l ++ l') := by
  have hw : ∀ p ∈ l ++ l', WfCounts p.1 := by
    intro p hp
    rcases List.mem_append.1 hp with hp | hp
    · exact hl p hp
    · exact hl' p hp
  have h1 := (composeAll_spec (libFns orders logAFrac) nr l hl ⟨RdpAccountant.init, Builder.init⟩ Builder.inv_init).1.1 h
  have h2 := (composeAll_spec (libFns orders logAFrac) nr l' hl' ⟨RdpAccountant.init, Builder.init⟩ Builder.inv_init).1.1 h'
  refine (composeAll_spec _ _ _ hw _ Builder.inv_init).1.2 fun p hp => ?_
  rcases List.mem_append.1 hp with hp | hp
  · exact h1 p hp
  · exact h2 p hp

/-- **C36 (validation).** `compute_epsilon` answers exactly for a non-negative `delta` and, unless `delta` is 0, two non-empty lists of equal length
with all orders at least 1; otherwise it raises `ValueError`. -/
theorem C36_compute_epsilon_raises (orders : List ℝ) (rdp : List EReal) (delta : ℝ) :
    ((∃ r, computeEpsilon orders rdp delta = .ok r) ↔
      0 ≤ delta ∧ (delta ≠ 0 → orders.length = rdp.length ∧ orders ≠ [] ∧ ∀ a ∈ orders, 1 ≤ a)) ∧
    (∀ e, computeEpsilon orders rdp delta = .error e → e = .valueError) := by
  unfold computeEpsilon
  rw [epsList_eq]
  by_cases h1 : delta < 0
  · simp [h1]
  by_cases h0 : delta = 0
  · rw [if_neg h1, if_pos h0]
    by_cases hr : ∀ r ∈ rdp, r = 0
    · simp [if_pos hr, h0]
    · rw [if_neg hr]; simp [h0]
  rw [if_neg h1, if_neg h0]
  by_cases h2 : orders.length = rdp.length
  swap
  · simp [h0, h2]
  rw [if_neg (not_not.2 h2)]
  have hzip : (∃ x ∈ orders.zip rdp, x.1 < 1) ↔ ∃ a ∈ orders, a < 1 := by
    constructor
    · rintro ⟨⟨a, r⟩, hx, ha⟩
      exact ⟨a, (List.of_mem_zip hx).1, ha⟩
    · rintro ⟨a, ha, h⟩
      obtain ⟨i, hi, rfl⟩ := List.getElem_of_mem ha
      exact ⟨(orders[i], rdp[i]'(h2 ▸ hi)), by
        rw [List.mem_iff_getElem]
        exact ⟨i, by rw [List.length_zip]; omega, by simp⟩, h⟩
  by_cases h3 : ∃ x ∈ orders.zip rdp, x.1 < 1
  · rw [if_pos h3]
    rw [hzip] at h3
    obtain ⟨a, ha, hlt⟩ := h3
    refine ⟨⟨fun ⟨r, hr⟩ => by simp at hr, fun h => absurd ((h.2 h0).2.2 a ha) (not_le.2 hlt)⟩, fun e he => by simpa using he.symm⟩
  · rw [if_neg h3]
    rw [hzip] at h3
    push Not at h3
    simp only
    cases hm : argmin ((orders.zip rdp).map fun x => epsFor x.1 x.2 delta) with
    | none =>
      rw [argmin_none, List.map_eq_nil_iff] at hm
      have hnil : orders = [] := by
        have := congrArg List.length hm
        rw [List.length_zip] at this
        simp at this
        rcases this with h | h
        · exact h
        · rw [h] at h2; simpa using h2
      refine ⟨⟨fun ⟨r, hr⟩ => by simp at hr, fun h => absurd hnil (h.2 h0).2.1⟩, fun e he => by simpa using he.symm⟩
    | some k =>
      have hne : orders ≠ [] := by
        rintro rfl
        simp [argmin] at hm
      exact ⟨⟨fun _ => ⟨not_lt.1 h1, fun _ => ⟨h2, hne, h3⟩⟩, fun _ => ⟨_, rfl⟩⟩, fun e he => by simp at he⟩

/-- With a negative value at some order, `compute_epsilon` and `compute_delta` return 0. -/
lemma negative_reports {n : ℕ} {orders : Fin n → ℝ} (ho : ∀ i, 1 < orders i) {rdp : Arr n} {i : Fin n} (hneg : rdp i < 0) :
    (∀ delta, 0 < delta → ∃ a, computeEpsilon (List.ofFn orders) (List.ofFn rdp) delta = .ok (0, a)) ∧
    ∀ eps, 0 ≤ eps → ∃ a, computeDelta (List.ofFn orders) (List.ofFn rdp) eps = .ok (0, a) := by
  have hne : List.ofFn orders ≠ [] := by
    intro h
    have := congrArg List.length h
    simp at this
    exact absurd i.2 (by omega)
  have hone : ∀ a ∈ List.ofFn orders, 1 ≤ a := by
    intro a ha
    obtain ⟨j, rfl⟩ := (List.mem_ofFn' _ _).1 ha
    exact (ho j).le
  have hmem : (orders i, rdp i) ∈ (List.ofFn orders).zip (List.ofFn rdp) := by
    rw [List.mem_iff_getElem]
    exact ⟨i, by simp, by simp⟩
  refine ⟨fun delta hd => ?_, fun eps he => ?_⟩
  · obtain ⟨⟨e, a⟩, h⟩ := (C36_compute_epsilon_raises (List.ofFn orders) (List.ofFn rdp) delta).1.2 ⟨hd.le, fun _ => ⟨by simp, hne, hone⟩⟩
    obtain ⟨-, -, x, hx, -, hev, hm⟩ := computeEpsilon_ok hd h
    have := hm _ hmem
    have h0 : epsFor (orders i) (rdp i) delta = 0 := by unfold epsFor; rw [if_pos hneg]
    simp only [h0] at this
    rw [max_eq_left this] at hev
    exact ⟨a, by rw [h, hev]⟩
  · obtain ⟨⟨d, a⟩, h⟩ := (C35_compute_delta_raises (List.ofFn orders) (List.ofFn rdp) eps).1.2 ⟨he, by simp, hne, hone⟩
    obtain ⟨-, -, -, x, hx, -, hev, hm⟩ := computeDelta_ok h
    have := hm _ hmem
    have h0 : logDelta (orders i) (rdp i) eps = ⊥ := by
      unfold logDelta
      simp only [if_pos hneg]
      split_ifs
      · exact bot_inf_eq _
      · rfl
    simp only [h0, le_bot_iff] at this
    rw [this] at hev
    have hz : d = 0 := by rw [hev]; simp [mexp]
    exact ⟨a, by rw [h, hz]⟩

/-- **C79, negative values.** Without the assumption on the series the claim is false: whatever was composed before (as long as the value at order
5/2 is finite), there is a number of further steps of Gaussian noise on Poisson samples after which the value at order 5/2 is negative, so that
`get_epsilon` returns 0 for every delta and `get_delta` 0 for every epsilon. The default orders contain 2.5. -/
theorem C79_negative_violated {n : ℕ} (orders : Fin n → ℝ) (ho : ∀ i, 1 < orders i) (i : Fin n) (hi : orders i = 5 / 2) (nr : NeighborRel)
    (hnr : nr ≠ .replaceOne) (l : List (DpEvent × ℤ)) (hl : ∀ p ∈ l, WfCounts p.1) (hacc : Accepted orders logAFrac nr l)
    (hfin : rdpAfter orders logAFrac nr l i ≠ ⊤) :
    ∃ m : ℤ, 1 ≤ m ∧ (∀ p ∈ l ++ sgdRun tinyQ hugeZ m, WfCounts p.1) ∧ Accepted orders logAFrac nr (l ++ sgdRun tinyQ hugeZ m) ∧
      rdpAfter orders logAFrac nr (l ++ sgdRun tinyQ hugeZ m) i < 0 ∧
      (∀ delta, 0 < delta → ∃ a, computeEpsilon (List.ofFn orders) (List.ofFn (rdpAfter orders logAFrac nr (l ++ sgdRun tinyQ hugeZ m))) delta = .ok (0, a)) ∧
      ∀ eps, 0 ≤ eps → ∃ a, computeDelta (List.ofFn orders) (List.ofFn (rdpAfter orders logAFrac nr (l ++ sgdRun tinyQ hugeZ m))) eps = .ok (0, a) := by
  obtain ⟨hq0, hq1, hz⟩ := tiny_facts
  have hone := sgd_accepted ho logAFrac hnr hq0 hq1 hz.le (le_refl 1)
  obtain ⟨w, hw, hval⟩ := negative_curve (nr := nr) hi ((rdpAfter_sum hone.1 hone.2).1 (.poissonSampled tinyQ (.gaussian hugeZ)) (by
    rw [sgd_history]; simp)).2
  obtain ⟨k, hk⟩ : ∃ k : ℕ, rdpAfter orders logAFrac nr l i + (((k : ℝ) * w : ℝ) : EReal) < 0 := by
    cases hr : rdpAfter orders logAFrac nr l i using EReal.rec with
    | bot => exact ⟨0, by rw [EReal.bot_add]; exact EReal.bot_lt_zero⟩
    | top => exact absurd hr hfin
    | coe r =>
      obtain ⟨k, hk⟩ := exists_nat_gt (r / -w)
      rw [div_lt_iff₀ (by linarith)] at hk
      refine ⟨k, ?_⟩
      rw [← EReal.coe_add]
      exact_mod_cast (by linarith : r + k * w < 0)
  have hm1 : (1 : ℤ) ≤ (k : ℤ) + 1 := by omega
  obtain ⟨w1, acc1⟩ := sgd_accepted ho logAFrac hnr hq0 hq1 hz.le hm1
  have hwf : ∀ p ∈ l ++ sgdRun tinyQ hugeZ ((k : ℤ) + 1), WfCounts p.1 := by
    intro p hp
    rcases List.mem_append.1 hp with hp | hp
    · exact hl p hp
    · exact w1 p hp
  have hacc' := accepted_both hl w1 hacc acc1
  have hneg : rdpAfter orders logAFrac nr (l ++ sgdRun tinyQ hugeZ ((k : ℤ) + 1)) i < 0 := by
    rw [(rdpAfter_sum hwf hacc').2, history_append, List.map_append, List.sum_append, ← (rdpAfter_sum hl hacc).2, sgd_history, List.map_replicate,
      List.sum_replicate, hval, ← EReal.coe_nsmul]
    refine lt_of_le_of_lt (add_le_add le_rfl ?_) hk
    rw [nsmul_eq_mul]
    have : ((((k : ℤ) + 1).toNat : ℕ) : ℝ) = k + 1 := by
      have : ((k : ℤ) + 1).toNat = k + 1 := by omega
      rw [this]; push_cast; ring
    rw [this]
    exact_mod_cast (by linarith : ((k : ℝ) + 1) * w ≤ k * w)
  exact ⟨(k : ℤ) + 1, hm1, hwf, hacc', hneg, (negative_reports ho hneg).1, (negative_reports ho hneg).2⟩

/-- Gaussian noise of a small multiplier does not hide anything. -/
lemma gaussian_distinguishes {eps delta : ℝ} (hd : delta < 1) :
    ∃ z : ℝ, 0 < z ∧ ¬ Indist (gaussianReal 1 (Real.toNNReal (z ^ 2))) (gaussianReal 0 (Real.toNNReal (z ^ 2))) eps delta := by
  have he := Real.exp_pos eps
  set c := (1 - delta) / (32 * (1 + Real.exp eps)) with hc
  have hc0 : 0 < c := div_pos (by linarith) (by positivity)
  have hcc : 32 * c * (1 + Real.exp eps) = 1 - delta := by rw [hc]; field_simp
  have hz : 0 < Real.sqrt c := Real.sqrt_pos.2 hc0
  have hz2 : Real.sqrt c ^ 2 = c := Real.sq_sqrt hc0.le
  refine ⟨Real.sqrt c, hz, fun h => ?_⟩
  have key := h (Set.Ioi (1 / 2)) measurableSet_Ioi
  have tail : (gaussianReal 0 1).real (Set.Iic ((0 - 1 / 2) / Real.sqrt c)) ≤ 16 * c := by
    refine (std_tail (s := 1 / 2 / Real.sqrt c) (by positivity) (le_of_eq (by ring))).trans (le_of_eq ?_)
    rw [div_pow, hz2]; field_simp; norm_num
  rw [std_Ioi hz 0] at key
  have hP : 1 - 16 * c ≤ (gaussianReal 1 (Real.toNNReal (Real.sqrt c ^ 2))).real (Set.Ioi (1 / 2)) := by
    rw [← Set.compl_Iic, probReal_compl_eq_one_sub measurableSet_Iic, std_Iic hz]
    have e : (1 / 2 - 1) / Real.sqrt c = (0 - 1 / 2) / Real.sqrt c := by norm_num
    rw [e]
    linarith
  have hQ := mul_le_mul_of_nonneg_left tail he.le
  nlinarith

/-- **C62, soundness.** Without the allowance for each sampled step the claim is false, by as much as can be: for all privacy parameters there is a history for which the
accountant reports epsilon 0 at every delta and delta 0 at every epsilon, although mechanisms that the events describe, run one after the other, do not
satisfy these parameters. -/
theorem C62_reports_nothing_violated {n : ℕ} (orders : Fin n → ℝ) (ho : ∀ i, 1 < orders i) (i : Fin n) (hi : orders i = 5 / 2) (nr : NeighborRel)
    (hnr : nr ≠ .replaceOne) (eps delta : ℝ) (hd : delta < 1) :
    ∃ l : List (DpEvent × ℤ), (∀ p ∈ l, WfCounts p.1) ∧ Accepted orders logAFrac nr l ∧
      (∀ d, 0 < d → ∃ a, computeEpsilon (List.ofFn orders) (List.ofFn (rdpAfter orders logAFrac nr l)) d = .ok (0, a)) ∧
      (∀ e, 0 ≤ e → ∃ a, computeDelta (List.ofFn orders) (List.ofFn (rdpAfter orders logAFrac nr l)) e = .ok (0, a)) ∧
      ∃ (Ω : Type) (_ : MeasurableSpace Ω) (P Q : Measure Ω), Adaptive ((historyEvents l).map (EventPair nr)) Ω P Q ∧ ¬ Indist P Q eps delta := by
  obtain ⟨z, hz, hdist⟩ := gaussian_distinguishes (eps := eps) hd
  set g : List (DpEvent × ℤ) := [(.gaussian (.float z), 1)] with hg
  have wg : ∀ p ∈ g, WfCounts p.1 := by
    intro p hp
    simp only [hg, List.mem_singleton] at hp
    subst hp
    simp [WfCounts]
  have hgh : historyEvents g = [.gaussian (.float z)] := by simp [hg, historyEvents, expand, repeatList]
  have hzv : (PyNum.float z).val = (z : EReal) := rfl
  have hzz : (0 : EReal) < (z : EReal) := by exact_mod_cast hz
  have hp : poissonGaussian logAFrac (fun i => (orders i : EReal)) (.float 1) (.num (.float z)) =
      .ok fun i => (orders i : EReal) * ((halfInvSq (.float z) : ℝ) : EReal) := by
    rw [poissonGaussian, if_neg (by simp [PyNum.val]), if_neg (by rw [hzv]; exact not_lt.2 hzz.le)]
    refine collect_of_ok fun i => ?_
    have h1 : (PyNum.float 1).val.toReal = 1 := by simp [PyNum.val]
    rw [h1, poissonOneOrder, if_neg one_ne_zero, if_neg (by
      push Not
      exact ⟨EReal.coe_ne_top _, hzz.ne'⟩), if_pos rfl]
  have accg : Accepted orders logAFrac nr g := by
    refine (composeAll_spec _ _ _ wg _ Builder.inv_init).1.2 fun p hp => ?_
    simp only [hg, List.mem_singleton] at hp
    subst hp
    refine ⟨by simp [RdpAccountant.verdict, RdpAccountant.maybeCompose], by simp, fun a ha => ?_⟩
    simp only [expand, List.mem_singleton] at ha
    subst ha
    simp only [RdpAccountant.Ok, RdpAccountant.maybeCompose, if_true, libFns, fns]
    rw [hp]
    rfl
  have hfin : rdpAfter orders logAFrac nr g i ≠ ⊤ := by
    rw [(rdpAfter_sum wg accg).2, hgh]
    simp only [List.map_singleton, List.sum_singleton, RdpAccountant.curve, RdpAccountant.maybeCompose, if_true, libFns, fns]
    rw [hp]
    simp only [RdpAccountant.addTo]
    simp only [Int.cast_one, EReal.coe_one, mul_one, one_mul, zero_add]
    rw [← EReal.coe_mul]
    exact EReal.coe_ne_top _
  obtain ⟨m, -, hw, hacc, -, hE, hD⟩ := C79_negative_violated orders ho i hi nr hnr g wg accg hfin
  refine ⟨_, hw, hacc, hE, hD, ?_⟩
  obtain ⟨hq0, hq1, hz'⟩ := tiny_facts
  obtain ⟨Ω, _, P, Q, _, _, hA, -⟩ := Attains.list (α := 2) one_lt_two
    ((List.replicate m.toNat (DpEvent.poissonSampled tinyQ (.gaussian hugeZ))).map fun e => (EventPair nr e, (0 : EReal))) (by
      intro x hx
      obtain ⟨e, he, rfl⟩ := List.mem_map.1 hx
      rw [List.eq_of_mem_replicate he]
      have hp := poisson_attains (α := 2) one_lt_two (zs := [Real.exp 80]) (by simp [Real.exp_pos]) (z := Real.exp 80) (Real.exp_pos _) (by simp)
        (q := Real.exp (-80)) (Real.exp_pos _).le (by linarith [big_facts.2.1])
      have e1 : EventPair nr (.poissonSampled tinyQ (.gaussian hugeZ)) = PoissonGaussiansPair (Real.exp (-80)) [Real.exp 80] := by
        rw [EventPair]
        simp [noises, expand, tinyQ, hugeZ, PyNum.val]
      simp only [e1]
      obtain ⟨Ω, _, P, Q, h1, h2, h3, -⟩ := hp
      exact ⟨Ω, _, P, Q, h1, h2, h3, RdpConv.renyi_nonneg one_le_two⟩)
  rw [List.map_map, Function.comp_def] at hA
  set A := gaussianVec ((1 : ℝ) • (EuclideanSpace.single 0 1 : Vec 1)) z with hAd
  set B := gaussianVec ((0 : ℝ) • (EuclideanSpace.single 0 1 : Vec 1)) z with hBd
  have hpair : EventPair nr (.gaussian (.float z)) (Vec 1) A B := by
    have e1 : EventPair nr (.gaussian (.float z)) = GaussianPair z := by
      rw [EventPair]
      simp [PyNum.val]
    rw [e1]
    have := GaussianPair.mk (z := z) (d := 1) ((1 : ℝ) • (EuclideanSpace.single 0 1 : Vec 1))
      ((0 : ℝ) • (EuclideanSpace.single 0 1 : Vec 1)) 1 one_pos (by simp)
    rwa [mul_one] at this
  refine ⟨Vec 1 × Ω, inferInstance, A.prod P, B.prod Q, ?_, fun h => ?_⟩
  · rw [history_append, hgh, sgd_history, List.singleton_append, List.map_cons, ← Measure.compProd_const, ← Measure.compProd_const]
    exact .cons A B (Kernel.const _ P) (Kernel.const _ Q) hpair fun _ => by simpa using hA
  · have h1 := Verif.Mech.Indist.map (Verif.Mech.Indist.map h measurable_fst) (g := fun x : Vec 1 => inner ℝ (EuclideanSpace.single 0 1 : Vec 1) x) (by fun_prop)
    rw [Measure.map_fst_prod, Measure.map_fst_prod, measure_univ, measure_univ, one_smul, one_smul, gaussianVec_proj hz, gaussianVec_proj hz] at h1
    exact hdist h1

/-- The hypotheses of the two theorems can be met: order 5/2, and a step of training with noise multiplier 1 composed before. -/
example : (∀ i : Fin 1, (1 : ℝ) < (fun _ : Fin 1 => (5 / 2 : ℝ)) i) ∧ NeighborRel.addOrRemoveOne ≠ .replaceOne ∧
    (∀ p ∈ sgdRun (.float 1) (.float 1) 1, WfCounts p.1) ∧ Accepted (fun _ : Fin 1 => 5 / 2) logAFrac .addOrRemoveOne (sgdRun (.float 1) (.float 1) 1) ∧
    rdpAfter (fun _ : Fin 1 => 5 / 2) logAFrac .addOrRemoveOne (sgdRun (.float 1) (.float 1) 1) 0 = ((5 / 4 : ℝ) : EReal) := by
  have ho : ∀ i : Fin 1, (1 : ℝ) < (fun _ : Fin 1 => (5 / 2 : ℝ)) i := fun _ => by norm_num
  obtain ⟨h1, h2⟩ := sgd_accepted (orders := fun _ : Fin 1 => (5 / 2 : ℝ)) ho logAFrac (nr := .addOrRemoveOne) (by simp) (q := .float 1) (z := .float 1)
    (by simp [PyNum.val]) (by simp [PyNum.val]) (by simp [PyNum.val]) (le_refl 1)
  refine ⟨ho, by simp, h1, h2, ?_⟩
  have hp : poissonGaussian logAFrac (fun _ : Fin 1 => ((5 / 2 : ℝ) : EReal)) (.float 1) (.num (.float 1)) = .ok fun _ => ((5 / 4 : ℝ) : EReal) := by
    rw [poissonGaussian, if_neg (by simp [PyNum.val]), if_neg (by simp [PyNum.val])]
    refine collect_of_ok fun i => ?_
    have h1 : (PyNum.float 1).val.toReal = 1 := by simp [PyNum.val]
    rw [h1, poissonOneOrder, if_neg one_ne_zero, if_neg (by
      push Not
      exact ⟨EReal.coe_ne_top _, by simp [PyNum.val]⟩), if_pos rfl, ← EReal.coe_mul]
    congr 2
    simp [halfInvSq, PyNum.val]
    norm_num
  rw [(rdpAfter_sum h1 h2).2, sgd_history]
  simp only [Int.toNat_one, List.replicate_one, List.map_singleton, List.sum_singleton, RdpAccountant.curve, RdpAccountant.maybeCompose, effNoise, if_true,
    libFns, fns, true_or]
  rw [hp]
  simp only [RdpAccountant.addTo, Int.cast_one, EReal.coe_one, mul_one, one_mul, zero_add]

end Verif.Props
