import Verif.Proofs.RdpNonneg
import Verif.Props.RdpFracAccountant
import Verif.Props.PldMonotone

/-!
# C79: composing more never lowers what the RDP accountant reports

`rdpAfter orders frac nr l` is the `_rdp` array after the `compose` calls in `l` on a new `RdpAccountant`, with all functions of the library;
`frac` stands for `_compute_log_a_frac`, `logAFrac` is the one of the library. A call may raise; the accountant goes on from the state
that it leaves behind.
-/

namespace Verif.Props
open Verif Verif.Spec Verif.Rdp Verif.RdpConv Verif.Frac MeasureTheory ProbabilityTheory

/-- `frac` returns no negative value at those of the orders that are not integers (so nothing is asked of it for integer orders). -/
def FracNonneg {n : ℕ} (orders : Fin n → ℝ) (frac : ℝ → PyNum → ℝ → EReal) : Prop :=
  ∀ i, (¬ ∃ m : ℤ, orders i = m) → ∀ q sigma, 0 < q → q < 1 → 0 < sigma.val → 0 ≤ frac q sigma (orders i)

/-- No call raised, or no `RepeatAndSelect` event was composed. -/
def Quiet {n : ℕ} (orders : Fin n → ℝ) (frac : ℝ → PyNum → ℝ → EReal) (nr : NeighborRel) (l : List (DpEvent × ℤ)) : Prop :=
  (∀ p ∈ l, NoRepeat p.1) ∨ Accepted orders frac nr l

lemma accepted_append {n : ℕ} {orders : Fin n → ℝ} {frac : ℝ → PyNum → ℝ → EReal} {nr : NeighborRel} {cs ds : List (DpEvent × ℤ)}
    (hl : ∀ p ∈ cs ++ ds, WfCounts p.1) (h : Accepted orders frac nr (cs ++ ds)) : Accepted orders frac nr cs ∧ Accepted orders frac nr ds := by
  have h1 := (composeAll_spec (libFns orders frac) nr (cs ++ ds) hl ⟨RdpAccountant.init, Builder.init⟩ Builder.inv_init).1.1 h
  have hc : ∀ p ∈ cs, WfCounts p.1 := fun p hp => hl p (List.mem_append_left _ hp)
  have hd : ∀ p ∈ ds, WfCounts p.1 := fun p hp => hl p (List.mem_append_right _ hp)
  exact ⟨(composeAll_spec (libFns orders frac) nr cs hc _ Builder.inv_init).1.2 fun p hp => h1 p (List.mem_append_left _ hp),
    (composeAll_spec (libFns orders frac) nr ds hd _ Builder.inv_init).1.2 fun p hp => h1 p (List.mem_append_right _ hp)⟩

lemma composeAll_mono {n : ℕ} {F : RdpFns n} (hF : NonNegFns F) (nr : NeighborRel) (ds : List (DpEvent × ℤ)) (hl : ∀ p ∈ ds, WfCounts p.1)
    (hr : ∀ p ∈ ds, NoRepeat p.1) (s : AcctState (Arr n)) (i : Fin n) :
    s.acct i ≤ (composeAll (RdpAccountant.accountant F nr) s ds).1.acct i := by
  induction ds generalizing s with
  | nil => exact le_rfl
  | cons p ds ih =>
    obtain ⟨e, c⟩ := p
    have h1 := C06_rdp_exception_keeps_loss_partial F hF nr s e (hl (e, c) (by simp)) (hr (e, c) (by simp)) (.int c) i
    have h2 := fun s => ih (fun p hp => hl p (List.mem_cons_of_mem _ hp)) (fun p hp => hr p (List.mem_cons_of_mem _ hp)) s
    simp only [composeAll]
    generalize (RdpAccountant.accountant F nr).compose s (.event e) (.int c) = q at h1 ⊢
    obtain ⟨a, q⟩ := q
    match q with
    | .error err => exact h1.trans (h2 a)
    | .ok () => exact h1.trans (h2 a)

lemma totalRdp_append {n : ℕ} (F : RdpFns n) (nr : NeighborRel) (cs ds : List (DpEvent × ℤ)) (i : Fin n) :
    totalRdp F nr (cs ++ ds) i = totalRdp F nr cs i + totalRdp F nr ds i := by
  unfold totalRdp
  simp [List.flatMap_append, List.map_append, List.sum_append]

/-- **C79, the values.** After further calls no RDP value is lower than before, for any library orders (at least 1) and any events. -/
theorem C79_rdp {n : ℕ} (orders : Fin n → ℝ) (ho : ∀ i, 1 ≤ orders i) (frac : ℝ → PyNum → ℝ → EReal) (hf : FracNonneg orders frac)
    (nr : NeighborRel) (cs ds : List (DpEvent × ℤ)) (hl : ∀ p ∈ cs ++ ds, WfCounts p.1) (hq : Quiet orders frac nr (cs ++ ds)) (i : Fin n) :
    0 ≤ rdpAfter orders frac nr cs i ∧ rdpAfter orders frac nr cs i ≤ rdpAfter orders frac nr (cs ++ ds) i := by
  have hF := libFns_nonneg orders ho frac hf
  have key : ∀ cs ds : List (DpEvent × ℤ), (∀ p ∈ cs ++ ds, WfCounts p.1) → Quiet orders frac nr (cs ++ ds) →
      rdpAfter orders frac nr cs i ≤ rdpAfter orders frac nr (cs ++ ds) i := by
    intro cs ds hl hq
    rcases hq with hq | hq
    · unfold rdpAfter
      rw [composeAll_append]
      exact composeAll_mono hF nr ds (fun p hp => hl p (List.mem_append_right _ hp)) (fun p hp => hq p (List.mem_append_right _ hp)) _ i
    · obtain ⟨h1, h2⟩ := accepted_append hl hq
      unfold rdpAfter
      rw [C10_rdp_additive _ nr _ hl hq, C10_rdp_additive _ nr cs (fun p hp => hl p (List.mem_append_left _ hp)) h1, totalRdp_append]
      refine le_add_of_nonneg_right ?_
      have hds : ∀ p ∈ ds, WfCounts p.1 := fun p hp => hl p (List.mem_append_right _ hp)
      unfold totalRdp
      rw [sum_apply]
      refine List.sum_nonneg ?_
      intro x hx
      obtain ⟨a, ha, rfl⟩ := List.mem_map.1 hx
      obtain ⟨p, hp, hap⟩ := List.mem_flatMap.1 ha
      exact RdpAccountant.curve_nonneg _ nr hF (wfCounts_mem (hds p hp) (repeatList_mem hap)) i
  refine ⟨?_, key cs ds hl hq⟩
  have hc : ∀ p ∈ cs, WfCounts p.1 := fun p hp => hl p (List.mem_append_left _ hp)
  have := key [] cs hc (hq.imp (fun h p hp => h p (List.mem_append_left _ hp)) fun h => (accepted_append hl h).1)
  exact this

/-- Order by order, `compute_delta` uses a larger delta for a larger RDP value. -/
lemma tvLog_mono {r r' : EReal} (h : r ≤ r') : tvLog r ≤ tvLog r' := by
  unfold tvLog
  by_cases h0 : r ≤ 0
  · have : (if r < 0 then (⊥ : EReal) else if r = 0 then ⊥ else ((0.5 * Real.log (1 + -mexp (-r)) : ℝ) : EReal)) = ⊥ := by
      rcases h0.lt_or_eq with h0 | h0
      · rw [if_pos h0]
      · rw [if_neg (by rw [h0]; exact lt_irrefl _), if_pos h0]
    rw [this]; exact bot_le
  have h0 := not_le.1 h0
  have h0' := h0.trans_le h
  rw [if_neg (not_lt.2 h0.le), if_neg h0.ne', if_neg (not_lt.2 h0'.le), if_neg h0'.ne', EReal.coe_le_coe_iff]
  have hm : mexp (-r') ≤ mexp (-r) := mexp_mono (EReal.neg_le_neg_iff.2 h) (by
    intro hc
    rw [EReal.neg_eq_top_iff] at hc
    rw [hc] at h0
    simp at h0)
  have h1 : mexp (-r) < 1 := by
    induction r with
    | bot => simp at h0
    | top => simp [mexp]
    | coe r =>
      rw [← EReal.coe_neg, mexp_coe, Real.exp_lt_one_iff]
      have : (0 : ℝ) < r := by exact_mod_cast h0
      linarith
  refine mul_le_mul_of_nonneg_left (Real.log_le_log (by linarith) (by linarith)) (by norm_num)

lemma logDelta_mono {a eps : ℝ} (ha : 1 ≤ a) {r r' : EReal} (h : r ≤ r') : logDelta a r eps ≤ logDelta a r' eps := by
  rw [logDelta_eq, logDelta_eq]
  split_ifs with h1
  · refine min_le_min (tvLog_mono h) ?_
    unfold rdpLog
    refine EReal.sub_le_sub (mul_le_mul_of_nonneg_left (add_le_add (EReal.sub_le_sub h le_rfl) le_rfl) ?_) le_rfl
    exact_mod_cast (by linarith : (0 : ℝ) ≤ a - 1)
  · exact tvLog_mono h

/-- **C79, `compute_delta`.** Larger RDP values give a delta that is not smaller. -/
theorem C79_compute_delta (orders : List ℝ) (rdp rdp' : List EReal) (eps d d' a a' : ℝ) (hrr : List.Forall₂ (· ≤ ·) rdp rdp')
    (h : computeDelta orders rdp eps = .ok (d, a)) (h' : computeDelta orders rdp' eps = .ok (d', a')) : d ≤ d' := by
  obtain ⟨-, hl, ho, x, hx, -, hd, hm⟩ := computeDelta_ok h
  obtain ⟨-, hl', ho', x', hx', -, hd', -⟩ := computeDelta_ok h'
  obtain ⟨i, hi, rfl⟩ := List.getElem_of_mem hx'
  rw [List.length_zip] at hi
  have hi1 : i < (orders.zip rdp).length := by rw [List.length_zip]; omega
  have h1 := hm _ (List.getElem_mem hi1)
  have h2 := (List.forall₂_iff_get.1 hrr).2 i (by omega) (by omega)
  simp only [List.get_eq_getElem] at h2
  rw [hd, hd']
  refine min_le_min (mexp_mono (h1.trans ?_) ?_) le_rfl
  · simp only [List.getElem_zip]
    refine logDelta_mono ?_ h2
    have := ho' _ hx'
    simpa using this
  · refine ne_top_of_le_ne_top EReal.zero_ne_top (le_trans ?_ (tvLog_le_zero ((orders.zip rdp')[i]).2))
    rw [logDelta_eq]
    split_ifs
    · exact min_le_left _ _
    · exact le_rfl

lemma forall₂_ofFn {n : ℕ} {a b : Arr n} (h : ∀ i, a i ≤ b i) : List.Forall₂ (· ≤ ·) (List.ofFn a) (List.ofFn b) := by
  rw [List.forall₂_iff_get]
  refine ⟨by simp, fun i h1 h2 => ?_⟩
  simp only [List.get_eq_getElem, List.getElem_ofFn]
  exact h _

/-- **C79, `get_epsilon`.** After further calls, `get_epsilon` with the same delta does not return a smaller epsilon. -/
theorem C79_get_epsilon {n : ℕ} (orders : Fin n → ℝ) (ho : ∀ i, 1 ≤ orders i) (frac : ℝ → PyNum → ℝ → EReal) (hf : FracNonneg orders frac)
    (nr : NeighborRel) (cs ds : List (DpEvent × ℤ)) (hl : ∀ p ∈ cs ++ ds, WfCounts p.1) (hq : Quiet orders frac nr (cs ++ ds))
    (delta a a' : ℝ) (eps eps' : EReal)
    (h : computeEpsilon (List.ofFn orders) (List.ofFn (rdpAfter orders frac nr cs)) delta = .ok (eps, a))
    (h' : computeEpsilon (List.ofFn orders) (List.ofFn (rdpAfter orders frac nr (cs ++ ds))) delta = .ok (eps', a')) : eps ≤ eps' := by
  refine C36_monotone_in_rdp _ _ _ delta a a' eps eps' ?_ (forall₂_ofFn fun i => (C79_rdp orders ho frac hf nr cs ds hl hq i).2) h h'
  intro r hr
  obtain ⟨i, rfl⟩ := (List.mem_ofFn' _ _).1 hr
  exact (C79_rdp orders ho frac hf nr cs ds hl hq i).1

/-- **C79, `get_delta`.** After further calls, `get_delta` with the same epsilon does not return a smaller delta. -/
theorem C79_get_delta {n : ℕ} (orders : Fin n → ℝ) (ho : ∀ i, 1 ≤ orders i) (frac : ℝ → PyNum → ℝ → EReal) (hf : FracNonneg orders frac)
    (nr : NeighborRel) (cs ds : List (DpEvent × ℤ)) (hl : ∀ p ∈ cs ++ ds, WfCounts p.1) (hq : Quiet orders frac nr (cs ++ ds))
    (eps d d' a a' : ℝ)
    (h : computeDelta (List.ofFn orders) (List.ofFn (rdpAfter orders frac nr cs)) eps = .ok (d, a))
    (h' : computeDelta (List.ofFn orders) (List.ofFn (rdpAfter orders frac nr (cs ++ ds))) eps = .ok (d', a')) : d ≤ d' :=
  C79_compute_delta _ _ _ eps d d' a a' (forall₂_ofFn fun i => (C79_rdp orders ho frac hf nr cs ds hl hq i).2) h h'

/-- The increased series of `C62_fracBound_partial` is never negative. -/
lemma safe_nonneg {n : ℕ} {orders : Fin n → ℝ} (ho : ∀ i, 1 ≤ orders i) : FracNonneg orders logAFracSafe := by
  intro i hi q sigma h0 h1 hs
  have hα : 1 < orders i := lt_of_le_of_ne (ho i) fun e => hi ⟨1, by rw [← e]; simp⟩
  by_cases ht : sigma.val = ⊤
  · rw [none_of_top ht]
    unfold logAFracSafe logAFrac
    simp only
    rw [EReal.top_add_coe]
    exact le_top
  · obtain ⟨z, hz⟩ : ∃ z : ℝ, sigma.val = (z : EReal) := ⟨sigma.val.toReal, (EReal.coe_toReal ht (by intro hb; rw [hb] at hs; simp at hs)).symm⟩
    have hz0 : 0 < z := by rw [hz] at hs; exact_mod_cast hs
    have h := C62_fracBound_partial q z (orders i) sigma h0 h1 hz0 hz hα hi
    have hn : 0 ≤ sampledDiv q z (orders i) := by
      obtain ⟨hp, hd⟩ := sampledDiv_eq h0 h1 hz0 hα
      have e := gaussMix_prob h0.le h1.le (Real.toNNReal (z ^ 2))
      exact renyi_nonneg (P := gaussMix q (Real.toNNReal (z ^ 2))) hα.le
    have h2 := hn.trans h
    rw [EReal.mul_nonneg_iff] at h2
    rcases h2 with h2 | h2
    · exact h2.1
    · exfalso
      have h3 : (orders i - 1)⁻¹ ≤ 0 := by exact_mod_cast h2.2
      have h4 : 0 < (orders i - 1)⁻¹ := inv_pos.2 (by linarith)
      linarith

/-- **C79 (partial), with the series of the library.** For fractional orders the series stops early, and the value for one Poisson-sampled
event can be lower than it should be by `orderSlack` (at most `4e-10 / (α - 1)` for orders up to 11); so this much can be lost for each
such event. Missing: `RepeatAndSelect` events, and fractional orders without the slack. -/
theorem C79_rdp_library_partial {n : ℕ} (orders : Fin n → ℝ) (ho : ∀ i, 1 ≤ orders i) (nr : NeighborRel) (cs ds : List (DpEvent × ℤ))
    (hl : ∀ p ∈ cs ++ ds, WfCounts p.1) (hacc : Accepted orders logAFrac nr (cs ++ ds))
    (hrep : ∀ e ∈ historyEvents ds, ∀ e' m s, e ≠ .repeatAndSelect e' m s) (i : Fin n) :
    rdpAfter orders logAFrac nr cs i ≤
      rdpAfter orders logAFrac nr (cs ++ ds) i + ((poissonEvents (historyEvents ds) * orderSlack (orders i) : ℝ) : EReal) := by
  obtain ⟨h1, h2⟩ := accepted_append hl hacc
  have hds : ∀ p ∈ ds, WfCounts p.1 := fun p hp => hl p (List.mem_append_right _ hp)
  unfold rdpAfter
  rw [C10_rdp_additive _ nr _ hl hacc, C10_rdp_additive _ nr cs (fun p hp => hl p (List.mem_append_left _ hp)) h1, totalRdp_append, add_assoc]
  refine le_add_of_nonneg_right ?_
  have hF := libFns_nonneg orders ho logAFracSafe (safe_nonneg ho)
  have hspec := (composeAll_spec (libFns orders logAFrac) nr ds hds ⟨RdpAccountant.init, Builder.init⟩ Builder.inv_init).1.1 h2
  have hmem : ∀ a ∈ historyEvents ds, 0 ≤ RdpAccountant.curve (libFns orders logAFrac) nr a i + ((poissonEvents [a] * orderSlack (orders i) : ℝ) : EReal) := by
    intro a ha
    obtain ⟨p, hp, hap⟩ := List.mem_flatMap.1 ha
    have ha' := repeatList_mem hap
    exact (RdpAccountant.curve_nonneg _ nr hF (wfCounts_mem (hds p hp) ha') i).trans
      ((atom_near ho nr (RdpAccountant.elementary_of_mem _ _ ha') (hrep a ha) ((hspec p hp).2.2 a ha')).2 i)
  have e : totalRdp (libFns orders logAFrac) nr ds i = ((historyEvents ds).map fun a => RdpAccountant.curve (libFns orders logAFrac) nr a i).sum := by
    unfold totalRdp
    rw [sum_apply]
    rfl
  rw [e]
  clear e hrep
  revert hmem
  generalize historyEvents ds = L
  intro hmem
  induction L with
  | nil => simp [poissonEvents]
  | cons a L ih =>
    rw [List.map_cons, List.sum_cons]
    have g1 := hmem a (by simp)
    have g2 := ih fun b hb => hmem b (List.mem_cons_of_mem _ hb)
    have hc : (poissonEvents (a :: L) : ℝ) = poissonEvents [a] + poissonEvents L := by
      unfold poissonEvents
      rw [List.countP_cons, List.countP_cons, List.countP_nil]
      push_cast
      ring
    rw [hc, add_mul, EReal.coe_add, add_add_add_comm]
    exact add_nonneg g1 g2

/-- **C79, a call that raises.** The claim is false when a call that raised is counted: after a `NonPrivateDpEvent`, `get_epsilon` returns
infinity; a further call with a `RepeatAndSelectDpEvent` raises `ZeroDivisionError`, and then `get_epsilon` returns 0. -/
theorem C79_raise_violated (nr : NeighborRel) (delta : ℝ) (h0 : 0 < delta) (h1 : delta < 1) :
    let orders : Fin 1 → ℝ := fun _ => 2
    let cs : List (DpEvent × ℤ) := [(.nonPrivate, 1)]
    let ds : List (DpEvent × ℤ) := [(.repeatAndSelect (.laplace (.float 0)) (.int 1) (.int 1), 1)]
    (∀ p ∈ cs ++ ds, WfCounts p.1) ∧
    computeEpsilon (List.ofFn orders) (List.ofFn (rdpAfter orders logAFrac nr cs)) delta = .ok (⊤, 2) ∧
    computeEpsilon (List.ofFn orders) (List.ofFn (rdpAfter orders logAFrac nr (cs ++ ds))) delta = .ok (0, 2) := by
  intro orders cs ds
  have hl := C06_rdp_exception_loses_loss (libFns orders logAFrac) nr
  simp only at hl
  have key : ∀ r : EReal, (∀ i : Fin 1, (fun _ : Fin 1 => r) i = r) → ∀ a : Arr 1, (∀ i, a i = r) → List.ofFn a = [r] := by
    intro r _ a ha
    simp [ha]
  have hm : ∀ r : EReal, computeEpsilon (List.ofFn orders) [r] delta = .ok (max 0 (epsFor 2 r delta), 2) := by
    intro r
    unfold computeEpsilon
    rw [if_neg h0.le.not_gt, if_neg h0.ne', if_neg (by simp [orders]), epsList_eq, if_neg (by simp [orders])]
    simp [orders, argmin]
  refine ⟨by simp [cs, ds, WfCounts], ?_, ?_⟩
  · have e : List.ofFn (rdpAfter orders logAFrac nr cs) = [⊤] := by
      refine key ⊤ (fun _ => rfl) _ fun i => ?_
      have := hl.1 i
      unfold rdpAfter
      simp only [cs, composeAll]
      split <;> rename_i hh <;> rw [hh] at this <;> exact this
    rw [e, hm]
    have : epsFor 2 ⊤ delta = ⊤ := by
      unfold epsFor
      have hb : mexp (-⊤) = 0 := by simp [mexp]
      rw [if_neg (by simp), hb, if_neg (by nlinarith), if_pos (by norm_num), EReal.top_add_coe, EReal.top_sub_coe]
    rw [this, max_eq_right le_top]
  · have e : List.ofFn (rdpAfter orders logAFrac nr (cs ++ ds)) = [0] := by
      refine key 0 (fun _ => rfl) _ fun i => ?_
      have := hl.2.2 i
      unfold rdpAfter
      rw [composeAll_append]
      have e1 : (composeAll (rdpAccountant orders logAFrac nr) ⟨RdpAccountant.init, Builder.init⟩ cs).1 =
          ((rdpAccountant orders logAFrac nr).compose ⟨RdpAccountant.init, Builder.init⟩ (.event .nonPrivate) (.int 1)).1 := by
        simp only [cs, composeAll]
        split <;> rename_i hh <;> rw [hh]
      rw [e1]
      simp only [ds, composeAll]
      split <;> rename_i hh <;> rw [hh] at this <;> exact this
    rw [e, hm]
    have : epsFor 2 0 delta = 0 := by
      unfold epsFor
      have hb : mexp (-0) = 1 := by simp [mexp]
      rw [if_neg (lt_irrefl _), hb, if_pos (by nlinarith [sq_nonneg delta, pow_pos h0 2])]
    rw [this, max_self]

/-- The hypotheses can be met: integer orders, with the series of the library. -/
example : FracNonneg (fun i : Fin 3 => (i : ℝ) + 2) logAFrac := by
  intro i hi
  exact absurd ⟨(i : ℤ) + 2, by push_cast; rfl⟩ hi

/-- And a history: two Gaussian events, then a Poisson-sampled pair of Gaussian queries. -/
example (frac : ℝ → PyNum → ℝ → EReal) (nr : NeighborRel) : ∃ cs ds, sampleHistory = cs ++ ds ∧ cs ≠ [] ∧ ds ≠ [] ∧ (∀ p ∈ cs ++ ds, WfCounts p.1) ∧
    Quiet (fun i : Fin 3 => (i : ℝ) + 2) frac nr (cs ++ ds) ∧ ∀ e ∈ historyEvents ds, ∀ e' m s, e ≠ .repeatAndSelect e' m s := by
  refine ⟨[(.gaussian (.float 1), 2)], [(.poissonSampled (.float (1 / 2)) (.composed [.gaussian (.float 2), .gaussian (.float 3)]), 1)], rfl,
    by simp, by simp, by simp [WfCounts], Or.inl (by simp [NoRepeat]), ?_⟩
  intro e he e' m s
  simp [historyEvents, expand, repeatList] at he
  rw [he]
  simp

end Verif.Props
