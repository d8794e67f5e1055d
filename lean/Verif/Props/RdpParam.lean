import Verif.Proofs.RdpParamEvents

/-!
# C81: milder events never raise what the RDP accountant reports

Vocabulary (`Verif/Spec/Milder.lean`): `Milder e e'`, the event `e` is `e'` with more noise, less sampling, fewer steps, or with a milder
base event; `MilderAll l l'`, each event of `l` is milder than its own event of `l'`; `FracExact orders frac`, `frac` gives the Rényi
divergence at those of the orders that are not integers. `historyEvents l` is the list of elementary events composed by the calls in `l`,
and `rdpAfter orders frac nr l` the `_rdp` array after them, with all functions of the library.
-/

namespace Verif.Props
open Verif Verif.Spec Verif.Rdp Verif.RdpConv Verif.Frac MeasureTheory ProbabilityTheory

lemma rdpAfter_sum {n : ℕ} {orders : Fin n → ℝ} {frac : ℝ → PyNum → ℝ → EReal} {nr : NeighborRel} {l : List (DpEvent × ℤ)}
    (hl : ∀ p ∈ l, WfCounts p.1) (h : Accepted orders frac nr l) :
    (∀ a ∈ historyEvents l, WfCounts a ∧ RdpAccountant.Ok (libFns orders frac) nr a) ∧
    ∀ i, rdpAfter orders frac nr l i = ((historyEvents l).map fun a => RdpAccountant.curve (libFns orders frac) nr a i).sum := by
  have hspec := (composeAll_spec (libFns orders frac) nr l hl ⟨RdpAccountant.init, Builder.init⟩ Builder.inv_init).1.1 h
  refine ⟨fun a ha => ?_, fun i => ?_⟩
  · obtain ⟨p, hp, hap⟩ := List.mem_flatMap.1 ha
    have ha' := repeatList_mem hap
    exact ⟨wfCounts_mem (hl p hp) ha', (hspec p hp).2.2 a ha'⟩
  · unfold rdpAfter
    rw [C10_rdp_additive _ nr l hl h]
    unfold totalRdp
    rw [sum_apply]
    rfl

/-- **C81 (partial), the values.** If each event of one history is milder than its own event of another, then no RDP value after the first
is above the value after the second, for any orders (at least 1). Missing: for orders that are not integers, the function for the
moments is assumed to be exact (`FracExact`; `_compute_log_a_frac` is a truncated series, see C62). -/
theorem C81_rdp_partial {n : ℕ} (orders : Fin n → ℝ) (ho : ∀ i, 1 ≤ orders i) (frac : ℝ → PyNum → ℝ → EReal) (hf : FracNonneg orders frac)
    (hx : FracExact orders frac) (nr : NeighborRel) (l l' : List (DpEvent × ℤ)) (hl : ∀ p ∈ l, WfCounts p.1) (hl' : ∀ p ∈ l', WfCounts p.1)
    (hacc : Accepted orders frac nr l) (hacc' : Accepted orders frac nr l') (h : MilderAll (historyEvents l) (historyEvents l')) (i : Fin n) :
    rdpAfter orders frac nr l i ≤ rdpAfter orders frac nr l' i := by
  obtain ⟨h1, h2⟩ := rdpAfter_sum hl hacc
  obtain ⟨h1', h2'⟩ := rdpAfter_sum hl' hacc'
  rw [h2, h2']
  exact (milder_curve ho hf hx nr).2 _ _ h h1 h1' i

lemma rdpAfter_nonneg {n : ℕ} {orders : Fin n → ℝ} (ho : ∀ i, 1 ≤ orders i) {frac : ℝ → PyNum → ℝ → EReal} (hf : FracNonneg orders frac)
    {nr : NeighborRel} {l : List (DpEvent × ℤ)} (hl : ∀ p ∈ l, WfCounts p.1) (hacc : Accepted orders frac nr l) (i : Fin n) :
    0 ≤ rdpAfter orders frac nr l i := by
  have := C79_rdp orders ho frac hf nr l [] (by simpa using hl) (Or.inr (by simpa using hacc)) i
  exact this.1

/-- **C81 (partial), `get_epsilon`.** Missing: as above. -/
theorem C81_get_epsilon_partial {n : ℕ} (orders : Fin n → ℝ) (ho : ∀ i, 1 ≤ orders i) (frac : ℝ → PyNum → ℝ → EReal) (hf : FracNonneg orders frac)
    (hx : FracExact orders frac) (nr : NeighborRel) (l l' : List (DpEvent × ℤ)) (hl : ∀ p ∈ l, WfCounts p.1) (hl' : ∀ p ∈ l', WfCounts p.1)
    (hacc : Accepted orders frac nr l) (hacc' : Accepted orders frac nr l') (h : MilderAll (historyEvents l) (historyEvents l'))
    (delta a a' : ℝ) (eps eps' : EReal)
    (he : computeEpsilon (List.ofFn orders) (List.ofFn (rdpAfter orders frac nr l)) delta = .ok (eps, a))
    (he' : computeEpsilon (List.ofFn orders) (List.ofFn (rdpAfter orders frac nr l')) delta = .ok (eps', a')) : eps ≤ eps' := by
  refine C36_monotone_in_rdp _ _ _ delta a a' eps eps' ?_ (forall₂_ofFn fun i => C81_rdp_partial orders ho frac hf hx nr l l' hl hl' hacc hacc' h i) he he'
  intro r hr
  obtain ⟨i, rfl⟩ := (List.mem_ofFn' _ _).1 hr
  exact rdpAfter_nonneg ho hf hl hacc i

/-- **C81 (partial), `get_delta`.** Missing: as above. -/
theorem C81_get_delta_partial {n : ℕ} (orders : Fin n → ℝ) (ho : ∀ i, 1 ≤ orders i) (frac : ℝ → PyNum → ℝ → EReal) (hf : FracNonneg orders frac)
    (hx : FracExact orders frac) (nr : NeighborRel) (l l' : List (DpEvent × ℤ)) (hl : ∀ p ∈ l, WfCounts p.1) (hl' : ∀ p ∈ l', WfCounts p.1)
    (hacc : Accepted orders frac nr l) (hacc' : Accepted orders frac nr l') (h : MilderAll (historyEvents l) (historyEvents l'))
    (eps d d' a a' : ℝ)
    (hd : computeDelta (List.ofFn orders) (List.ofFn (rdpAfter orders frac nr l)) eps = .ok (d, a))
    (hd' : computeDelta (List.ofFn orders) (List.ofFn (rdpAfter orders frac nr l')) eps = .ok (d', a')) : d ≤ d' :=
  C79_compute_delta _ _ _ eps d d' a a' (forall₂_ofFn fun i => C81_rdp_partial orders ho frac hf hx nr l l' hl hl' hacc hacc' h i) hd hd'

/-! ## Training runs -/

/-- The event of `n` steps of DP-SGD. -/
def sgdRun (q z : PyNum) (n : ℤ) : List (DpEvent × ℤ) := [(.selfComposed (.poissonSampled q (.gaussian z)) n, 1)]

lemma sgd_history (q z : PyNum) (n : ℤ) : historyEvents (sgdRun q z n) = List.replicate n.toNat (.poissonSampled q (.gaussian z)) := by
  simp [historyEvents, sgdRun, expand, repeatList, ← List.map_flatten]

lemma milder_replicate {e e' : DpEvent} (h : Milder e e') {m m' : ℕ} (hm : m ≤ m') : MilderAll (List.replicate m e) (List.replicate m' e') := by
  induction m' generalizing m with
  | zero =>
    obtain rfl : m = 0 := by omega
    exact .nil _
  | succ m' ih =>
    cases m with
    | zero => exact .nil _
    | succ m => exact .cons _ _ _ _ h (ih (by omega))

/-- The accountant accepts a training run. -/
lemma sgd_accepted {k : ℕ} {orders : Fin k → ℝ} (ho : ∀ i, 1 < orders i) (frac : ℝ → PyNum → ℝ → EReal) {nr : NeighborRel} (hnr : nr ≠ .replaceOne)
    {q z : PyNum} (hq0 : 0 ≤ q.val) (hq1 : q.val ≤ 1) (hz : 0 ≤ z.val) {n : ℤ} (hn : 1 ≤ n) :
    (∀ p ∈ sgdRun q z n, WfCounts p.1) ∧ Accepted orders frac nr (sgdRun q z n) := by
  have hw : ∀ p ∈ sgdRun q z n, WfCounts p.1 := by
    intro p hp
    simp only [sgdRun, List.mem_singleton] at hp
    subst hp
    simp [WfCounts, hn]
  have hen : effNoise (.gaussian z) = .ok (.num z) := by simp [effNoise]
  have hnr' : nr = .addOrRemoveOne ∨ nr = .replaceSpecial := by cases nr <;> simp at hnr ⊢
  refine ⟨hw, (composeAll_spec _ _ _ hw _ Builder.inv_init).1.2 fun p hp => ?_⟩
  simp only [sgdRun, List.mem_singleton] at hp
  subst hp
  have hone : ∀ i, ∃ r, poissonOneOrder frac q.val.toReal z (orders i : EReal) = .ok r := by
    intro i
    unfold poissonOneOrder
    split_ifs with c1 c2 c3 c4
    · exact ⟨_, rfl⟩
    · exact ⟨_, rfl⟩
    · exact ⟨_, rfl⟩
    · have : orders i = 1 := by exact_mod_cast c4
      exact absurd this (ho i).ne'
    · exact ⟨_, rfl⟩
  choose r hr using hone
  have hok : RdpAccountant.Ok (libFns orders frac) nr (.poissonSampled q (.gaussian z)) := by
    have hp : poissonGaussian frac (fun i => (orders i : EReal)) q (.num z) = .ok r := by
      rw [poissonGaussian, if_neg (not_not.2 ⟨hq0, hq1⟩), if_neg (not_lt.2 hz)]
      exact collect_of_ok hr
    simp only [RdpAccountant.Ok, RdpAccountant.maybeCompose, hen, if_true]
    rw [if_pos hnr']
    simp only [libFns, fns]
    rw [hp]
    rfl
  refine ⟨by simp [RdpAccountant.verdict, RdpAccountant.maybeCompose, hen, hnr'], by simp, fun a ha => ?_⟩
  simp only [expand] at ha
  have := repeatList_mem ha
  simp only [expand, List.mem_singleton] at this
  subst this
  exact hok

/-- **C81 (partial), DP-SGD.** The accountant accepts every training run with a sampling probability between 0 and 1 and finite noise that is
not negative, and `get_epsilon` does not return less when the number of steps or the sampling probability is larger or the noise
multiplier is smaller. Missing: as above. -/
theorem C81_dp_sgd_partial {k : ℕ} (orders : Fin k → ℝ) (ho : ∀ i, 1 < orders i) (frac : ℝ → PyNum → ℝ → EReal) (hf : FracNonneg orders frac)
    (hx : FracExact orders frac) (nr : NeighborRel) (hnr : nr ≠ .replaceOne) (q q' z z' : PyNum) (n n' : ℤ) (hn : 1 ≤ n) (hnn : n ≤ n')
    (hq0 : 0 ≤ q.val) (hq : q.val ≤ q'.val) (hq1 : q'.val ≤ 1) (hz0 : 0 ≤ z'.val) (hz : z'.val ≤ z.val) (hfin : z.val ≠ ⊤) :
    (Accepted orders frac nr (sgdRun q z n) ∧ Accepted orders frac nr (sgdRun q' z' n')) ∧
    (∀ i, rdpAfter orders frac nr (sgdRun q z n) i ≤ rdpAfter orders frac nr (sgdRun q' z' n') i) ∧
    ∀ (delta a a' : ℝ) (eps eps' : EReal),
      computeEpsilon (List.ofFn orders) (List.ofFn (rdpAfter orders frac nr (sgdRun q z n))) delta = .ok (eps, a) →
      computeEpsilon (List.ofFn orders) (List.ofFn (rdpAfter orders frac nr (sgdRun q' z' n'))) delta = .ok (eps', a') → eps ≤ eps' := by
  obtain ⟨w, acc⟩ := sgd_accepted (fun i => ho i) frac hnr hq0 (hq.trans hq1) (hz0.trans hz) hn
  obtain ⟨w', acc'⟩ := sgd_accepted (fun i => ho i) frac hnr (hq0.trans hq) hq1 hz0 (hn.trans hnn)
  have hm : MilderAll (historyEvents (sgdRun q z n)) (historyEvents (sgdRun q' z' n')) := by
    rw [sgd_history, sgd_history]
    exact milder_replicate (.sampled q q' z z' hq hz hfin) (by omega)
  exact ⟨⟨acc, acc'⟩, C81_rdp_partial orders (fun i => (ho i).le) frac hf hx nr _ _ w w' acc acc' hm,
    fun delta a a' eps eps' => C81_get_epsilon_partial orders (fun i => (ho i).le) frac hf hx nr _ _ w w' acc acc' hm delta a a' eps eps'⟩

/-- **C81, infinite noise.** With the series of the library the claim is false for infinite noise on a sample: at order 2.5 one step with noise
multiplier 1 and a tiny sampling probability has a finite RDP value, but with an infinite noise multiplier the value is infinite. -/
theorem C81_infinite_noise_violated (nr : NeighborRel) (hnr : nr ≠ .replaceOne) :
    let orders : Fin 1 → ℝ := fun _ => 5 / 2
    let q : PyNum := .float (Real.exp (-80))
    (Accepted orders logAFrac nr (sgdRun q (.float 1) 1) ∧ Accepted orders logAFrac nr (sgdRun q .inf 1)) ∧
    rdpAfter orders logAFrac nr (sgdRun q (.float 1) 1) 0 < ⊤ ∧ rdpAfter orders logAFrac nr (sgdRun q .inf 1) 0 = ⊤ := by
  intro orders q
  obtain ⟨h0, h1⟩ := witness_q
  have h1' : Real.exp (-80) < 1 := by linarith
  have hq0 : 0 ≤ q.val := by simp only [q, PyNum.val]; exact_mod_cast h0.le
  have hq1 : q.val ≤ 1 := by simp only [q, PyNum.val]; exact_mod_cast h1'.le
  have ho : ∀ i, 1 < orders i := fun i => by norm_num [orders]
  obtain ⟨w, acc⟩ := sgd_accepted ho logAFrac hnr hq0 hq1 (z := .float 1) (by simp [PyNum.val]) (le_refl 1)
  obtain ⟨w', acc'⟩ := sgd_accepted ho logAFrac hnr hq0 hq1 (z := .inf) (by simp [PyNum.val]) (le_refl 1)
  have hnr' : nr = .addOrRemoveOne ∨ nr = .replaceSpecial := by cases nr <;> simp at hnr ⊢
  have val : ∀ z : PyNum, 0 < z.val → Accepted orders logAFrac nr (sgdRun q z 1) → (∀ p ∈ sgdRun q z 1, WfCounts p.1) →
      rdpAfter orders logAFrac nr (sgdRun q z 1) 0 = logAFrac (Real.exp (-80)) z (5 / 2) * (((5 / 2 - 1)⁻¹ : ℝ) : EReal) := by
    intro z hz acc w
    obtain ⟨g1, g2⟩ := rdpAfter_sum w acc
    have e : historyEvents (sgdRun q z 1) = [.poissonSampled q (.gaussian z)] := by rw [sgd_history]; rfl
    rw [g2, e]
    rw [e] at g1
    have ok := (g1 (.poissonSampled q (.gaussian z)) (by simp)).2
    simp only [List.map_cons, List.map_nil, List.sum_cons, List.sum_nil, add_zero]
    simp only [RdpAccountant.Ok, RdpAccountant.curve, RdpAccountant.maybeCompose, if_true, effNoise] at ok ⊢
    rw [if_pos hnr'] at ok
    rw [if_pos hnr']
    obtain ⟨a, ha, hc⟩ := addTo_curve ok
    rw [hc]
    have ha : poissonGaussian logAFrac (fun i => (orders i : EReal)) q (.num z) = .ok a := ha
    rw [poissonGaussian, if_neg (not_not.2 ⟨hq0, hq1⟩), if_neg (not_lt.2 hz.le)] at ha
    have hv := collect_ok ha 0
    have hq : q.val.toReal = Real.exp (-80) := by simp only [q, PyNum.val, EReal.toReal_coe]
    rw [hq, poissonOneOrder, if_neg h0.ne', if_neg (by push Not; exact ⟨EReal.coe_ne_top _, hz.ne'⟩), if_neg h1'.ne, if_neg (by
      intro h
      have : (5 / 2 : ℝ) = 1 := by exact_mod_cast h
      norm_num at this), EReal.toReal_coe, logA, dif_neg frac_five_halves, Except.ok.injEq] at hv
    exact hv.symm
  refine ⟨⟨acc, acc'⟩, ?_, ?_⟩
  · rw [val _ (by simp [PyNum.val]) acc w]
    obtain ⟨N, -, hv⟩ := witness_stops
    have e : logAFrac (Real.exp (-80)) (.float 1) (5 / 2) = logAFracReal (Real.exp (-80)) 1 (5 / 2) := rfl
    rw [e, hv, ← EReal.coe_mul]
    exact EReal.coe_lt_top _
  · rw [val _ (by simp [PyNum.val]) acc' w']
    exact EReal.top_mul_coe_of_pos (by norm_num)

lemma exact_frac {n : ℕ} (orders : Fin n → ℝ) (ho : ∀ i, 1 ≤ orders i) : ∃ frac, FracNonneg orders frac ∧ FracExact orders frac := by
  refine ⟨fun q sigma α => ((α - 1 : ℝ) : EReal) * sampledDiv q sigma.val.toReal α, fun i hi q sigma h0 h1 _ => ?_, fun i hi q z sigma h0 h1 hz hs => ?_⟩
  · refine EReal.mul_nonneg (by exact_mod_cast (by linarith [ho i] : (0 : ℝ) ≤ orders i - 1)) (sampledDiv_nonneg h0.le h1.le (ho i) _)
  · have h1 : orders i ≠ 1 := fun h => hi ⟨1, by rw [h]; simp⟩
    beta_reduce
    rw [hs, EReal.toReal_coe, mul_comm, ← mul_assoc, ← EReal.coe_mul, inv_mul_cancel₀ (sub_ne_zero.2 h1), EReal.coe_one, one_mul]

/-! ## Samples drawn without replacement -/

/-- The event of `k` steps, each a Gaussian query on `m` of `n` records drawn without replacement. -/
def worRun (n m : ℤ) (z : PyNum) (k : ℤ) : List (DpEvent × ℤ) := [(.selfComposed (.sampledWithoutReplacement n m (.gaussian z)) k, 1)]

lemma wor_history (n m : ℤ) (z : PyNum) (k : ℤ) :
    historyEvents (worRun n m z k) = List.replicate k.toNat (.sampledWithoutReplacement n m (.gaussian z)) := by
  simp [historyEvents, worRun, expand, repeatList, ← List.map_flatten]

/-- The accountant accepts such a run, and no function for the moments at fractional orders is used. -/
lemma wor_accepted {d : ℕ} {orders : Fin d → ℝ} (ho : ∀ i, 1 < orders i) (frac : ℝ → PyNum → ℝ → EReal) {n m : ℤ} (hm : 0 ≤ m) (hn : 0 < n)
    (hmn : m ≤ n) {z : PyNum} {x : ℝ} (hz : z.val = (x : EReal)) (hx : 0 < x) {k : ℤ} (hk : 1 ≤ k) :
    (∀ p ∈ worRun n m z k, WfCounts p.1) ∧ Accepted orders frac .replaceOne (worRun n m z k) := by
  have hw : ∀ p ∈ worRun n m z k, WfCounts p.1 := by
    intro p hp
    simp only [worRun, List.mem_singleton] at hp
    subst hp
    simp [WfCounts, hk]
  have hen : effNoise (.gaussian z) = .ok (.num z) := by simp [effNoise]
  refine ⟨hw, (composeAll_spec _ _ _ hw _ Builder.inv_init).1.2 fun p hp => ?_⟩
  simp only [worRun, List.mem_singleton] at hp
  subst hp
  have hnR : (0 : ℝ) < n := by exact_mod_cast hn
  have h0 : 0 ≤ (m / n : ℝ) := div_nonneg (by exact_mod_cast hm) hnR.le
  have h1 : (m / n : ℝ) ≤ 1 := by rw [div_le_one hnR]; exact_mod_cast hmn
  have hone : ∀ i, ∃ r, worScalar (m / n : ℝ) z (orders i : EReal) = .ok r := by
    intro i
    have hoi := ho i
    unfold worScalar
    rw [if_neg (not_not.2 ⟨h1, h0, by exact_mod_cast hoi.le⟩)]
    by_cases c1 : (m / n : ℝ) = 0
    · rw [if_pos c1]; exact ⟨_, rfl⟩
    rw [if_neg c1]
    have hpos : 0 < (m / n : ℝ) := lt_of_le_of_ne h0 (Ne.symm c1)
    by_cases c2 : (m / n : ℝ) = 1
    · rw [if_pos c2, if_neg (by rw [hz]; exact_mod_cast hx.ne')]; exact ⟨_, rfl⟩
    rw [if_neg c2, if_neg (EReal.coe_ne_top _), if_neg (by
      intro h
      have : orders i = 1 := by exact_mod_cast h
      exact hoi.ne' this)]
    have hfl : 1 ≤ ⌊orders i⌋₊ := Nat.le_floor (by simpa using hoi.le)
    obtain ⟨a, ha, -⟩ := Wor.worInt_eq hpos hx hz _ hfl
    obtain ⟨b, hb, -⟩ := Wor.worInt_eq hpos hx hz _ (hfl.trans (Nat.floor_le_ceil _))
    simp only
    split_ifs with c3
    · rw [EReal.toReal_coe, ha]; exact ⟨_, rfl⟩
    · rw [EReal.toReal_coe, ha, hb]; exact ⟨_, rfl⟩
  choose r hr using hone
  have hok : RdpAccountant.Ok (libFns orders frac) .replaceOne (.sampledWithoutReplacement n m (.gaussian z)) := by
    have hp : wor (fun i => (orders i : EReal)) (m / n : ℝ) (.num z) = .ok r := collect_of_ok hr
    simp only [RdpAccountant.Ok, RdpAccountant.maybeCompose, hen, if_true, RdpAccountant.ratio, hn.ne', if_false]
    simp only [libFns, fns]
    rw [hp]
    rfl
  refine ⟨by simp [RdpAccountant.verdict, RdpAccountant.maybeCompose, hen], by simp, fun a ha => ?_⟩
  simp only [expand] at ha
  have := repeatList_mem ha
  simp only [expand, List.mem_singleton] at this
  subst this
  exact hok

/-- **C81, samples drawn without replacement.** The accountant accepts every run of steps on samples of `m` of `n` records with finite positive
noise; and with larger samples, of smaller data sets, more steps or less noise it reports no less, at all orders above 1, as long as the
larger sample is not the whole data set. -/
theorem C81_sample_size {d : ℕ} (orders : Fin d → ℝ) (ho : ∀ i, 1 < orders i) (frac : ℝ → PyNum → ℝ → EReal) (n n' m m' k k' : ℤ) (z z' : PyNum)
    (hm : 0 ≤ m) (hmm : m ≤ m') (hn' : m' < n') (hnn : n' ≤ n) (hk : 1 ≤ k) (hkk : k ≤ k') (hz' : 0 < z'.val) (hzz : z'.val ≤ z.val)
    (hz : z.val ≠ ⊤) :
    (Accepted orders frac .replaceOne (worRun n m z k) ∧ Accepted orders frac .replaceOne (worRun n' m' z' k')) ∧
    (∀ i, rdpAfter orders frac .replaceOne (worRun n m z k) i ≤ rdpAfter orders frac .replaceOne (worRun n' m' z' k') i) ∧
    ∀ (delta a a' : ℝ) (eps eps' : EReal),
      computeEpsilon (List.ofFn orders) (List.ofFn (rdpAfter orders frac .replaceOne (worRun n m z k))) delta = .ok (eps, a) →
      computeEpsilon (List.ofFn orders) (List.ofFn (rdpAfter orders frac .replaceOne (worRun n' m' z' k'))) delta = .ok (eps', a') → eps ≤ eps' := by
  have fin : ∀ z : PyNum, 0 < z.val → z.val ≠ ⊤ → z.val = ((z.val.toReal : ℝ) : EReal) ∧ 0 < z.val.toReal := by
    intro z h0 ht
    have e : z.val = ((z.val.toReal : ℝ) : EReal) := (EReal.coe_toReal ht (by intro e; rw [e] at h0; simp at h0)).symm
    exact ⟨e, EReal.toReal_pos h0 ht⟩
  have hz0 := hz'.trans_le hzz
  have hzt : z'.val ≠ ⊤ := fun e => hz (top_le_iff.1 (e ▸ hzz))
  obtain ⟨ez, pz⟩ := fin z hz0 hz
  obtain ⟨ez', pz'⟩ := fin z' hz' hzt
  obtain ⟨fr, h1, h2⟩ := exact_frac orders fun i => (ho i).le
  have acc := fun fr => wor_accepted ho fr hm (by omega : 0 < n) (by omega) ez pz hk
  have acc' := fun fr => wor_accepted ho fr (by omega : 0 ≤ m') (by omega : 0 < n') (by omega) ez' pz' (hk.trans hkk)
  have hmild : MilderAll (historyEvents (worRun n m z k)) (historyEvents (worRun n' m' z' k')) := by
    rw [wor_history, wor_history]
    have hmR : (m : ℝ) ≤ m' := by exact_mod_cast hmm
    have hnR : (n' : ℝ) ≤ n := by exact_mod_cast hnn
    have h0R : (0 : ℝ) ≤ m := by exact_mod_cast hm
    have hlt : (m' : ℝ) < n' := by exact_mod_cast hn'
    refine milder_replicate (.withoutReplacement _ _ _ _ _ _ (Or.inl ⟨z, rfl, hz0, hz⟩) (Or.inl ⟨z', rfl, hz', hzt⟩) ?_ (Or.inl ?_) ?_) (by omega)
    · exact div_le_div₀ (by linarith) hmR (by linarith) hnR
    · rw [div_lt_one (by linarith)]; exact hlt
    · simp only [totalPrecision, noises, expand, List.map_cons, List.map_nil, List.sum_cons, List.sum_nil, add_zero]
      have : z'.val.toReal ≤ z.val.toReal := by rw [ez, ez'] at hzz; exact_mod_cast hzz
      gcongr
  have indep : ∀ (n m k : ℤ) (z : PyNum), (∀ fr, (∀ p ∈ worRun n m z k, WfCounts p.1) ∧ Accepted orders fr .replaceOne (worRun n m z k)) →
      rdpAfter orders frac .replaceOne (worRun n m z k) = rdpAfter orders fr .replaceOne (worRun n m z k) := by
    intro n m k z h
    funext i
    rw [(rdpAfter_sum (h frac).1 (h frac).2).2, (rdpAfter_sum (h fr).1 (h fr).2).2, wor_history, List.map_replicate, List.map_replicate]
    have e : ∀ fr, RdpAccountant.curve (libFns orders fr) .replaceOne (.sampledWithoutReplacement n m (.gaussian z)) i =
        RdpAccountant.curve (libFns orders frac) .replaceOne (.sampledWithoutReplacement n m (.gaussian z)) i := fun fr => by
      simp only [RdpAccountant.curve, RdpAccountant.maybeCompose, libFns, fns]
    rw [e fr]
  refine ⟨⟨(acc frac).2, (acc' frac).2⟩, ?_⟩
  rw [indep _ _ _ _ acc, indep _ _ _ _ acc']
  exact ⟨C81_rdp_partial orders (fun i => (ho i).le) fr h1 h2 .replaceOne _ _ (acc fr).1 (acc' fr).1 (acc fr).2 (acc' fr).2 hmild,
    fun delta a a' eps eps' => C81_get_epsilon_partial orders (fun i => (ho i).le) fr h1 h2 .replaceOne _ _ (acc fr).1 (acc' fr).1 (acc fr).2
      (acc' fr).2 hmild delta a a' eps eps'⟩

/-- **C81, almost the whole data set.** A sample of 99 of 100 records has a larger RDP value than the whole data set, at order 2 with noise
multiplier 1. -/
theorem C81_whole_sample_violated (frac : ℝ → PyNum → ℝ → EReal) :
    let orders : Fin 1 → ℝ := fun _ => 2
    (Accepted orders frac .replaceOne (worRun 100 99 (.float 1) 1) ∧ Accepted orders frac .replaceOne (worRun 100 100 (.float 1) 1)) ∧
    rdpAfter orders frac .replaceOne (worRun 100 100 (.float 1) 1) 0 < rdpAfter orders frac .replaceOne (worRun 100 99 (.float 1) 1) 0 := by
  intro orders
  have ho : ∀ i, 1 < orders i := fun i => by norm_num [orders]
  have acc := fun (m : ℤ) (h : 0 ≤ m ∧ m ≤ 100) => wor_accepted ho frac h.1 (by norm_num : (0 : ℤ) < 100) h.2 (z := .float 1) (x := 1) rfl one_pos (le_refl 1)
  have val : ∀ (m : ℤ), 0 ≤ m ∧ m ≤ 100 → worScalar (m / 100 : ℝ) (.float 1) (2 : ℝ) = .ok (rdpAfter orders frac .replaceOne (worRun 100 m (.float 1) 1) 0) := by
    intro m hm
    obtain ⟨w, a⟩ := acc m hm
    obtain ⟨g1, g2⟩ := rdpAfter_sum w a
    have e : historyEvents (worRun 100 m (.float 1) 1) = [.sampledWithoutReplacement 100 m (.gaussian (.float 1))] := by rw [wor_history]; rfl
    rw [g2, e]
    rw [e] at g1
    have ok := (g1 _ (List.mem_singleton_self _)).2
    simp only [List.map_cons, List.map_nil, List.sum_cons, List.sum_nil, add_zero]
    simp only [RdpAccountant.Ok, RdpAccountant.curve, RdpAccountant.maybeCompose, if_true, effNoise, RdpAccountant.ratio] at ok ⊢
    rw [if_neg (by norm_num)] at ok
    rw [if_neg (by norm_num)]
    simp only at ok ⊢
    obtain ⟨b, hb, hc⟩ := addTo_curve ok
    rw [hc]
    exact_mod_cast collect_ok hb 0
  refine ⟨⟨(acc 99 (by norm_num)).2, (acc 100 (by norm_num)).2⟩, ?_⟩
  have v1 := val 100 (by norm_num)
  have v2 := val 99 (by norm_num)
  generalize rdpAfter orders frac .replaceOne (worRun 100 100 (.float 1) 1) 0 = A at *
  generalize rdpAfter orders frac .replaceOne (worRun 100 99 (.float 1) 1) 0 = B at *
  have one : ((1 : ℤ) : ℝ) = 1 := by norm_num
  have hA : A = 1 := by
    unfold worScalar at v1
    rw [if_neg (not_not.2 ⟨by norm_num, by norm_num, by exact_mod_cast one_le_two⟩), if_neg (by norm_num), if_pos (by norm_num), if_neg (by simp [PyNum.val]), Except.ok.injEq] at v1
    rw [← v1, halfInvSq_eq (z := 1) rfl, ← EReal.coe_mul]
    norm_num
  have hB : B = ((Real.log (Wor.worMoment (Wor.worB 1 2) (99 / 100) 2) : ℝ) : EReal) := by
    obtain ⟨x, hx, ex⟩ := Wor.worInt_eq (q := 99 / 100) (z := 1) (sigma := .float 1) (by norm_num) one_pos rfl 2 (by norm_num)
    unfold worScalar at v2
    rw [if_neg (not_not.2 ⟨by norm_num, by norm_num, by exact_mod_cast one_le_two⟩), if_neg (by norm_num), if_neg (by norm_num), if_neg (EReal.coe_ne_top _), if_neg (by
      intro h
      have : (2 : ℝ) = 1 := by exact_mod_cast h
      norm_num at this)] at v2
    simp only at v2
    rw [if_pos ⟨2, by rw [EReal.toReal_coe]; norm_num⟩, EReal.toReal_coe] at v2
    have f : ⌊(2 : ℝ)⌋₊ = 2 := by norm_num
    have e99 : (((99 : ℤ) : ℝ) / 100) = 99 / 100 := by norm_num
    rw [f, e99, hx] at v2
    simp only [Except.ok.injEq] at v2
    rw [← v2, toEReal_of_expLog ex (Wor.worMoment_pos (by norm_num) 2 2), ← EReal.coe_mul]
    norm_num
  rw [hA, hB]
  have key : Real.exp 1 < Wor.worMoment (Wor.worB 1 2) (99 / 100) 2 := by
    have e1 := Real.exp_one_gt_d9
    have e2 := Real.exp_one_lt_d9
    simp only [Wor.worMoment, Finset.Icc_self, Finset.sum_singleton, Wor.worB, true_or, if_true, Wor.ternaryBound, Wor.diffMoment]
    norm_num [Finset.sum_range_succ, Nat.choose]
    rw [min_eq_right (by linarith)]
    linarith
  have : (1 : ℝ) < Real.log (Wor.worMoment (Wor.worB 1 2) (99 / 100) 2) := by
    have := Real.log_lt_log (Real.exp_pos _) key
    rwa [Real.log_exp] at this
  exact_mod_cast this

/-- The assumptions on `frac` can be met: nothing is asked at integer orders, so that the series of the library will do there; and there is
an exact function for all orders. -/
example : FracNonneg (fun i : Fin 3 => (i : ℝ) + 2) logAFrac ∧ FracExact (fun i : Fin 3 => (i : ℝ) + 2) logAFrac :=
  ⟨fun i hi => absurd ⟨(i : ℤ) + 2, by push_cast; rfl⟩ hi, fun i hi => absurd ⟨(i : ℤ) + 2, by push_cast; rfl⟩ hi⟩

example {n : ℕ} (orders : Fin n → ℝ) (ho : ∀ i, 1 ≤ orders i) : ∃ frac, FracNonneg orders frac ∧ FracExact orders frac := exact_frac orders ho

/-- And a pair of histories: a training run, and a longer one with less noise followed by a release of the data. -/
example : MilderAll (historyEvents (sgdRun (.float (1 / 100)) (.float 2) 10))
    (historyEvents (sgdRun (.float (1 / 50)) (.float 1) 20 ++ [(.nonPrivate, 1)])) := by
  have e : ∀ a b, historyEvents (a ++ b) = historyEvents a ++ historyEvents b := fun a b => by simp [historyEvents]
  have app : ∀ l l' m, MilderAll l l' → MilderAll l (l' ++ m) := by
    intro l l' m h
    induction l' generalizing l with
    | nil => cases h; exact .nil _
    | cons a l' ih =>
      cases h with
      | nil => exact .nil _
      | cons e e' l l' h1 h2 => exact .cons _ _ _ _ h1 (ih _ h2)
      | skip e' l l' h => exact .skip _ _ _ (ih _ h)
  rw [e, sgd_history, sgd_history]
  refine app _ _ _ (milder_replicate (.sampled _ _ _ _ ?_ ?_ ?_) (by norm_num))
  · simp only [PyNum.val]; exact_mod_cast (by norm_num : (1 / 100 : ℝ) ≤ 1 / 50)
  · simp only [PyNum.val]; exact_mod_cast (by norm_num : (1 : ℝ) ≤ 2)
  · exact EReal.coe_ne_top _

/-- Two queries with noise 3 on a smaller sample are milder than one with noise 2. -/
example : Milder (.sampledWithoutReplacement 1000 10 (.composed [.gaussian (.float 3), .gaussian (.float 3)])) (.sampledWithoutReplacement 1000 20 (.gaussian (.float 2))) := by
  refine .withoutReplacement _ _ _ _ _ _ (Or.inr ?_) (Or.inl ⟨.float 2, rfl, ?_, EReal.coe_ne_top _⟩) (by norm_num) (Or.inl (by norm_num)) ?_
  · refine ⟨by simp, ?_⟩
    norm_num [FloatGaussians, FloatGaussiansL]
  · simp only [PyNum.val]; exact_mod_cast (by norm_num : (0 : ℝ) < 2)
  · norm_num [totalPrecision, noises, expand, expandList, PyNum.val]

/-- Runs that meet the assumptions of `C81_sample_size`. -/
example (frac : ℝ → PyNum → ℝ → EReal) (i : Fin 1) :
    rdpAfter (fun _ : Fin 1 => 5 / 2) frac .replaceOne (worRun 1000 10 (.float 2) 5) i ≤
      rdpAfter (fun _ : Fin 1 => 5 / 2) frac .replaceOne (worRun 900 20 (.int 1) 7) i :=
  (C81_sample_size (fun _ : Fin 1 => 5 / 2) (fun _ => by norm_num) frac 1000 900 10 20 5 7 (.float 2) (.int 1) (by norm_num) (by norm_num) (by norm_num)
    (by norm_num) (by norm_num) (by norm_num) (by simp [PyNum.val]) (by simp only [PyNum.val]; exact_mod_cast (by norm_num : ((1 : ℤ) : ℝ) ≤ 2))
    (EReal.coe_ne_top _)).2.1 i

end Verif.Props
