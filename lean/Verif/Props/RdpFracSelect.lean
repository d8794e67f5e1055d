import Verif.Proofs.RdpSelectSlack
import Verif.Props.RdpFracAccountant
import Verif.Props.RdpTotal

/-!
# C62: the RDP accountant with its own function for fractional orders, all supported events

Vocabulary: `Verif/Props/RdpFracAccountant.lean`, `Verif/Spec/RdpSelectSlack.lean` (`hiddenBy`: how much can be missing from the values
of an event when `η` can be missing from those of a Poisson-sampled event). Nothing is assumed about numeric functions.
-/

namespace Verif.Props
open Verif Verif.Spec Verif.Rdp Verif.RdpConv Verif.Frac MeasureTheory ProbabilityTheory

/-- **C62 (partial), Rényi divergences of the accountant, all events.** After any accepted history, the array of the accountant,
increased by `hiddenBy` for every event, bounds the Rényi divergence of the joint output of any adaptive sequence of mechanisms
described by the events. The full claim, without the increase, is false (`C62_series_below_violated`). -/
theorem C62_all_events_curve_partial {n : ℕ} (orders : Fin n → ℝ) (ho : ∀ i, 1 ≤ orders i) (nr : NeighborRel) (l : List (DpEvent × ℤ))
    (hl : ∀ p ∈ l, WfCounts p.1) (hacc : Accepted orders logAFrac nr l) (hcov : ∀ e ∈ historyEvents l, Covered e)
    {A η : ℝ} (hA : ∀ i, orders i ≤ A) (hs : ∀ i, orderSlack (orders i) ≤ η) {Ω : Type} [MeasurableSpace Ω] (P Q : Measure Ω)
    (h : Adaptive ((historyEvents l).map (EventPair nr)) Ω P Q) (i : Fin n) :
    renyiDiv (orders i) P Q ≤ rdpAfter orders logAFrac nr l i + (((historyEvents l).map (hiddenBy A η)).sum : EReal) := by
  unfold rdpAfter
  have hspec := (composeAll_spec (libFns orders logAFrac) nr l hl ⟨RdpAccountant.init, Builder.init⟩ Builder.inv_init).1.1 hacc
  rw [C10_rdp_additive (libFns orders logAFrac) nr l hl hacc]
  have hmem : ∀ a ∈ historyEvents l, RdpAccountant.Elementary a ∧ WfCounts a ∧ RdpAccountant.Ok (libFns orders logAFrac) nr a := by
    intro a ha
    obtain ⟨p, hp, hap⟩ := List.mem_flatMap.1 ha
    have ha' := repeatList_mem hap
    exact ⟨RdpAccountant.elementary_of_mem _ _ ha', wfCounts_mem (hl p hp) ha', (hspec p hp).2.2 a ha'⟩
  have hnear : ∀ a ∈ historyEvents l, 0 ≤ hiddenBy A η a ∧ RdpAccountant.Ok (libFns orders logAFracSafe) nr a ∧
      ∀ i, RdpAccountant.curve (libFns orders logAFracSafe) nr a i ≤
      RdpAccountant.curve (libFns orders logAFrac) nr a i + (hiddenBy A η a : EReal) :=
    fun a ha => atom_near_all ho ((ho i).trans (hA i)) hA ((orderSlack_nonneg (ho i)).trans (hs i)) hs nr _ a (Nat.lt_succ_self _)
      (hmem a ha).1 (hmem a ha).2.1 (hmem a ha).2.2
  refine (sequence_sound (F := libFns orders logAFracSafe) ho (historyEvents l) (fun a ha => ?_) P Q h i).trans ?_
  · exact atom_sound orders ho logAFracSafe C62_fracBound_partial nr _ a (Nat.lt_succ_self _) (hmem a ha).1 (hmem a ha).2.1 (hcov a ha) (hnear a ha).2.1
  · have e : totalRdp (libFns orders logAFrac) nr l i = ((historyEvents l).map fun a => RdpAccountant.curve (libFns orders logAFrac) nr a i).sum := by
      unfold totalRdp
      rw [sum_apply]
      rfl
    rw [e]
    exact sum_near _ fun a ha => (hnear a ha).2.2 i

/-- **C62 (partial), `get_epsilon`, all events.** With `c` the sum of `hiddenBy` over the events: a positive finite `eps` returned by
`get_epsilon(delta)` for `delta > 0` is valid up to `c`; a returned 0 is valid up to `c` and with `√(delta² + c)` in place of `delta`. -/
theorem C62_all_events_epsilon_partial {n : ℕ} (orders : Fin n → ℝ) (ho : ∀ i, 1 ≤ orders i) (nr : NeighborRel) (l : List (DpEvent × ℤ))
    (hl : ∀ p ∈ l, WfCounts p.1) (hacc : Accepted orders logAFrac nr l) (hcov : ∀ e ∈ historyEvents l, Covered e)
    {A η c : ℝ} (hA : ∀ i, orders i ≤ A) (hs : ∀ i, orderSlack (orders i) ≤ η) {Ω : Type} [MeasurableSpace Ω] (P Q : Measure Ω)
    (h : Adaptive ((historyEvents l).map (EventPair nr)) Ω P Q) (hc0 : 0 ≤ c) (hc : ((historyEvents l).map (hiddenBy A η)).sum ≤ c)
    (delta eps a : ℝ) (hd : 0 < delta)
    (he : computeEpsilon (List.ofFn orders) (List.ofFn (rdpAfter orders logAFrac nr l)) delta = .ok ((eps : EReal), a)) :
    (0 < eps → Indist P Q (eps + c) delta) ∧ Indist P Q (eps + c) (Real.sqrt (delta ^ 2 + c)) := by
  obtain ⟨hp, hq⟩ := Adaptive.prob h
  obtain ⟨-, h1, x, hx, -, hxe, -⟩ := computeEpsilon_ok hd he
  refine epsFor_slack (h1 x hx) hd hc0 ?_ eps hxe.symm
  obtain ⟨i, hi, hx'⟩ := List.getElem_of_mem hx
  rw [List.getElem_zip, List.getElem_ofFn, List.getElem_ofFn] at hx'
  rw [← hx']
  exact (C62_all_events_curve_partial orders ho nr l hl hacc hcov hA hs P Q h _).trans (add_le_add_right (by exact_mod_cast hc) _)

/-- **C62 (partial), `get_delta`, all events.** Likewise, the `delta` returned by `get_delta(eps)` is valid at `eps + c`, as
`√(delta² + c)`. -/
theorem C62_all_events_delta_partial {n : ℕ} (orders : Fin n → ℝ) (ho : ∀ i, 1 ≤ orders i) (nr : NeighborRel) (l : List (DpEvent × ℤ))
    (hl : ∀ p ∈ l, WfCounts p.1) (hacc : Accepted orders logAFrac nr l) (hcov : ∀ e ∈ historyEvents l, Covered e)
    {A η c : ℝ} (hA : ∀ i, orders i ≤ A) (hs : ∀ i, orderSlack (orders i) ≤ η) {Ω : Type} [MeasurableSpace Ω] (P Q : Measure Ω)
    (h : Adaptive ((historyEvents l).map (EventPair nr)) Ω P Q) (hc0 : 0 ≤ c) (hc : ((historyEvents l).map (hiddenBy A η)).sum ≤ c)
    (delta eps a : ℝ)
    (he : computeDelta (List.ofFn orders) (List.ofFn (rdpAfter orders logAFrac nr l)) eps = .ok (delta, a)) :
    Indist P Q (eps + c) (Real.sqrt (delta ^ 2 + c)) := by
  obtain ⟨hp, hq⟩ := Adaptive.prob h
  obtain ⟨h0, -, h1, x, hx, -, hxe, -⟩ := computeDelta_ok he
  rw [hxe]
  refine logDelta_slack (h1 x hx) h0 hc0 ?_
  obtain ⟨i, hi, hx'⟩ := List.getElem_of_mem hx
  rw [List.getElem_zip, List.getElem_ofFn, List.getElem_ofFn] at hx'
  rw [← hx']
  exact (C62_all_events_curve_partial orders ho nr l hl hacc hcov hA hs P Q h _).trans (add_le_add_right (by exact_mod_cast hc) _)

/-- A tuned training run: the best of a geometric number of runs, ten on average, each of `T` steps on Poisson samples. -/
noncomputable def tunedRun (T : ℕ) : DpEvent :=
  .repeatAndSelect (.selfComposed (.poissonSampled (.float (1 / 100)) (.gaussian (.float 1))) T) (.float 10) (.int 1)

/-- The hypotheses can be met, and the increase is tiny: a tuned run of any number `T ≥ 1` of steps is accepted at a fractional order, all its
events are covered, and at most `15e-11` is hidden for each step. -/
example (T : ℕ) (hT : 1 ≤ T) : Accepted (fun _ : Fin 1 => 5 / 2) logAFrac .addOrRemoveOne [(tunedRun T, 1)] ∧
    (∀ p ∈ [(tunedRun T, (1 : ℤ))], WfCounts p.1) ∧ (∀ e ∈ historyEvents [(tunedRun T, 1)], Covered e) ∧ orderSlack (5 / 2) ≤ 5e-11 ∧
    ((historyEvents [(tunedRun T, 1)]).map (hiddenBy (5 / 2) 5e-11)).sum = 15e-11 * T := by
  have hin : ∀ a ∈ expand (.selfComposed (.poissonSampled (.float (1 / 100)) (.gaussian (.float 1))) (T : ℤ)),
      a = .poissonSampled (.float (1 / 100)) (.gaussian (.float 1)) := by
    intro a ha
    rw [expand] at ha
    have := repeatList_mem ha
    simpa [expand] using this
  have hH : historyEvents [(tunedRun T, 1)] = [tunedRun T] := by
    simp [historyEvents, tunedRun, expand, repeatList]
  have hx : expand (.selfComposed (.poissonSampled (.float (1 / 100)) (.gaussian (.float 1))) (T : ℤ)) =
      List.replicate T (.poissonSampled (.float (1 / 100)) (.gaussian (.float 1))) := by
    rw [expand, repeatList, expand, Int.toNat_natCast, List.flatten_replicate_singleton] <;> simp
  have hw : WfCounts (tunedRun T) := by simp [tunedRun, WfCounts, hT]
  refine ⟨C82_rdp_accepted_partial one_pos _ (fun _ => by norm_num) _ _ _ fun p hp => ?_, ?_, ?_, ?_, ?_⟩
  · rw [List.mem_singleton] at hp
    subst hp
    refine ⟨le_rfl, hw, fun a ha => ?_⟩
    simp only [tunedRun, expand, List.mem_singleton] at ha
    subst ha
    rw [RdpOk]
    refine ⟨fun a ha => ?_, ?_, by simp [PyNum.val], Or.inr (EReal.coe_ne_top _)⟩
    · rw [hin a (by rw [expand]; exact ha), RdpOk]
      refine ⟨Or.inl rfl, EReal.coe_nonneg.2 (by norm_num), ?_, Or.inl ⟨_, rfl, by simp [PyNum.val]⟩⟩
      show ((1 / 100 : ℝ) : EReal) ≤ 1
      exact_mod_cast (by norm_num : (1 / 100 : ℝ) ≤ 1)
    · show (1 : EReal) ≤ ((10 : ℝ) : EReal)
      exact_mod_cast (by norm_num : (1 : ℝ) ≤ 10)
  · intro p hp
    rw [List.mem_singleton] at hp
    subst hp
    exact hw
  · rw [hH]
    intro e he
    rw [List.mem_singleton] at he
    subst he
    rw [tunedRun, Covered]
    refine ⟨fun a ha => ?_, Or.inr (Or.inl (by simp [PyNum.val]))⟩
    rw [hin a ha, Covered]
    exact Or.inl ⟨.float 1, rfl, by simp [PyNum.val], EReal.coe_ne_top 1⟩
  · exact (C62_order_slack_small (5 / 2) (by norm_num) (fun h => by norm_num at h)).2
  · rw [hH, List.map_singleton, List.sum_singleton, tunedRun, hiddenBy_ras, hx, List.map_replicate, List.sum_replicate, hiddenBy, nsmul_eq_mul]
    have : (PyNum.int 1).val = ((1 : ℝ) : EReal) := by simp [PyNum.val]
    rw [selectError, this, if_neg (EReal.coe_ne_top 1), EReal.toReal_coe]
    ring

end Verif.Props
