import Verif.Proofs.RdpTight
import Verif.Props.RdpEndToEnd

/-!
# C88: the RDP accountant reports exactly the Rényi divergence

`rdpAfter` is the `_rdp` array after a history of `compose` calls (`Verif/Props/RdpEndToEnd.lean`); `Adaptive` runs mechanisms one after the
other, each one chosen depending on earlier outputs; `EventPair` is the set of mechanisms that an event describes; `RenyiTight` (all in
`Verif/Spec`) lists the events for which nothing is lost.
-/

namespace Verif.Props
open Verif Verif.Spec Verif.Rdp Verif.RdpConv MeasureTheory ProbabilityTheory

lemma RenyiTight.covered {α : ℝ} {e : DpEvent} (h : RenyiTight α e) : Covered e := by
  cases e with
  | poissonSampled q e => rw [Covered]; exact h.2
  | sampledWithoutReplacement => exact h.elim
  | repeatAndSelect => exact h.elim
  | _ => simp [Covered]

lemma RenyiTight.noRepeat {α : ℝ} {e : DpEvent} (h : RenyiTight α e) : ∀ e' m s, e ≠ .repeatAndSelect e' m s := by
  rintro e' m s rfl
  exact h

/-- **C88 (partial).** After any accepted history of events, the value at an order above one is the largest Rényi divergence of the joint output
of mechanisms that these events describe, run one after the other: it bounds the divergence of all of them, and some of them have exactly this
divergence. So nothing is counted that is not spent. Missing: sampling without replacement and `RepeatAndSelect`, for which the claim
is false (`Verif/Props/RdpNotTight.lean`); Laplace noise at orders below 1.1 and Poisson samples at fractional orders, where the value is a truncated series. -/
theorem C88_rdp_tight_partial {n : ℕ} (orders : Fin n → ℝ) (frac : ℝ → PyNum → ℝ → EReal) (nr : NeighborRel) (l : List (DpEvent × ℤ))
    (hl : ∀ p ∈ l, WfCounts p.1) (hacc : Accepted orders frac nr l) (i : Fin n) (hα : 1 < orders i)
    (ht : ∀ e ∈ historyEvents l, RenyiTight (orders i) e) :
    IsGreatest {r | ∃ (Ω : Type) (_ : MeasurableSpace Ω) (P Q : Measure Ω), Adaptive ((historyEvents l).map (EventPair nr)) Ω P Q ∧
      renyiDiv (orders i) P Q = r} (rdpAfter orders frac nr l i) := by
  have hspec := (composeAll_spec (libFns orders frac) nr l hl ⟨RdpAccountant.init, Builder.init⟩ Builder.inv_init).1.1 hacc
  have hmem : ∀ a ∈ historyEvents l, RdpAccountant.Elementary a ∧ RdpAccountant.Ok (libFns orders frac) nr a := by
    intro a ha
    obtain ⟨p, hp, hap⟩ := List.mem_flatMap.1 ha
    have ha' := repeatList_mem hap
    exact ⟨RdpAccountant.elementary_of_mem _ _ ha', (hspec p hp).2.2 a ha'⟩
  have hval : rdpAfter orders frac nr l i = ((historyEvents l).map fun a => RdpAccountant.curve (libFns orders frac) nr a i).sum := by
    unfold rdpAfter
    rw [C10_rdp_additive (libFns orders frac) nr l hl hacc]
    unfold totalRdp
    rw [sum_apply]
    rfl
  have hle : ∀ (Ω : Type) [MeasurableSpace Ω] (P Q : Measure Ω), Adaptive ((historyEvents l).map (EventPair nr)) Ω P Q →
      renyiDiv (orders i) P Q ≤ rdpAfter orders frac nr l i := by
    intro Ω _ P Q h
    rw [hval]
    refine C37_sequence (orders i) hα.le ((historyEvents l).map fun a => RdpAccountant.curve (libFns orders frac) nr a i) P Q (h.mono ?_)
    rw [List.map_map, List.forall₂_map_left_iff, List.forall₂_map_right_iff, List.forall₂_same]
    intro a ha Ω _ P Q _ _ hpair
    exact ⟨inferInstance, inferInstance, atom_sound_base orders frac _ nr a i (.inl (ht a ha)) (hmem a ha).1 (RenyiTight.covered (ht a ha)) (RenyiTight.noRepeat (ht a ha))
      (hmem a ha).2 hα.le P Q hpair⟩
  refine ⟨?_, ?_⟩
  · obtain ⟨Ω, _, P, Q, -, -, h1, h2⟩ := Attains.list hα ((historyEvents l).map fun a => (EventPair nr a, RdpAccountant.curve (libFns orders frac) nr a i)) (by
      intro x hx
      obtain ⟨a, ha, rfl⟩ := List.mem_map.1 hx
      exact atom_attains orders frac _ nr a (hmem a ha).1 i hα (ht a ha) (hmem a ha).2)
    rw [List.map_map] at h1 h2
    have h1' : Adaptive ((historyEvents l).map (EventPair nr)) Ω P Q := h1
    refine ⟨Ω, _, P, Q, h1', le_antisymm (hle Ω P Q h1') ?_⟩
    rw [hval]
    exact h2
  · rintro r ⟨Ω, _, P, Q, h, rfl⟩
    exact hle Ω P Q h

/-- **C88 (partial), comparison.** A history that describes no mechanisms but those of another history never gets a larger value; in particular
two histories that describe the same mechanisms get the same values, however they are nested, ordered or split over calls. -/
theorem C88_fewer_mechanisms_partial {n : ℕ} (orders : Fin n → ℝ) (frac : ℝ → PyNum → ℝ → EReal) (nr : NeighborRel) (l l' : List (DpEvent × ℤ))
    (hl : ∀ p ∈ l, WfCounts p.1) (hl' : ∀ p ∈ l', WfCounts p.1) (hacc : Accepted orders frac nr l) (hacc' : Accepted orders frac nr l') (i : Fin n)
    (hα : 1 < orders i) (ht : ∀ e ∈ historyEvents l, RenyiTight (orders i) e) (ht' : ∀ e ∈ historyEvents l', RenyiTight (orders i) e)
    (h : ∀ (Ω : Type) [MeasurableSpace Ω] (P Q : Measure Ω), Adaptive ((historyEvents l).map (EventPair nr)) Ω P Q →
      Adaptive ((historyEvents l').map (EventPair nr)) Ω P Q) :
    rdpAfter orders frac nr l i ≤ rdpAfter orders frac nr l' i := by
  obtain ⟨Ω, _, P, Q, h1, h2⟩ := (C88_rdp_tight_partial orders frac nr l hl hacc i hα ht).1
  rw [← h2]
  exact (C88_rdp_tight_partial orders frac nr l' hl' hacc' i hα ht').2 ⟨Ω, _, P, Q, h Ω P Q h1, rfl⟩

/-- A concrete case: two Gaussian events and a Poisson-sampled pair of Gaussian queries on the same sample, at order 2. -/
example (frac : ℝ → PyNum → ℝ → EReal) : ∃ (Ω : Type) (_ : MeasurableSpace Ω) (P Q : Measure Ω),
    Adaptive ((historyEvents sampleHistory).map (EventPair .addOrRemoveOne)) Ω P Q ∧
      renyiDiv 2 P Q = rdpAfter (fun _ : Fin 1 => 2) frac .addOrRemoveOne sampleHistory 0 := by
  obtain ⟨h1, h2, -⟩ := sampleHistory_ok frac
  refine (C88_rdp_tight_partial (fun _ : Fin 1 => 2) frac .addOrRemoveOne sampleHistory h2 h1 0 (by norm_num) fun e he => ?_).1
  simp [historyEvents, sampleHistory, expand, repeatList] at he
  rcases he with rfl | rfl
  · trivial
  · exact ⟨⟨2, by norm_num⟩, .inr (by simp [FloatGaussians, FloatGaussiansL])⟩

/-- **C88, the gap.** A tree aggregation without noise over no steps is accepted and reported as non-private, although it releases nothing:
the divergence of everything it describes is zero. -/
theorem C88_empty_tree_violated (frac : ℝ → PyNum → ℝ → EReal) :
    Accepted (fun _ : Fin 1 => 2) frac .replaceSpecial [(.singleEpochTreeAggregation (.float 0) (.inl 0), 1)] ∧
    rdpAfter (fun _ : Fin 1 => 2) frac .replaceSpecial [(.singleEpochTreeAggregation (.float 0) (.inl 0), 1)] 0 = ⊤ ∧
    ∀ (Ω : Type) (_ : MeasurableSpace Ω) (P Q : Measure Ω), EventPair .replaceSpecial (.singleEpochTreeAggregation (.float 0) (.inl 0)) Ω P Q →
      renyiDiv 2 P Q = 0 := by
  have hw : ∀ p ∈ [((.singleEpochTreeAggregation (.float 0) (.inl 0) : DpEvent), (1 : ℤ))], WfCounts p.1 := by simp [WfCounts]
  have ht : tree (fun _ : Fin 1 => ((2 : ℝ) : EReal)) (.float 0) (.inl 0) = .ok fun _ => ⊤ := by simp [tree, PyNum.val]
  have hacc : Accepted (fun _ : Fin 1 => 2) frac .replaceSpecial [(.singleEpochTreeAggregation (.float 0) (.inl 0), 1)] := by
    refine (composeAll_spec _ _ _ hw _ Builder.inv_init).1.2 fun p hp => ?_
    rw [List.mem_singleton] at hp
    subst hp
    refine ⟨by simp [RdpAccountant.verdict, RdpAccountant.maybeCompose], by simp, fun a ha => ?_⟩
    simp only [expand, List.mem_singleton] at ha
    subst ha
    simp only [RdpAccountant.Ok, RdpAccountant.maybeCompose, if_true]
    show (RdpAccountant.addTo _ 1 (tree (fun _ : Fin 1 => ((2 : ℝ) : EReal)) (.float 0) (.inl 0))).2 = _
    rw [ht]; rfl
  refine ⟨hacc, ?_, ?_⟩
  · unfold rdpAfter
    rw [C10_rdp_additive (libFns _ frac) _ _ hw hacc]
    unfold totalRdp
    rw [sum_apply]
    simp only [List.flatMap_cons, List.flatMap_nil, expand, repeatList, Int.toNat_one, List.replicate_one, List.flatten_cons, List.flatten_nil,
      List.append_nil, List.map_cons, List.map_nil, List.sum_cons, List.sum_nil, RdpAccountant.maybeCompose, if_true, add_zero]
    show (RdpAccountant.addTo _ 1 (tree (fun _ : Fin 1 => ((2 : ℝ) : EReal)) (.float 0) (.inl 0))).1 0 = _
    rw [ht]
    simp [RdpAccountant.addTo, RdpAccountant.init]
  · intro Ω _ P Q h
    simp only [EventPair] at h
    rw [if_neg (by simp [PyNum.val])] at h
    cases h with
    | mk l hl hn T₀ t₀ P Q h =>
      have : l = [] := by
        refine List.eq_nil_iff_forall_not_mem.2 fun v hv => ?_
        obtain ⟨m, h1, h2⟩ := hn v hv
        have hm : m = 0 := by
          have := List.mem_of_getElem? h1
          simpa [treeCounts] using this
        unfold IsTreeNode at h2
        rw [hm] at h2
        have := pow_pos (show 0 < 2 by norm_num) v.2.1
        nlinarith [Nat.zero_le (v.2.2 * 2 ^ v.2.1)]
      subst this
      cases h with
      | nil P => exact renyi_self (P := P) 2 (by norm_num)

end Verif.Props
