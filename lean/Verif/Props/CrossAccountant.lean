import Verif.Proofs.CrossAccountant
import Verif.Props.PldTight
import Verif.Props.PldTotal
import Verif.Props.RdpTotal

/-!
# C85: the PLD accountant never reports more than the RDP accountant, up to the discretization

For a history of `compose` calls that both accountants accept, whatever the RDP accountant reports also bounds what the PLD accountant
reports, up to one discretization interval in epsilon and `4e-15` in delta per application. Vocabulary: C61 (`Verif/Props/PldEndToEnd.lean`),
C59 and C62 (`Verif/Props/RdpEndToEnd.lean`, `Verif/Props/RdpFracAccountant.lean`), `TightOk` (`Verif/Spec/PldTight.lean`). `computeDelta` and
`computeEpsilon` on the array of the RDP accountant are its `get_delta` and `get_epsilon_and_optimal_order`.

At fractional orders the series of the RDP accountant stops early and may be too small by `orderSlack` for every Poisson-sampled event
(C62, at most `5e-11` for the default orders, `C62_order_slack_small`; nothing at integer orders and without sampling); `η` bounds this.

Missing, hence `_partial`: restrictions as in C84.
-/

namespace Verif.Props
open Verif Verif.Spec Verif.Rdp Verif.RdpConv Verif.Frac MeasureTheory ProbabilityTheory

lemma historyEvents_applications (cs : List (DpEvent × ℤ)) : ((historyEvents cs : List DpEvent) : Multiset DpEvent) = applications cs := by
  induction cs with
  | nil => rfl
  | cons p cs ih =>
    have e1 : applications (p :: cs) = p.2.toNat • (expand p.1 : Multiset DpEvent) + applications cs := by simp [applications]
    have e2 : historyEvents (p :: cs) = repeatList p.2 (expand p.1) ++ historyEvents cs := by simp [historyEvents]
    rw [e1, e2, ← ih, ← Multiset.coe_add]
    congr 1
    unfold repeatList
    induction p.2.toNat with
    | zero => simp
    | succ k ihk => rw [List.replicate_succ, List.flatten_cons, ← Multiset.coe_add, ihk, succ_nsmul']

/-- **C85 (partial), `get_delta`.** If the RDP accountant reports `delta` for `eps`, the PLD accountant reports at most that for an epsilon
larger by the number of applications times the discretization interval. -/
theorem C85_get_delta_partial {nfl : ℕ → ℕ} (hnfl : ∀ k, k ≤ nfl k) {ppf : ℝ → ℝ → ℝ} (hppf : NormalQuantile ppf) {disc : ℝ}
    (hd : 0 < disc) {nr : NeighborRel} {cs : List (DpEvent × ℤ)} (hcs : ∀ p ∈ cs, WfCounts p.1 ∧ RROnce p.1 p.2)
    (hacc : (pldAfter nfl ppf disc nr cs).2 = true) (hsize : (applications cs).card ≤ 10 ^ 14)
    (hok : ∀ a ∈ applications cs, TightOk disc a) {n : ℕ} (orders : Fin n → ℝ) (ho : ∀ i, 1 ≤ orders i)
    (hacc' : Accepted orders logAFrac nr cs) (hcov : ∀ a ∈ applications cs, Covered a) (η : ℝ) (hη : 0 ≤ η)
    (hs : ∀ i, poissonEvents (historyEvents cs) * orderSlack (orders i) ≤ η) (delta eps a : ℝ)
    (he : computeDelta (List.ofFn orders) (List.ofFn (rdpAfter orders logAFrac nr cs)) eps = .ok (delta, a)) :
    let N : ℝ := (applications cs).card
    PldAccountant.getDelta (PldLibrary.fns nfl ppf disc) (pldAfter nfl ppf disc nr cs).1 (eps + η + N * disc) ≤
      Real.sqrt (delta ^ 2 + η) + 4e-15 * N := by
  intro N
  have hl := historyEvents_applications cs
  have hmem : ∀ a, a ∈ historyEvents cs ↔ a ∈ applications cs := fun a => by rw [← hl]; rfl
  have hN : N = (historyEvents cs).length := by show (((applications cs).card : ℕ) : ℝ) = _; rw [← hl]; rfl
  have hrep : ∀ e ∈ historyEvents cs, ∀ e' m s, e ≠ .repeatAndSelect e' m s := by
    rintro _ h e' m s rfl
    exact hok _ ((hmem _).1 h)
  obtain ⟨Ω, mΩ, P, Q, hA, hB, h⟩ := (pldAfter_tight hnfl hppf hd hcs hacc hsize hok).cross hok hcov hl
  have g := fun (P Q : Measure Ω) (hA : Adaptive ((historyEvents cs).map (EventPair nr)) Ω P Q) =>
    C62_get_delta_partial orders ho nr cs (fun p hp => (hcs p hp).1) hacc' (fun e he => hcov e ((hmem e).1 he)) hrep P Q hA η hη hs delta eps a he
  unfold PldAccountant.getDelta
  rw [if_neg (pldAfter_dp hcs hacc hok)]
  refine h _ _ ?_ ?_
  · rw [← hN, add_sub_cancel_right]; exact g P Q hA
  · rw [← hN, add_sub_cancel_right]; exact g Q P hB

/-- **C85 (partial), `get_epsilon`.** If the RDP accountant reports a positive finite `eps` for `delta`, the PLD accountant reports at most
that and one discretization interval per application for every larger delta (by more than `4e-15` per application). If the RDP accountant
reports zero, likewise with `√(delta² + η)` for `delta`. -/
theorem C85_get_epsilon_partial {nfl : ℕ → ℕ} (hnfl : ∀ k, k ≤ nfl k) {ppf : ℝ → ℝ → ℝ} (hppf : NormalQuantile ppf) {disc : ℝ}
    (hd : 0 < disc) {nr : NeighborRel} {cs : List (DpEvent × ℤ)} (hcs : ∀ p ∈ cs, WfCounts p.1 ∧ RROnce p.1 p.2)
    (hacc : (pldAfter nfl ppf disc nr cs).2 = true) (hsize : (applications cs).card ≤ 10 ^ 14)
    (hok : ∀ a ∈ applications cs, TightOk disc a) {n : ℕ} (orders : Fin n → ℝ) (ho : ∀ i, 1 ≤ orders i)
    (hacc' : Accepted orders logAFrac nr cs) (hcov : ∀ a ∈ applications cs, Covered a) (η : ℝ) (hη : 0 ≤ η)
    (hs : ∀ i, poissonEvents (historyEvents cs) * orderSlack (orders i) ≤ η) (delta eps a : ℝ) (hdelta : 0 < delta)
    (he : computeEpsilon (List.ofFn orders) (List.ofFn (rdpAfter orders logAFrac nr cs)) delta = .ok ((eps : EReal), a)) (delta' : ℝ) :
    let N : ℝ := (applications cs).card
    (0 < eps ∧ delta + 4e-15 * N < delta') ∨ Real.sqrt (delta ^ 2 + η) + 4e-15 * N < delta' →
    PldAccountant.getEpsilon (PldLibrary.fns nfl ppf disc) (pldAfter nfl ppf disc nr cs).1 delta' ≤ ((eps + η + N * disc : ℝ) : EReal) := by
  intro N hlt
  have hl := historyEvents_applications cs
  have hmem : ∀ a, a ∈ historyEvents cs ↔ a ∈ applications cs := fun a => by rw [← hl]; rfl
  have hN : N = (historyEvents cs).length := by show (((applications cs).card : ℕ) : ℝ) = _; rw [← hl]; rfl
  have hrep : ∀ e ∈ historyEvents cs, ∀ e' m s, e ≠ .repeatAndSelect e' m s := by
    rintro _ h e' m s rfl
    exact hok _ ((hmem _).1 h)
  have ht := pldAfter_tight hnfl hppf hd hcs hacc hsize hok
  obtain ⟨Ω, mΩ, P, Q, hA, hB, h⟩ := ht.cross hok hcov hl
  have g := fun (P Q : Measure Ω) (hA : Adaptive ((historyEvents cs).map (EventPair nr)) Ω P Q) =>
    C62_get_epsilon_partial orders ho nr cs (fun p hp => (hcs p hp).1) hacc' (fun e he => hcov e ((hmem e).1 he)) hrep P Q hA η hη hs delta eps a hdelta he
  have heps : 0 ≤ eps := by
    have := (C36_compute_epsilon_sound.{0} _ _ delta a _ (fun h0 => absurd h0 hdelta.ne') he).1
    exact_mod_cast this
  have hN0 : 0 ≤ N := Nat.cast_nonneg _
  unfold PldAccountant.getEpsilon
  rw [if_neg (pldAfter_dp hcs hacc hok)]
  refine ht.epsilon (by positivity) ?_
  rcases hlt with ⟨hpos, hlt⟩ | hlt
  · refine lt_of_le_of_lt (h (eps + η + N * disc) delta ?_ ?_) hlt
    · rw [← hN, add_sub_cancel_right]; exact (g P Q hA).1 hpos
    · rw [← hN, add_sub_cancel_right]; exact (g Q P hB).1 hpos
  · refine lt_of_le_of_lt (h (eps + η + N * disc) _ ?_ ?_) hlt
    · rw [← hN, add_sub_cancel_right]; exact (g P Q hA).2
    · rw [← hN, add_sub_cancel_right]; exact (g Q P hB).2

/-! ### Non-vacuity -/

lemma mixedHistory_expand {a : DpEvent} (ha : a ∈ applications mixedHistory) : a = .poissonSampled (.float (1 / 2)) (.gaussian (.float 1)) ∨
    a = .laplace (.int 2) ∨ a = .randomizedResponse (.float (1 / 4)) 3 := by
  obtain ⟨p, hp, ha⟩ := mem_applications ha
  simp only [mixedHistory, List.mem_cons, List.not_mem_nil, or_false] at hp
  rcases hp with rfl | rfl
  · rw [expand] at ha
    have := repeatList_mem ha
    simp only [expand, List.mem_singleton] at this
    exact .inl this
  · simp only [expand, expandList, List.append_nil, List.mem_append, List.mem_singleton] at ha
    rcases ha with ha | ha
    · have := repeatList_mem ha
      simp only [List.mem_singleton] at this
      exact .inr (.inl this)
    · exact .inr (.inr ha)

/-- 1000 Poisson-sampled Gaussian queries, two Laplace queries and randomised response: both accountants accept them, and with integer
orders whatever the RDP accountant reports bounds what the PLD accountant reports. -/
example (nfl : ℕ → ℕ) (hnfl : ∀ k, k ≤ nfl k) : ∃ ppf, ∀ delta eps a : ℝ,
    computeDelta (List.ofFn fun i : Fin 3 => (i : ℝ) + 2) (List.ofFn (rdpAfter (fun i : Fin 3 => (i : ℝ) + 2) logAFrac .replaceSpecial mixedHistory)) eps =
      .ok (delta, a) →
    PldAccountant.getDelta (PldLibrary.fns nfl ppf 1e-4) (pldAfter nfl ppf 1e-4 .replaceSpecial mixedHistory).1 (eps + 0 + 1003 * 1e-4) ≤
      Real.sqrt (delta ^ 2 + 0) + 4e-15 * 1003 := by
  obtain ⟨ppf, h⟩ := exists_normalQuantile
  have ho : ∀ i : Fin 3, 1 < (i : ℝ) + 2 := fun i => by
    have : (0 : ℝ) ≤ (i : ℝ) := by positivity
    linarith
  have hsize : (applications mixedHistory).card ≤ 10 ^ 14 := by rw [mixedHistory_card]; norm_num
  have hg : GridFree 1e-4 (.float (1 / 2)) := by
    rcases offGrid_half with h | h
    · norm_num at h
    · exact Or.inr (Or.inr (by simpa only [PyNum.val, EReal.toReal_coe] using h))
  have c1 : ((1 / 2 : ℝ) : EReal) ≤ 1 := by exact_mod_cast (by norm_num : (1 / 2 : ℝ) ≤ 1)
  have c2 : ((1 / 4 : ℝ) : EReal) ≤ 1 := by exact_mod_cast (by norm_num : (1 / 4 : ℝ) ≤ 1)
  have hrdp : ∀ p ∈ mixedHistory, 1 ≤ p.2 ∧ WfCounts p.1 ∧ ∀ a ∈ expand p.1, RdpOk .replaceSpecial a := by
    intro p hp
    obtain ⟨h1, h2, -⟩ := mixedHistory_ok p hp
    refine ⟨h1, h2, fun a ha => ?_⟩
    have hm : a ∈ applications mixedHistory := by
      rw [← historyEvents_applications]
      refine List.mem_flatMap.2 ⟨p, hp, ?_⟩
      rw [repeatList, List.mem_flatten]
      exact ⟨_, List.mem_replicate.2 ⟨by omega, rfl⟩, ha⟩
    rcases mixedHistory_expand hm with rfl | rfl | rfl
    · rw [RdpOk]
      exact ⟨Or.inr rfl, EReal.coe_nonneg.2 (by norm_num), c1, Or.inr (by simp [FloatGaussians])⟩
    · rw [RdpOk]; simp [PyNum.val]
    · rw [RdpOk]
      exact ⟨Or.inr rfl, EReal.coe_nonneg.2 (by norm_num), c2, by norm_num⟩
  refine ⟨ppf, fun delta eps a he => ?_⟩
  have := C85_get_delta_partial hnfl h (disc := 1e-4) (by norm_num) (nr := .replaceSpecial) (cs := mixedHistory) ?_
    (C82_pld_accepted_partial hnfl h (by norm_num) mixedHistory_ok hsize) hsize ?_ (fun i : Fin 3 => (i : ℝ) + 2) (fun i => (ho i).le)
    (C82_rdp_accepted_partial (by norm_num) _ ho _ _ _ hrdp) ?_ 0 le_rfl ?_ delta eps a he
  · simpa only [mixedHistory_card, Nat.cast_ofNat] using this
  · simp [mixedHistory, WfCounts, WfCountsL, RROnce, RROnceL]
  · intro a ha
    rcases mixedHistory_expand ha with rfl | rfl | rfl
    · exact ⟨by simp [PyNum.val], hg, by simp [PyNum.val], EReal.coe_ne_top _⟩
    · exact ⟨by simp [PyNum.val], EReal.coe_ne_top _⟩
    · exact ⟨by norm_num, by simp [PyNum.val]⟩
  · intro a ha
    rcases mixedHistory_expand ha with rfl | rfl | rfl
    · rw [Covered]; exact Or.inr (by simp [FloatGaussians])
    · rw [Covered]; all_goals simp
    · rw [Covered]; all_goals simp
  · intro i
    rw [orderSlack, if_pos ⟨(i : ℤ) + 2, by push_cast; rfl⟩, mul_zero]

end Verif.Props
