import Verif.Proofs.PldTightRR
import Verif.Props.PldEndToEnd

/-!
# C84: the PLD accountant is tight, end to end

The converse of C61. What a `PLDAccountant` reports is not only valid: it cannot be improved by more than the discretization. There are
mechanisms, one for every composed event and described by it, such that running them one after the other is not `(eps - N * disc, delta)`
private for any delta below the reported one by more than `4e-15 * N`, for `N` applications of events and the discretization interval
`disc`. This sees bugs that C61 cannot see: an event counted twice, a PLD of a mechanism with less noise, masses rounded by more than one
interval, a truncation of the tails that gives away more than the bound.

The vocabulary is that of C61 (`Verif/Props/PldEndToEnd.lean`); `TightOk` (`Verif/Spec/PldTight.lean`) are the events it is proved for.

Missing, hence `_partial`: zero noise (reported as non-private, `C61_non_private`); infinite
noise; mixtures of Gaussians; sampling probabilities zero or with a grid point `math.isclose` to `log(1 - q)`;
randomised response with one bucket; more than 10^14 applications.
-/

namespace Verif.Props
open Verif Verif.Spec MeasureTheory ProbabilityTheory

lemma pldAfter_dp {nfl : ℕ → ℕ} {ppf : ℝ → ℝ → ℝ} {disc : ℝ} {nr : NeighborRel} {cs : List (DpEvent × ℤ)}
    (hcs : ∀ p ∈ cs, WfCounts p.1 ∧ RROnce p.1 p.2) (hacc : (pldAfter nfl ppf disc nr cs).2 = true)
    (hok : ∀ a ∈ applications cs, TightOk disc a) : ¬ (pldAfter nfl ppf disc nr cs).1.nonDp = true := by
  have : (pldAfter nfl ppf disc nr cs).1.nonDp = false := PldAccountant.tight_dp_all _ nr cs (fun p hp => (hcs p hp).1) hok
    ⟨PldAccountant.init (PldLibrary.fns nfl ppf disc), Builder.init⟩ Builder.inv_init rfl hacc
  rw [this]; simp

lemma pldAfter_tight {nfl : ℕ → ℕ} (hnfl : ∀ k, k ≤ nfl k) {ppf : ℝ → ℝ → ℝ} (hppf : NormalQuantile ppf) {disc : ℝ} (hd : 0 < disc)
    {nr : NeighborRel} {cs : List (DpEvent × ℤ)} (hcs : ∀ p ∈ cs, WfCounts p.1 ∧ RROnce p.1 p.2)
    (hacc : (pldAfter nfl ppf disc nr cs).2 = true) (hsize : (applications cs).card ≤ 10 ^ 14)
    (hok : ∀ a ∈ applications cs, TightOk disc a) :
    Tight disc nr (pldAfter nfl ppf disc nr cs).1.pld (applications cs) (4e-15 * ((applications cs).card : ℝ)) := by
  have hs := library_tight (nr := nr) hnfl hppf hd
  have := PldAccountant.covers_all hs cs hcs ⟨PldAccountant.init (PldLibrary.fns nfl ppf disc), Builder.init⟩ 0 Builder.inv_init
    (Or.inr hs.identity) hacc
  rw [zero_add] at this
  exact this.resolve_left (pldAfter_dp hcs hacc hok) hsize hok

/-- **C84 (partial), `get_delta`.** After any history of `compose` calls that did not raise, there are
mechanisms described by the composed events (in any order `l`) whose sequence needs, at an epsilon smaller by the number of applications
times the discretization interval, the delta reported for `eps` up to `4e-15` per application. -/
theorem C84_get_delta_partial {nfl : ℕ → ℕ} (hnfl : ∀ k, k ≤ nfl k) {ppf : ℝ → ℝ → ℝ} (hppf : NormalQuantile ppf) {disc : ℝ}
    (hd : 0 < disc) {nr : NeighborRel} {cs : List (DpEvent × ℤ)} (hcs : ∀ p ∈ cs, WfCounts p.1 ∧ RROnce p.1 p.2)
    (hacc : (pldAfter nfl ppf disc nr cs).2 = true) (hsize : (applications cs).card ≤ 10 ^ 14)
    (hok : ∀ a ∈ applications cs, TightOk disc a)
    (l : List DpEvent) (hl : (l : Multiset DpEvent) = applications cs) :
    ∃ (Ω : Type) (_ : MeasurableSpace Ω) (P Q : Measure Ω), Adaptive (l.map (PldEventPair nr)) Ω P Q ∧
      ∀ eps delta : ℝ, Indist P Q (eps - l.length * disc) delta → Indist Q P (eps - l.length * disc) delta →
        PldAccountant.getDelta (PldLibrary.fns nfl ppf disc) (pldAfter nfl ppf disc nr cs).1 eps ≤ delta + 4e-15 * l.length := by
  have hdp := pldAfter_dp hcs hacc hok
  have ht := pldAfter_tight hnfl hppf hd hcs hacc hsize hok
  obtain ⟨Ω, mΩ, P, Q, hA, h⟩ := ht.attained hl
  refine ⟨Ω, mΩ, P, Q, hA, fun eps delta h1 h2 => ?_⟩
  unfold PldAccountant.getDelta
  rw [if_neg hdp]
  have := h eps delta h1 h2
  rwa [show ((applications cs).card : ℝ) = l.length by rw [← hl]; rfl] at this

/-- **C84 (partial), `get_epsilon`.** For the same kind of mechanisms, any (eps', delta') guarantee of their sequence, with `delta'` below
`delta` by more than `4e-15` per application, bounds the epsilon reported for `delta`: it is at most `eps'` and one discretization
interval per application (or zero). -/
theorem C84_get_epsilon_partial {nfl : ℕ → ℕ} (hnfl : ∀ k, k ≤ nfl k) {ppf : ℝ → ℝ → ℝ} (hppf : NormalQuantile ppf) {disc : ℝ}
    (hd : 0 < disc) {nr : NeighborRel} {cs : List (DpEvent × ℤ)} (hcs : ∀ p ∈ cs, WfCounts p.1 ∧ RROnce p.1 p.2)
    (hacc : (pldAfter nfl ppf disc nr cs).2 = true) (hsize : (applications cs).card ≤ 10 ^ 14)
    (hok : ∀ a ∈ applications cs, TightOk disc a)
    (l : List DpEvent) (hl : (l : Multiset DpEvent) = applications cs) :
    ∃ (Ω : Type) (_ : MeasurableSpace Ω) (P Q : Measure Ω), Adaptive (l.map (PldEventPair nr)) Ω P Q ∧
      ∀ eps' delta' delta : ℝ, 0 ≤ eps' + l.length * disc → Indist P Q eps' delta' → Indist Q P eps' delta' →
        delta' + 4e-15 * l.length < delta →
        PldAccountant.getEpsilon (PldLibrary.fns nfl ppf disc) (pldAfter nfl ppf disc nr cs).1 delta ≤ ((eps' + l.length * disc : ℝ) : EReal) := by
  have hdp := pldAfter_dp hcs hacc hok
  have ht := pldAfter_tight hnfl hppf hd hcs hacc hsize hok
  obtain ⟨Ω, mΩ, P, Q, hA, h⟩ := C84_get_delta_partial hnfl hppf hd hcs hacc hsize hok l hl
  refine ⟨Ω, mΩ, P, Q, hA, fun eps' delta' delta h0 h1 h2 hlt => ?_⟩
  have := h (eps' + l.length * disc) delta' (by rwa [add_sub_cancel_right]) (by rwa [add_sub_cancel_right])
  unfold PldAccountant.getDelta at this
  unfold PldAccountant.getEpsilon
  rw [if_neg hdp] at this ⊢
  exact ht.epsilon h0 (lt_of_le_of_lt this hlt)

/-! ### Non-vacuity -/

/-- Four Gaussian events with noise multiplier one: the calls succeed, and there are four Gaussian queries that need the reported delta up to `4 * 1e-4` in epsilon and `1.6e-14`. -/
example (nfl : ℕ → ℕ) (hnfl : ∀ k, k ≤ nfl k) : ∃ ppf, ∃ (Ω : Type) (_ : MeasurableSpace Ω) (P Q : Measure Ω),
    Adaptive [GaussianPair 1, GaussianPair 1, GaussianPair 1, GaussianPair 1] Ω P Q ∧ ∀ eps delta : ℝ,
    Indist P Q (eps - 4 * 1e-4) delta → Indist Q P (eps - 4 * 1e-4) delta →
    PldAccountant.getDelta (PldLibrary.fns nfl ppf 1e-4) (pldAfter nfl ppf 1e-4 .addOrRemoveOne [(.gaussian (.float 1), 4)]).1 eps ≤ delta + 4e-15 * 4 := by
  obtain ⟨ppf, h⟩ := exists_normalQuantile
  have ha : applications [(.gaussian (.float 1), 4)] = Multiset.replicate 4 (.gaussian (.float 1)) := by
    rw [← Multiset.nsmul_singleton]
    simp [applications, expand]
  have hacc := gaussian_accepted nfl h (disc := 1e-4) (by norm_num) .addOrRemoveOne (z := 1) one_pos (c := 4) (by norm_num)
  obtain ⟨Ω, mΩ, P, Q, hA, hb⟩ := C84_get_delta_partial hnfl h (disc := 1e-4) (by norm_num) (nr := .addOrRemoveOne)
    (by simp [WfCounts, RROnce]) hacc (by rw [ha]; simp) (by rw [ha]; intro a hm; rw [Multiset.eq_of_mem_replicate hm]; exact ⟨by simp [PyNum.val], EReal.coe_ne_top _⟩)
    [.gaussian (.float 1), .gaussian (.float 1), .gaussian (.float 1), .gaussian (.float 1)] (by rw [ha]; rfl)
  refine ⟨ppf, Ω, mΩ, P, Q, by simpa [PldEventPair, PyNum.val] using hA, fun eps delta h1 h2 => ?_⟩
  simpa using hb eps delta (by simpa using h1) (by simpa using h2)

end Verif.Props
