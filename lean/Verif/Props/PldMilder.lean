import Verif.Proofs.PldMilder
import Verif.Props.PldTight
import Verif.Props.PldTotal

/-!
# C86: milder events never raise what the PLD accountant reports, up to the discretization

If every event of a history is an event of another history with more noise or less sampling (`PldMilder`, `Verif/Spec/PldMilder.lean`), the
PLD accountant reports at most the other history's loss, up to one discretization interval in epsilon and `4e-15` in delta per application.
The other history may contain further events. The two accountants may have different discretization intervals. The companion of C81,
which is about the RDP accountant.

Missing, hence `_partial`: restrictions as in C84. Without "up to the discretization" it is not claimed: the grids, the truncation bounds
and the tail bounds of the two PLDs differ, so that the roundings do not compare.
-/

namespace Verif.Props
open Verif Verif.Spec MeasureTheory ProbabilityTheory

lemma milder_no_mixture {l l' : List DpEvent} (h : PldMilderAll l l') (σ : PyNum) (ss ps : List PyNum) : .mixtureOfGaussians σ ss ps ∉ l' := by
  induction h with
  | nil => simp
  | cons e e' l l' he _ ih =>
    rw [List.mem_cons, not_or]
    refine ⟨fun hc => ?_, ih⟩
    subst hc
    cases he
  | skip e' l l' he _ ih =>
    rw [List.mem_cons, not_or]
    refine ⟨fun hc => ?_, ih⟩
    subst hc
    cases he

/-- **C86 (partial), `get_delta`.** `cs` is milder than `cs'`: the delta reported for `cs`, at an epsilon larger by the number of
applications in `cs` times the discretization interval, is at most the one reported for `cs'`. -/
theorem C86_get_delta_partial {nfl nfl' : ℕ → ℕ} (hnfl : ∀ k, k ≤ nfl k) (hnfl' : ∀ k, k ≤ nfl' k) {ppf ppf' : ℝ → ℝ → ℝ}
    (hppf : NormalQuantile ppf) (hppf' : NormalQuantile ppf') {disc disc' : ℝ} (hd : 0 < disc) (hd' : 0 < disc') {nr : NeighborRel}
    {cs cs' : List (DpEvent × ℤ)} (hcs : ∀ p ∈ cs, WfCounts p.1 ∧ RROnce p.1 p.2) (hcs' : ∀ p ∈ cs', WfCounts p.1 ∧ RROnce p.1 p.2)
    (hacc : (pldAfter nfl ppf disc nr cs).2 = true) (hacc' : (pldAfter nfl' ppf' disc' nr cs').2 = true)
    (hsize : (applications cs).card ≤ 10 ^ 14) (hsize' : (applications cs').card ≤ 10 ^ 21)
    (hok : ∀ a ∈ applications cs, TightOk disc a) (hgrid : ∀ q e, .poissonSampled q e ∈ applications cs' → GridFree disc' q)
    {l l' : List DpEvent} (hl : (l : Multiset DpEvent) = applications cs) (hl' : (l' : Multiset DpEvent) = applications cs')
    (hm : PldMilderAll l l') (eps : ℝ) :
    let N : ℝ := (applications cs).card
    PldAccountant.getDelta (PldLibrary.fns nfl ppf disc) (pldAfter nfl ppf disc nr cs).1 (eps + N * disc) ≤
      PldAccountant.getDelta (PldLibrary.fns nfl' ppf' disc') (pldAfter nfl' ppf' disc' nr cs').1 eps + 4e-15 * N := by
  intro N
  have hN : N = l.length := by show (((applications cs).card : ℕ) : ℝ) = _; rw [← hl]; rfl
  obtain ⟨Ω, mΩ, P, Q, hA, h⟩ := (pldAfter_tight hnfl hppf hd hcs hacc hsize hok).harsher hl hm
  obtain ⟨g1, g2⟩ := C61_get_delta_no_slack_partial hnfl' hppf' hd' hcs' hacc' hsize' (fun σ ss ps hc => by
    rw [← hl'] at hc; exact milder_no_mixture hm σ ss ps hc) hgrid l' hl' P Q hA eps
  rw [PldAccountant.getDelta, if_neg (pldAfter_dp hcs hacc hok)]
  refine h _ _ ?_ ?_
  · rw [← hN, add_sub_cancel_right]; exact g1
  · rw [← hN, add_sub_cancel_right]; exact g2

/-- **C86 (partial), `get_epsilon`.** The epsilon reported for `cs`, at a delta larger by more than `4e-15` per application, is at most
the one reported for `cs'` and one discretization interval for every application in `cs`. -/
theorem C86_get_epsilon_partial {nfl nfl' : ℕ → ℕ} (hnfl : ∀ k, k ≤ nfl k) (hnfl' : ∀ k, k ≤ nfl' k) {ppf ppf' : ℝ → ℝ → ℝ}
    (hppf : NormalQuantile ppf) (hppf' : NormalQuantile ppf') {disc disc' : ℝ} (hd : 0 < disc) (hd' : 0 < disc') {nr : NeighborRel}
    {cs cs' : List (DpEvent × ℤ)} (hcs : ∀ p ∈ cs, WfCounts p.1 ∧ RROnce p.1 p.2) (hcs' : ∀ p ∈ cs', WfCounts p.1 ∧ RROnce p.1 p.2)
    (hacc : (pldAfter nfl ppf disc nr cs).2 = true) (hacc' : (pldAfter nfl' ppf' disc' nr cs').2 = true)
    (hsize : (applications cs).card ≤ 10 ^ 14) (hsize' : (applications cs').card ≤ 10 ^ 21)
    (hok : ∀ a ∈ applications cs, TightOk disc a) (hgrid : ∀ q e, .poissonSampled q e ∈ applications cs' → GridFree disc' q)
    {l l' : List DpEvent} (hl : (l : Multiset DpEvent) = applications cs) (hl' : (l' : Multiset DpEvent) = applications cs')
    (hm : PldMilderAll l l') (delta delta' eps : ℝ)
    (he : PldAccountant.getEpsilon (PldLibrary.fns nfl' ppf' disc') (pldAfter nfl' ppf' disc' nr cs').1 delta' = (eps : EReal)) :
    let N : ℝ := (applications cs).card
    delta' + 4e-15 * N < delta →
    PldAccountant.getEpsilon (PldLibrary.fns nfl ppf disc) (pldAfter nfl ppf disc nr cs).1 delta ≤ ((eps + N * disc : ℝ) : EReal) := by
  intro N hlt
  have hN : N = l.length := by show (((applications cs).card : ℕ) : ℝ) = _; rw [← hl]; rfl
  have hN0 : 0 ≤ N := Nat.cast_nonneg _
  have ht := pldAfter_tight hnfl hppf hd hcs hacc hsize hok
  have hmix : ∀ σ ss ps, .mixtureOfGaussians σ ss ps ∉ l' := milder_no_mixture hm
  obtain ⟨Ω, mΩ, P, Q, hA, h⟩ := ht.harsher hl hm
  obtain ⟨⟨e0, g1, g2⟩, -⟩ := C61_get_epsilon_partial hnfl' hppf' hd' hcs' hacc' hsize' (fun a ha => by
    cases a with
    | mixtureOfGaussians σ ss ps => rw [← hl'] at ha; exact absurd ha (hmix σ ss ps)
    | _ => trivial) l' hl' P Q hA delta' eps he (Kernel.id)
  rw [eventSlack_zero hmix (fun q e hm => hgrid q e (by rw [← hl']; exact hm)), add_zero] at g1 g2
  rw [PldAccountant.getEpsilon, if_neg (pldAfter_dp hcs hacc hok)]
  refine ht.epsilon (by positivity) (lt_of_le_of_lt (h (eps + N * disc) delta' ?_ ?_) hlt)
  · rw [← hN, add_sub_cancel_right]; exact g1
  · rw [← hN, add_sub_cancel_right]; exact g2

/-! ### Non-vacuity -/

lemma pldMilder_replicate {a b : DpEvent} (h : PldMilder a b) (hb : PldMilder b b) (n m : ℕ) : PldMilderAll (List.replicate n a) (List.replicate (n + m) b) := by
  induction n with
  | zero =>
    rw [zero_add]
    induction m with
    | zero => exact .nil
    | succ m ih => exact .skip b _ _ hb ih
  | succ n ih =>
    rw [Nat.succ_add]
    exact .cons a b _ _ h ih

/-- 10 Gaussian queries on Poisson samples with noise multiplier two, and 11 on the whole data with noise multiplier one. -/
example (nfl : ℕ → ℕ) (hnfl : ∀ k, k ≤ nfl k) : ∃ ppf, ∀ eps : ℝ,
    PldAccountant.getDelta (PldLibrary.fns nfl ppf 1e-4)
      (pldAfter nfl ppf 1e-4 .addOrRemoveOne [(.poissonSampled (.float (1 / 2)) (.gaussian (.float 2)), 10)]).1 (eps + 10 * 1e-4) ≤
    PldAccountant.getDelta (PldLibrary.fns nfl ppf 1e-3) (pldAfter nfl ppf 1e-3 .addOrRemoveOne [(.gaussian (.float 1), 11)]).1 eps + 4e-15 * 10 := by
  obtain ⟨ppf, h⟩ := exists_normalQuantile
  refine ⟨ppf, fun eps => ?_⟩
  have hg : GridFree 1e-4 (.float (1 / 2)) := by
    rcases offGrid_half with h | h
    · norm_num at h
    · exact Or.inr (Or.inr (by simpa only [PyNum.val, EReal.toReal_coe] using h))
  have ha : applications [(.poissonSampled (.float (1 / 2)) (.gaussian (.float 2)), 10)] =
      Multiset.replicate 10 (.poissonSampled (.float (1 / 2)) (.gaussian (.float 2))) := by
    rw [← Multiset.nsmul_singleton, applications, List.map_cons, List.sum_cons, expand]
    all_goals simp
  have ha' : applications [(.gaussian (.float 1), 11)] = Multiset.replicate 11 (.gaussian (.float 1)) := by
    rw [← Multiset.nsmul_singleton, applications, List.map_cons, List.sum_cons, expand]
    all_goals simp
  have c : (applications [(.poissonSampled (.float (1 / 2)) (.gaussian (.float 2)), 10)]).card = 10 := by rw [ha, Multiset.card_replicate]
  have c1 : ((1 / 2 : ℝ) : EReal) ≤ 1 := by exact_mod_cast (by norm_num : (1 / 2 : ℝ) ≤ 1)
  have hm : PldMilder (.poissonSampled (.float (1 / 2)) (.gaussian (.float 2))) (.gaussian (.float 1)) :=
    .unsampledGaussian _ _ _ (EReal.coe_pos.2 (by norm_num)) c1 (EReal.coe_pos.2 one_pos) (EReal.coe_le_coe_iff.2 (by norm_num)) (EReal.coe_lt_top _)
  have hb : PldMilder (.gaussian (.float 1)) (.gaussian (.float 1)) := .gaussian _ _ (EReal.coe_pos.2 one_pos) le_rfl (EReal.coe_lt_top _)
  have := C86_get_delta_partial hnfl hnfl h h (disc := 1e-4) (disc' := 1e-3) (by norm_num) (by norm_num) (nr := .addOrRemoveOne)
    (cs := [(.poissonSampled (.float (1 / 2)) (.gaussian (.float 2)), 10)]) (cs' := [(.gaussian (.float 1), 11)])
    (by simp [WfCounts, RROnce]) (by simp [WfCounts, RROnce]) (C82_pld_accepted_partial hnfl h (by norm_num) ?_ (by rw [c]; norm_num))
    (gaussian_accepted nfl h (by norm_num) _ one_pos (by norm_num)) (by rw [c]; norm_num) (by rw [ha', Multiset.card_replicate]; norm_num) ?_ ?_
    (l := List.replicate 10 (.poissonSampled (.float (1 / 2)) (.gaussian (.float 2)))) (l' := List.replicate (10 + 1) (.gaussian (.float 1)))
    (by rw [ha, Multiset.coe_replicate]) (by rw [ha', Multiset.coe_replicate]) (pldMilder_replicate hm hb 10 1) eps
  · simpa only [c, Nat.cast_ofNat] using this
  · intro p hp
    rw [List.mem_singleton.1 hp]
    refine ⟨by norm_num, by simp [WfCounts], fun a ha => ?_⟩
    simp only [expand, List.mem_singleton] at ha
    rw [ha]
    exact ⟨Or.inl rfl, EReal.coe_nonneg.2 (by norm_num), c1, ⟨EReal.coe_nonneg.2 (by norm_num), EReal.coe_ne_top _⟩, hg⟩
  · intro a hma
    rw [ha] at hma
    rw [Multiset.eq_of_mem_replicate hma]
    exact ⟨by simp [PyNum.val], hg, by simp [PyNum.val], EReal.coe_ne_top _⟩
  · intro q e hma
    rw [ha'] at hma
    exact absurd (Multiset.eq_of_mem_replicate hma) (by simp)

end Verif.Props
