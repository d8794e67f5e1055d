import Verif.Proofs.RdpFracSlack

/-!
# C62: the RDP accountant with its own function for fractional orders

Vocabulary: `Verif/Props/RdpEndToEnd.lean` (`Accepted`, `rdpAfter`, `historyEvents`), `Verif/Spec/RdpFrac.lean` (`orderSlack`,
`poissonEvents`), `logAFrac` = `_compute_log_a_frac`. Nothing is assumed about numeric functions here.
-/

namespace Verif.Props
open Verif Verif.Spec Verif.Rdp Verif.RdpConv Verif.Frac MeasureTheory ProbabilityTheory

/-- **C62 (partial), Rényi divergences of the accountant.** After any accepted history without `RepeatAndSelect`, the array of the
accountant, increased by `orderSlack` for every Poisson-sampled event, bounds the Rényi divergence of the joint output of any
adaptive sequence of mechanisms described by the events. Missing: `RepeatAndSelect` (see `C62_fracBound_partial`). -/
theorem C62_rdp_curve_partial {n : ℕ} (orders : Fin n → ℝ) (ho : ∀ i, 1 ≤ orders i) (nr : NeighborRel) (l : List (DpEvent × ℤ))
    (hl : ∀ p ∈ l, WfCounts p.1) (hacc : Accepted orders logAFrac nr l) (hcov : ∀ e ∈ historyEvents l, Covered e)
    (hrep : ∀ e ∈ historyEvents l, ∀ e' m s, e ≠ .repeatAndSelect e' m s) {Ω : Type} [MeasurableSpace Ω] (P Q : Measure Ω)
    (h : Adaptive ((historyEvents l).map (EventPair nr)) Ω P Q) (i : Fin n) :
    renyiDiv (orders i) P Q ≤ rdpAfter orders logAFrac nr l i + ((poissonEvents (historyEvents l) * orderSlack (orders i) : ℝ) : EReal) := by
  unfold rdpAfter
  have hspec := (composeAll_spec (libFns orders logAFrac) nr l hl ⟨RdpAccountant.init, Builder.init⟩ Builder.inv_init).1.1 hacc
  rw [C10_rdp_additive (libFns orders logAFrac) nr l hl hacc]
  have hmem : ∀ a ∈ historyEvents l, RdpAccountant.Elementary a ∧ WfCounts a ∧ RdpAccountant.Ok (libFns orders logAFrac) nr a := by
    intro a ha
    obtain ⟨p, hp, hap⟩ := List.mem_flatMap.1 ha
    have ha' := repeatList_mem hap
    exact ⟨RdpAccountant.elementary_of_mem _ _ ha', wfCounts_mem (hl p hp) ha', (hspec p hp).2.2 a ha'⟩
  have hnear : ∀ a ∈ historyEvents l, RdpAccountant.Ok (libFns orders logAFracSafe) nr a ∧ ∀ i, RdpAccountant.curve (libFns orders logAFracSafe) nr a i ≤
      RdpAccountant.curve (libFns orders logAFrac) nr a i + ((poissonEvents [a] * orderSlack (orders i) : ℝ) : EReal) :=
    fun a ha => atom_near ho nr (hmem a ha).1 (hrep a ha) (hmem a ha).2.2
  refine (sequence_sound (F := libFns orders logAFracSafe) ho (historyEvents l) (fun a ha => ?_) P Q h i).trans ?_
  · exact atom_sound orders ho logAFracSafe C62_fracBound_partial nr _ a (Nat.lt_succ_self _) (hmem a ha).1 (hmem a ha).2.1 (hcov a ha) (hnear a ha).1
  · have e : totalRdp (libFns orders logAFrac) nr l i = ((historyEvents l).map fun a => RdpAccountant.curve (libFns orders logAFrac) nr a i).sum := by
      unfold totalRdp
      rw [sum_apply]
      rfl
    rw [e]
    clear e h hcov hrep
    revert hnear
    generalize historyEvents l = L
    intro hnear
    induction L with
    | nil => simp [poissonEvents]
    | cons a L ih =>
      rw [List.map_cons, List.sum_cons, List.map_cons, List.sum_cons]
      have h1 := (hnear a (by simp)).2 i
      have h2 := ih fun b hb => hnear b (List.mem_cons_of_mem _ hb)
      have hc : (poissonEvents (a :: L) : ℝ) = poissonEvents [a] + poissonEvents L := by
        unfold poissonEvents
        rw [List.countP_cons, List.countP_cons, List.countP_nil]
        push_cast
        ring
      rw [hc, add_mul, EReal.coe_add]
      refine (add_le_add h1 h2).trans (le_of_eq ?_)
      exact add_add_add_comm _ _ _ _

/-- **C62, `get_epsilon`.** If every order contributes at most `η`, a positive finite `eps` returned by `get_epsilon(delta)` for
`delta > 0` is valid up to `η`; a returned 0 is valid up to `η` and with `√(delta² + η)` in place of `delta`. -/
theorem C62_get_epsilon_partial {n : ℕ} (orders : Fin n → ℝ) (ho : ∀ i, 1 ≤ orders i) (nr : NeighborRel) (l : List (DpEvent × ℤ))
    (hl : ∀ p ∈ l, WfCounts p.1) (hacc : Accepted orders logAFrac nr l) (hcov : ∀ e ∈ historyEvents l, Covered e)
    (hrep : ∀ e ∈ historyEvents l, ∀ e' m s, e ≠ .repeatAndSelect e' m s) {Ω : Type} [MeasurableSpace Ω] (P Q : Measure Ω)
    (h : Adaptive ((historyEvents l).map (EventPair nr)) Ω P Q) (η : ℝ) (hη : 0 ≤ η)
    (hs : ∀ i, poissonEvents (historyEvents l) * orderSlack (orders i) ≤ η) (delta eps a : ℝ) (hd : 0 < delta)
    (he : computeEpsilon (List.ofFn orders) (List.ofFn (rdpAfter orders logAFrac nr l)) delta = .ok ((eps : EReal), a)) :
    (0 < eps → Indist P Q (eps + η) delta) ∧ Indist P Q (eps + η) (Real.sqrt (delta ^ 2 + η)) := by
  obtain ⟨hp, hq⟩ := Adaptive.prob h
  obtain ⟨-, h1, x, hx, -, hxe, -⟩ := computeEpsilon_ok hd he
  refine epsFor_slack (h1 x hx) hd hη ?_ eps hxe.symm
  obtain ⟨i, hi, hx'⟩ := List.getElem_of_mem hx
  rw [List.getElem_zip, List.getElem_ofFn, List.getElem_ofFn] at hx'
  rw [← hx']
  exact (C62_rdp_curve_partial orders ho nr l hl hacc hcov hrep P Q h _).trans (add_le_add_right (by exact_mod_cast hs _) _)

/-- **C62, `get_delta`.** Likewise, the `delta` returned by `get_delta(eps)` is valid at `eps + η`, as `√(delta² + η)`. -/
theorem C62_get_delta_partial {n : ℕ} (orders : Fin n → ℝ) (ho : ∀ i, 1 ≤ orders i) (nr : NeighborRel) (l : List (DpEvent × ℤ))
    (hl : ∀ p ∈ l, WfCounts p.1) (hacc : Accepted orders logAFrac nr l) (hcov : ∀ e ∈ historyEvents l, Covered e)
    (hrep : ∀ e ∈ historyEvents l, ∀ e' m s, e ≠ .repeatAndSelect e' m s) {Ω : Type} [MeasurableSpace Ω] (P Q : Measure Ω)
    (h : Adaptive ((historyEvents l).map (EventPair nr)) Ω P Q) (η : ℝ) (hη : 0 ≤ η)
    (hs : ∀ i, poissonEvents (historyEvents l) * orderSlack (orders i) ≤ η) (delta eps a : ℝ)
    (he : computeDelta (List.ofFn orders) (List.ofFn (rdpAfter orders logAFrac nr l)) eps = .ok (delta, a)) :
    Indist P Q (eps + η) (Real.sqrt (delta ^ 2 + η)) := by
  obtain ⟨hp, hq⟩ := Adaptive.prob h
  obtain ⟨h0, -, h1, x, hx, -, hxe, -⟩ := computeDelta_ok he
  rw [hxe]
  refine logDelta_slack (h1 x hx) h0 hη ?_
  obtain ⟨i, hi, hx'⟩ := List.getElem_of_mem hx
  rw [List.getElem_zip, List.getElem_ofFn, List.getElem_ofFn] at hx'
  rw [← hx']
  exact (C62_rdp_curve_partial orders ho nr l hl hacc hcov hrep P Q h _).trans (add_le_add_right (by exact_mod_cast hs _) _)

/-- **C62, size of `η`.** For orders from 1.1 on, of which those above 11 are integers (as the default orders are), `5e-11` for every
Poisson-sampled event suffices. -/
theorem C62_order_slack_small (α : ℝ) (h1 : 1.1 ≤ α) (h2 : 11 < α → ∃ m : ℤ, α = m) : 0 ≤ orderSlack α ∧ orderSlack α ≤ 5e-11 := by
  have hα : 1 < α := by norm_num at h1 ⊢; linarith
  refine ⟨orderSlack_nonneg hα.le, ?_⟩
  unfold orderSlack
  split_ifs with hi
  · norm_num
  have hle : α ≤ 11 := not_lt.1 fun h => hi (h2 h)
  have he := exp_neg_thirty
  have hp := Real.exp_pos (-30)
  have hinv : 0 < (α - 1)⁻¹ := inv_pos.2 (by linarith)
  have hpos : 0 < 2 ^ (⌈α⌉₊ + 1) * Real.exp (-30) := by positivity
  have hlog : fracSlack α ≤ 2 ^ (⌈α⌉₊ + 1) * 9.4e-14 := by
    unfold fracSlack
    have := Real.log_le_sub_one_of_pos (by linarith : 0 < 1 + 2 ^ (⌈α⌉₊ + 1) * Real.exp (-30))
    have := mul_le_mul_of_nonneg_left he (by positivity : (0 : ℝ) ≤ 2 ^ (⌈α⌉₊ + 1))
    linarith
  obtain ⟨c0, c1⟩ := ceil_facts hα hi
  have hm1 : ⌈α⌉₊ ≤ 11 := Nat.ceil_le.2 (by simpa using hle)
  have hm2 : 1 < ⌈α⌉₊ := Nat.lt_ceil.2 (by simpa using hα)
  rw [← div_eq_mul_inv, div_le_iff₀ (by linarith)]
  refine hlog.trans ?_
  norm_num at h1
  generalize ⌈α⌉₊ = m at *
  interval_cases m <;> norm_num at c0 c1 ⊢ <;> linarith

/-- The hypotheses can be met: a Poisson-sampled Gaussian query, composed once, at a fractional order. -/
example : Accepted (fun _ : Fin 1 => 5 / 2) logAFrac .addOrRemoveOne [(.poissonSampled (.float (1 / 2)) (.gaussian (.float 1)), 1)] ∧
    (∀ p ∈ [(DpEvent.poissonSampled (.float (1 / 2)) (.gaussian (.float 1)), (1 : ℤ))], WfCounts p.1) ∧
    (∀ e ∈ historyEvents [(.poissonSampled (.float (1 / 2)) (.gaussian (.float 1)), 1)], Covered e ∧ ∀ e' m s, e ≠ .repeatAndSelect e' m s) ∧
    poissonEvents (historyEvents [(.poissonSampled (.float (1 / 2)) (.gaussian (.float 1)), 1)]) = 1 ∧ orderSlack (5 / 2) ≤ 5e-11 := by
  have hw : ∀ p ∈ [(DpEvent.poissonSampled (.float (1 / 2)) (.gaussian (.float 1)), (1 : ℤ))], WfCounts p.1 := by simp [WfCounts]
  have hen : effNoise (.gaussian (.float 1)) = .ok (.num (.float 1)) := by simp [effNoise]
  have hH : historyEvents [(.poissonSampled (.float (1 / 2)) (.gaussian (.float 1)), 1)] = [.poissonSampled (.float (1 / 2)) (.gaussian (.float 1))] := by
    simp [historyEvents, expand, repeatList]
  have hone : ∃ r, poissonOneOrder logAFrac (1 / 2) (.float 1) ((5 / 2 : ℝ) : EReal) = .ok r := by
    unfold poissonOneOrder
    rw [if_neg (by norm_num), if_neg (by simp [PyNum.val]), if_neg (by norm_num), if_neg (by
      intro h
      have : (5 / 2 : ℝ) = 1 := by exact_mod_cast h
      norm_num at this)]
    exact ⟨_, rfl⟩
  obtain ⟨r, hr⟩ := hone
  have hok : RdpAccountant.Ok (libFns (fun _ : Fin 1 => 5 / 2) logAFrac) .addOrRemoveOne (.poissonSampled (.float (1 / 2)) (.gaussian (.float 1))) := by
    have hq : ¬ ¬ (0 ≤ PyNum.val (.float (1 / 2)) ∧ PyNum.val (.float (1 / 2)) ≤ 1) := by
      rw [not_not]
      exact ⟨by rw [PyNum.val]; exact_mod_cast (by norm_num : (0 : ℝ) ≤ 1 / 2), by rw [PyNum.val]; exact_mod_cast (by norm_num : (1 / 2 : ℝ) ≤ 1)⟩
    have hz' : ¬ PyNum.val (.float 1) < 0 := by rw [not_lt]; simp [PyNum.val]
    have hv : (PyNum.val (.float (1 / 2))).toReal = 1 / 2 := by simp only [PyNum.val, EReal.toReal_coe]
    have hp : poissonGaussian logAFrac (fun _ : Fin 1 => ((5 / 2 : ℝ) : EReal)) (.float (1 / 2)) (.num (.float 1)) = .ok fun _ => r := by
      rw [poissonGaussian, if_neg hq, if_neg hz', hv]
      exact collect_of_ok fun _ => hr
    simp only [RdpAccountant.Ok, RdpAccountant.maybeCompose, hen, if_true, true_or]
    simp only [libFns, fns]
    rw [hp]
    rfl
  refine ⟨(composeAll_spec _ _ _ hw _ Builder.inv_init).1.2 fun p hp => ?_, hw, ?_, ?_, ?_⟩
  · rw [List.mem_singleton] at hp
    subst hp
    refine ⟨by simp [RdpAccountant.verdict, RdpAccountant.maybeCompose, hen], by simp, fun a ha => ?_⟩
    simp only [expand, List.mem_singleton] at ha
    subst ha
    exact hok
  · rw [hH]
    intro e he
    rw [List.mem_singleton] at he
    subst he
    refine ⟨?_, by simp⟩
    rw [Covered]
    exact Or.inl ⟨.float 1, rfl, by simp [PyNum.val], EReal.coe_ne_top 1⟩
  · rw [hH]; rfl
  · exact (C62_order_slack_small (5 / 2) (by norm_num) (fun h => by norm_num at h)).2

end Verif.Props
