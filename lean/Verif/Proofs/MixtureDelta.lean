import Verif.Proofs.MixtureInverse

/-! # Mixtures of Gaussians: `get_delta_for_epsilon` -/

namespace Verif.Mixture
open Verif Spec Pld MeasureTheory ProbabilityTheory Mech

namespace Obj
variable {m : Obj}

local notation "P[" m "]" => mixUpper (Obj.σ m) (Obj.comps m) (Obj.adj m)
local notation "Q[" m "]" => mixLower (Obj.σ m) (Obj.comps m) (Obj.adj m)

/-- Outside the range of the loss. -/
lemma other_isHs (h : m.Good) {ε : ℝ} (hε : ¬ m.InRange ε) : IsHs P[m] Q[m] ε (m.otherDelta ε) := by
  have f1 := upper_prob h
  have f2 := lower_prob h
  have hd1 := upper_density h
  have hd2 := lower_density h
  unfold InRange tOf at hε
  unfold otherDelta
  have g1 := f1
  have g2 := f2
  rw [hd1] at g1
  rw [hd2] at g2
  cases hadj : m.adj
  · simp only [hadj] at hε hd1 hd2 f1 f2 ⊢
    have key := isHs_of_density (base m.σ) (measurable_up m) (measurable_low m) (fun x => (low_pos h x).le) ε (S := ∅)
      MeasurableSet.empty (fun x hx => hx.elim) (fun x _ => by
        unfold up low
        simp only [hadj]
        have h1 := (ratio_gt h x).le
        have h2 : Real.exp ε * Real.exp (-ε) = 1 := by rw [← Real.exp_add]; simp
        have := mul_le_mul_of_nonneg_left ((not_lt.1 hε).trans h1) (Real.exp_pos ε).le
        linarith)
    rw [← hd1, ← hd2] at key
    simpa using key
  · simp only [hadj] at hε hd1 hd2 f1 f2 ⊢
    have key := isHs_of_density (base m.σ) (measurable_up m) (measurable_low m) (fun x => (low_pos h x).le) ε (S := Set.univ)
      MeasurableSet.univ (fun x _ => by
        unfold up low
        simp only [hadj]
        have h1 := (ratio_gt h (-x)).le
        linarith) (fun x hx => absurd (Set.mem_univ x) hx)
    rw [← hd1, ← hd2, probReal_univ, probReal_univ] at key
    convert key using 1
    ring

lemma exists_isHs (h : m.Good) (ε : ℝ) : ∃ δ, IsHs P[m] Q[m] ε δ := by
  by_cases hε : m.InRange ε
  · obtain ⟨z, rfl⟩ := exists_inverse h hε
    exact ⟨_, isHs_cutoff h z⟩
  · exact ⟨_, other_isHs h hε⟩

lemma hs_anti {Ω : Type*} [MeasurableSpace Ω] {P Q : Measure Ω} {e e' d d' : ℝ} (h : IsHs P Q e d) (h' : IsHs P Q e' d') (he : e ≤ e') :
    d' ≤ d := h'.2 fun S hS => (h.1 S hS).trans (by
      have := mul_le_mul_of_nonneg_right (Real.exp_le_exp.2 he) (measureReal_nonneg (μ := Q) (s := S))
      linarith)

/-- Relative and absolute tolerance of the comparison with the limit. -/
noncomputable def window (m : Obj) : ℝ := match m.limit with | none => 0 | some L => 1e-8 + 1e-5 * |L|

/-- Close to the limit. -/
lemma infinite_close (h : m.Good) {ε δ : ℝ} (hr : m.InRange ε) (hf : ¬ m.Finite ε) (hi : IsHs P[m] Q[m] ε δ) :
    δ ≤ Mech.AdditiveNoise.clip01 (m.cutoffDelta ε m.infinite) + m.window := by
  have f1 := upper_prob h
  have f2 := lower_prob h
  rw [cutoffDelta_eq h]
  have hinv := (inverted_iff h ε).2 hr
  have hir := inverted_iff h
  unfold Finite at hf
  unfold Inverted at hinv hir
  unfold window infinite
  cases hlim : m.limit with
  | none => simp [hlim] at hf
  | some L =>
    simp only [hlim, not_not] at hf hinv hir ⊢
    unfold NpClose at hf
    obtain ⟨d0, hd0⟩ := exists_isHs h L
    have hL : ¬ m.InRange L := fun hc => by
      have := (hir L).2 hc
      cases hadj : m.adj <;> simp [hadj] at this
    have hd0' := hd0.unique (other_isHs h hL)
    unfold otherDelta at hd0'
    cases hadj : m.adj
    · simp only [hadj] at *
      have e1 : below (⊥ : EReal) = ∅ := by ext y; simp [below]
      rw [e1, measureReal_empty, measureReal_empty, mul_zero, sub_zero]
      have : Mech.AdditiveNoise.clip01 0 = 0 := by simp [Mech.AdditiveNoise.clip01]
      rw [this, zero_add]
      refine hi.2 fun S hS => ?_
      have k := hd0.1 S hS
      rw [hd0', add_zero] at k
      have hP : (mixUpper m.σ m.comps Adj.add).real S ≤ 1 := measureReal_le_one
      have hPn : 0 ≤ (mixUpper m.σ m.comps Adj.add).real S := measureReal_nonneg
      have he : Real.exp (ε - L) * Real.exp L = Real.exp ε := by rw [← Real.exp_add]; ring_nf
      have h1 : Real.exp (ε - L) * (mixUpper m.σ m.comps Adj.add).real S ≤ Real.exp ε * (mixLower m.σ m.comps Adj.add).real S := by
        have := mul_le_mul_of_nonneg_left k (Real.exp_pos (ε - L)).le
        rwa [← mul_assoc, he] at this
      have h2 := Real.add_one_le_exp (ε - L)
      have h3 := abs_le.1 hf
      nlinarith
    · simp only [hadj] at *
      have e1 : below (⊤ : EReal) = Set.univ := by ext y; simp [below]
      rw [e1, probReal_univ, probReal_univ, mul_one]
      have h0 := hs_anti hd0 hi (le_of_lt hinv)
      have h3 := abs_le.1 hf
      have e0 := Real.exp_pos L
      have h2 := Real.add_one_le_exp (L - ε)
      have he : Real.exp (L - ε) * Real.exp ε = Real.exp L := by rw [← Real.exp_add]; ring_nf
      rcases le_total ε 0 with hε | hε
      · have : 1 - Real.exp ε ≤ Mech.AdditiveNoise.clip01 (1 - Real.exp ε) := by
          unfold Mech.AdditiveNoise.clip01
          have := Real.exp_le_one_iff.2 hε
          have := Real.exp_pos ε
          exact le_min (by linarith) (le_max_right _ _)
        have e1 := Real.exp_le_one_iff.2 hε
        have e2 := Real.exp_pos ε
        nlinarith
      · have : 0 ≤ Mech.AdditiveNoise.clip01 (1 - Real.exp ε) := le_min zero_le_one (le_max_left _ _)
        have := Real.add_one_le_exp L
        linarith

/-- What a reported delta is worth. -/
def Reported (m : Obj) (cov : Prop) (ε d : ℝ) : Prop := ∀ δ, IsHs P[m] Q[m] ε δ →
  d ≤ δ ∧ (¬ m.InRange ε → d = δ) ∧ (m.InRange ε → ¬ m.Finite ε → δ ≤ d + m.window) ∧
    (cov → m.InRange ε → m.Finite ε → δ ≤ d + m.slack 1e-6)

lemma clip_le {x δ : ℝ} (h : x ≤ δ) (h0 : 0 ≤ δ) : Mech.AdditiveNoise.clip01 x ≤ δ := (min_le_right _ _).trans (max_le h0 h)

lemma le_clip {x δ η : ℝ} (h : δ ≤ x + η) (h1 : δ ≤ 1) (hη : 0 ≤ η) : δ ≤ Mech.AdditiveNoise.clip01 x + η := by
  unfold Mech.AdditiveNoise.clip01
  rcases min_choice 1 (max 0 x) with e | e <;> rw [e]
  · linarith
  · have := le_max_right 0 x
    linarith

lemma slack_nonneg (h : m.Good) {p : ℝ} (hp : 0 ≤ p) : 0 ≤ m.slack p := by
  unfold slack
  have : 1 ≤ Real.exp (m.maxSens * p / m.σ ^ 2) := Real.one_le_exp (div_nonneg (mul_nonneg (maxSens_pos h).le hp) h.v0.le)
  exact mul_nonneg (mul_nonneg (by unfold peak; positivity) hp) (by linarith)

open Classical in
/-- `get_delta_for_epsilon` before the running maximum. -/
lemma rawDeltas_spec (h : m.Good) {eps fin : List ℝ} (hs : eps.Pairwise (· ≤ ·))
    (hfin : fin = (eps.filter fun e => m.Inverted e).filter fun l => m.Finite l)
    (hne : (∀ e ∈ eps, ¬ m.InRange e) ∨ fin ≠ []) :
    ∃ ds, m.rawDeltas eps = .ok ds ∧ List.Forall₂ (m.Reported (m.Covered fin)) eps ds := by
  have f1 := upper_prob h
  set inv := eps.filter fun e => m.Inverted e with hinv
  have hs' : inv.Pairwise (· ≤ ·) := hs.filter _
  have hin : ∀ l ∈ inv, m.InRange l := fun l hl => (inverted_iff h l).1 (of_decide_eq_true (List.mem_filter.1 hl).2)
  obtain ⟨xs, hxs, hr⟩ : ∃ xs, m.inverseLosses inv 1e-6 = .ok xs ∧ List.Forall₂ (fun l x =>
      (m.Finite l → ∃ r : ℝ, x = (r : EReal) ∧ (m.Covered fin → ∀ z, m.privacyLoss z = l → |r - z| ≤ 1e-6)) ∧
      (¬ m.Finite l → x = m.infinite)) inv xs := by
    by_cases hf : fin = []
    · have : inv = [] := by
        rcases hne with hne | hne
        · rw [hinv, List.filter_eq_nil_iff]
          intro e he hc
          exact hne e he ((inverted_iff h e).1 (of_decide_eq_true hc))
        · exact absurd hf hne
      refine ⟨[], ?_, by rw [this]; exact List.Forall₂.nil⟩
      unfold inverseLosses
      rw [if_neg (not_not.2 hs'), if_pos this]
    · obtain ⟨out, c, h1, _, h3⟩ := inverseLosses_spec h (by norm_num : (0:ℝ) < 1e-6) hs' hin hfin hf
      exact ⟨out, h1, h3.imp fun l x hx => ⟨fun hl => by
        obtain ⟨r, r1, _, _, r3⟩ := hx.1 hl
        exact ⟨r, r1, r3⟩, hx.2⟩⟩
  refine ⟨(scatter (eps.map fun e => decide (m.Inverted e)) (List.zipWith m.cutoffDelta inv xs)
      ((eps.filter fun e => ¬ m.Inverted e).map m.otherDelta)).map Mech.AdditiveNoise.clip01, ?_, ?_⟩
  · unfold rawDeltas
    rw [if_neg (not_not.2 hs)]
    change (m.inverseLosses inv 1e-6 >>= _) = _
    rw [hxs]
    rfl
  · rw [List.forall₂_map_right_iff]
    refine scatter_forall₂ (P := fun e => m.Inverted e) ?_ ?_
    · rw [← hinv]
      rw [List.forall₂_iff_get] at hr ⊢
      obtain ⟨hlen, hr⟩ := hr
      refine ⟨by rw [List.length_zipWith, ← hlen, min_self], fun i h1 h2 => ?_⟩
      have h2' : i < xs.length := hlen ▸ h1
      obtain ⟨r1, r2⟩ := hr i h1 h2'
      have hmem := hin _ (List.get_mem inv ⟨i, h1⟩)
      have hz : (List.zipWith m.cutoffDelta inv xs).get ⟨i, h2⟩ = m.cutoffDelta (inv.get ⟨i, h1⟩) (xs.get ⟨i, h2'⟩) := by
        simp only [List.get_eq_getElem, List.getElem_zipWith]
      rw [hz]
      intro δ hδ
      obtain ⟨d0, d1⟩ := isHs_range hδ
      refine ⟨clip_le (cutoffDelta_le h hδ.1 _) d0, fun hn => absurd hmem hn, fun _ hn => ?_, fun hcov _ hf => ?_⟩
      · rw [r2 hn]
        exact infinite_close h hmem hn hδ
      · obtain ⟨r, e, hr⟩ := r1 hf
        obtain ⟨z, hz⟩ := exists_inverse h hmem
        rw [e]
        refine le_clip ?_ d1 (slack_nonneg h (by norm_num))
        rw [← hz] at hδ ⊢
        exact cutoff_close h (hr hcov z hz) hδ
    · rw [List.forall₂_map_right_iff, List.forall₂_same]
      intro e he δ hδ
      have hn : ¬ m.InRange e := fun hc => of_decide_eq_true (List.mem_filter.1 he).2 ((inverted_iff h e).2 hc)
      have e0 := hδ.unique (other_isHs h hn)
      have := clip_isHs (other_isHs h hn)
      rw [this, e0]
      exact ⟨le_rfl, fun _ => rfl, fun hc => absurd hc hn, fun _ hc => absurd hc hn⟩

lemma suffixMax_spec {cov : Prop} (h : m.Good) {eps ds : List ℝ} (hs : eps.Pairwise (· ≤ ·)) (hr : List.Forall₂ (m.Reported cov) eps ds) :
    List.Forall₂ (m.Reported cov) eps (suffixMax ds) := by
  induction hr with
  | nil => exact List.Forall₂.nil
  | @cons e d eps ds h1 h2 ih =>
    have hs' := List.pairwise_cons.1 hs
    have ih' := ih hs'.2
    rw [suffixMax]
    cases hsm : suffixMax ds with
    | nil =>
      rw [hsm] at ih'
      rw [List.forall₂_nil_right_iff] at ih'
      subst ih'
      exact List.Forall₂.cons h1 List.Forall₂.nil
    | cons f fs =>
      rw [hsm] at ih'
      refine List.Forall₂.cons ?_ ih'
      obtain ⟨e', es, hef, _, rfl⟩ := List.forall₂_cons_right_iff.1 ih'
      intro δ hδ
      obtain ⟨k1, k2, k3, k4⟩ := h1 δ hδ
      obtain ⟨δ', hδ'⟩ := exists_isHs h e'
      have hf : f ≤ δ := (hef δ' hδ').1.trans (hs_anti hδ hδ' (hs'.1 e' (by simp)))
      refine ⟨max_le k1 hf, fun hn => ?_, fun a b => ?_, fun a b c => ?_⟩
      · have := k2 hn
        subst this
        exact max_eq_left hf
      · exact (k3 a b).trans (by linarith [le_max_left d f])
      · exact (k4 a b c).trans (by linarith [le_max_left d f])

open Classical in
lemma getDeltas_spec (h : m.Good) {eps fin : List ℝ} (hs : eps.Pairwise (· ≤ ·))
    (hfin : fin = (eps.filter fun e => m.Inverted e).filter fun l => m.Finite l)
    (hne : (∀ e ∈ eps, ¬ m.InRange e) ∨ fin ≠ []) :
    ∃ ds, m.getDeltas eps = .ok ds ∧ List.Forall₂ (m.Reported (m.Covered fin)) eps ds := by
  obtain ⟨ds, h1, h2⟩ := rawDeltas_spec h hs hfin hne
  exact ⟨suffixMax ds, by unfold getDeltas; rw [h1]; rfl, suffixMax_spec h hs h2⟩

end Obj
end Verif.Mixture
