import Verif.Model.MixtureInt
import Verif.Proofs.MixtureBuckets

namespace Verif.Mixture.Obj
open Verif Verif.Spec Verif.Pld MeasureTheory
variable {m : Obj}

lemma truncate_truncate (x : ℝ) : truncate (truncate x) = truncate x := by
  unfold truncate
  by_cases h : 0 ≤ x
  · rw [if_pos h, if_pos (by exact_mod_cast Int.floor_nonneg.2 h), Int.floor_intCast]
  · rw [if_neg h]
    split <;> simp

lemma scatter_map {α β : Type} (f : α → β) : ∀ (bs : List Bool) (as cs : List α),
    (scatter bs as cs).map f = scatter bs (as.map f) (cs.map f) := by
  intro bs
  induction bs with
  | nil => intro as cs; simp [scatter]
  | cons b bs ih =>
    intro as cs
    cases b <;> cases as <;> cases cs <;> simp [scatter, ih]

/-- Up to a last truncation, the search for integers finds what the search for floats finds. -/
lemma inverseRangeInt_truncate (p : ℝ) : ∀ (fuel : ℕ) (losses : List ℝ) (lo hi : ℝ),
    (m.inverseRangeInt p fuel losses lo hi).map (List.map truncate) = (m.inverseRange p fuel losses lo hi).map (List.map truncate) := by
  classical
  intro fuel
  induction fuel with
  | zero =>
    intro losses lo hi
    unfold inverseRangeInt inverseRange
    rfl
  | succ fuel ih =>
    intro losses lo hi
    unfold inverseRangeInt inverseRange
    by_cases hl : losses = []
    · rw [if_pos hl, if_pos hl]
    rw [if_neg hl, if_neg hl]
    by_cases hs : hi - lo ≤ p
    · rw [if_pos hs, if_pos hs]
    rw [if_neg hs, if_neg hs]
    have e1 := ih (losses.filter fun l => decide (l < m.privacyLoss ((lo + hi) / 2))) ((lo + hi) / 2) hi
    have e2 := ih (losses.filter fun l => decide (¬ l < m.privacyLoss ((lo + hi) / 2))) lo ((lo + hi) / 2)
    have tt : ∀ l : List ℝ, (l.map truncate).map truncate = l.map truncate := fun l => by
      rw [List.map_map]; exact List.map_congr_left fun x _ => truncate_truncate x
    simp only
    cases a : m.inverseRangeInt p fuel (losses.filter fun l => decide (l < m.privacyLoss ((lo + hi) / 2))) ((lo + hi) / 2) hi <;>
    cases b : m.inverseRange p fuel (losses.filter fun l => decide (l < m.privacyLoss ((lo + hi) / 2))) ((lo + hi) / 2) hi <;>
    cases c : m.inverseRangeInt p fuel (losses.filter fun l => decide (¬ l < m.privacyLoss ((lo + hi) / 2))) lo ((lo + hi) / 2) <;>
    cases d : m.inverseRange p fuel (losses.filter fun l => decide (¬ l < m.privacyLoss ((lo + hi) / 2))) lo ((lo + hi) / 2) <;>
    simp only [a, b, c, d, Option.map_none, Option.map_some, Option.some.injEq, reduceCtorEq] at e1 e2 <;>
    simp only [bind, Option.bind, Option.map_none, Option.map_some, scatter_map, tt, e1, e2]

/-- The search for integers in an interval longer than the precision truncates the cut-offs. -/
lemma inverseRangeInt_eq {p : ℝ} {fuel : ℕ} {losses : List ℝ} {lo hi : ℝ} (hs : p < hi - lo) :
    m.inverseRangeInt p fuel losses lo hi = (m.inverseRange p fuel losses lo hi).map (List.map truncate) := by
  classical
  rw [← inverseRangeInt_truncate]
  cases fuel with
  | zero =>
    unfold inverseRangeInt
    by_cases hl : losses = []
    · rw [if_pos hl]; rfl
    · rw [if_neg hl, if_neg (not_le.2 hs)]; rfl
  | succ fuel =>
    unfold inverseRangeInt
    by_cases hl : losses = []
    · rw [if_pos hl]; rfl
    rw [if_neg hl, if_neg (not_le.2 hs)]
    have tt : ∀ l : List ℝ, (l.map truncate).map truncate = l.map truncate := fun l => by
      rw [List.map_map]; exact List.map_congr_left fun x _ => truncate_truncate x
    simp only
    cases m.inverseRangeInt p fuel (losses.filter fun l => decide (l < m.privacyLoss ((lo + hi) / 2))) ((lo + hi) / 2) hi <;>
    cases m.inverseRangeInt p fuel (losses.filter fun l => decide (¬ l < m.privacyLoss ((lo + hi) / 2))) lo ((lo + hi) / 2) <;>
    simp only [bind, Option.bind, Option.map_none, Option.map_some, scatter_map, tt]

open Classical in
/-- One integer whose two candidates are further apart than the precision. -/
lemma inverseLossesInt_one (h : m.Good) {l p : ℝ} (hp : 0 < p) (hin : m.InRange l) (hf : m.Finite l)
    (hc : p < |m.cand l m.minSens - m.cand l m.maxSens|) (fill : Except Err ℝ) :
    ∃ r : ℝ, m.inverseLosses [l] p = .ok [(r : EReal)] ∧ m.inverseLossesInt fill [l] p = fill.map (fun _ => [truncate r]) ∧
      r ≤ (⌈max (m.cand l m.minSens) (m.cand l m.maxSens) / p⌉ : ℝ) * p ∧
      ∀ z, m.privacyLoss z = l → (z ≤ max (m.cand l m.minSens) (m.cand l m.maxSens) → z - p ≤ r) ∧
        (min (m.cand l m.minSens) (m.cand l m.maxSens) ≤ z → r ≤ z + p) := by
  set lo := (⌊min (m.cand l m.minSens) (m.cand l m.maxSens) / p⌋ : ℝ) * p with hlo
  set hi := (⌈max (m.cand l m.minSens) (m.cand l m.maxSens) / p⌉ : ℝ) * p with hhi
  have hlo' : lo ≤ min (m.cand l m.minSens) (m.cand l m.maxSens) := by
    have := mul_le_mul_of_nonneg_right (Int.floor_le (min (m.cand l m.minSens) (m.cand l m.maxSens) / p)) hp.le
    rwa [div_mul_cancel₀ _ hp.ne'] at this
  have hhi' : max (m.cand l m.minSens) (m.cand l m.maxSens) ≤ hi := by
    have := mul_le_mul_of_nonneg_right (Int.le_ceil (max (m.cand l m.minSens) (m.cand l m.maxSens) / p)) hp.le
    rwa [div_mul_cancel₀ _ hp.ne'] at this
  have hlen : p < hi - lo := by
    have := max_sub_min_eq_abs' (m.cand l m.minSens) (m.cand l m.maxSens)
    linarith
  obtain ⟨out, ho, hr⟩ := inverseRange_spec h hp (depth p lo hi) [l] lo hi (depth_ok hp)
  obtain ⟨r, out', hr1, hr2, rfl⟩ := List.forall₂_cons_left_iff.1 hr
  cases hr2
  have hor : ¬ m.OutOfRange [l] := by
    have i1 := (inverted_iff h _).2 hin
    unfold OutOfRange
    unfold Inverted at i1
    cases hlim : m.limit with
    | none => simp
    | some L =>
      cases hadj : m.adj
      · simp only [hadj, hlim] at i1 ⊢
        simpa using i1.le
      · simp only [hadj, hlim] at i1 ⊢
        simpa using i1
  have hfil : ([l].filter fun l => decide (m.Finite l)) = [l] := by
    rw [List.filter_eq_self]; intro a ha; rw [List.mem_singleton] at ha; subst ha; simpa using hf
  have hfil' : ([l].filter fun l => decide (¬ m.Finite l)) = [] := by
    rw [List.filter_eq_nil_iff]; intro a ha; rw [List.mem_singleton] at ha; subst ha; simpa using hf
  have e1 : m.lowPl [l] [l] = l := by unfold lowPl; cases m.adj <;> simp [listMin]
  have e2 : m.highPl [l] [l] = l := by unfold highPl; cases m.adj <;> simp [listMax]
  set cs := [m.cand l m.minSens, m.cand l m.maxSens, m.cand l m.minSens, m.cand l m.maxSens] with hcs
  have hcand : m.candidates (m.lowPl [l] [l]) (m.highPl [l] [l]) = .ok cs := by rw [e1, e2, candidates_eq h hin hin]; rfl
  have el : (⌊listMin cs / p⌋ : ℝ) * p = lo := by rw [hcs, listMin_pair]
  have eh : (⌈listMax cs / p⌉ : ℝ) * p = hi := by rw [hcs, listMax_pair]
  refine ⟨r, ?_, ?_, hr1.1, fun z hz => ⟨fun hz' => (hr1.2 z hz).1 (hz'.trans hhi'), fun hz' => (hr1.2 z hz).2 (hlo'.trans hz')⟩⟩
  · unfold inverseLosses
    rw [if_neg (not_not.2 (List.pairwise_singleton _ _)), if_neg (by simp), if_neg hor]
    simp only [hfil, hfil']
    rw [if_neg (by simp)]
    change (m.candidates (m.lowPl [l] [l]) (m.highPl [l] [l]) >>= _) = _
    rw [hcand]
    simp only [bind, Except.bind]
    rw [el, eh, ho]
    simp only [List.map_cons, List.map_nil, decide_eq_true hf]
    rfl
  · unfold inverseLossesInt
    rw [if_neg (not_not.2 (List.pairwise_singleton _ _)), if_neg (by simp), if_neg hor]
    simp only [hfil, hfil']
    rw [if_neg (by simp)]
    change (m.candidates (m.lowPl [l] [l]) (m.highPl [l] [l]) >>= _) = _
    rw [hcand]
    simp only [bind, Except.bind]
    cases fill with
    | error e => rfl
    | ok f =>
      simp only []
      rw [el, eh, inverseRangeInt_eq hlen, ho]
      simp only [Option.map_some, List.map_cons, List.map_nil, decide_eq_true hf]
      rfl

open Classical in
/-- `get_delta_for_epsilon` of one integer and of the equal float. -/
lemma getDeltaInt_one (h : m.Good) {n : ℤ} (hin : m.InRange n) (hf : m.Finite n)
    (hc : 1e-6 < |m.cand n m.minSens - m.cand n m.maxSens|) (fill : Except Err ℝ) :
    ∃ r : ℝ, m.getDelta n = .ok (Mech.AdditiveNoise.clip01 (m.cutoffDelta n (r : EReal))) ∧
      m.getDeltaInt fill n = fill.map (fun _ => Mech.AdditiveNoise.clip01 (m.cutoffDelta n (truncate r : EReal))) ∧
      r ≤ (⌈max (m.cand n m.minSens) (m.cand n m.maxSens) / 1e-6⌉ : ℝ) * 1e-6 ∧
      ∀ z, m.privacyLoss z = n → (z ≤ max (m.cand n m.minSens) (m.cand n m.maxSens) → z - 1e-6 ≤ r) ∧
        (min (m.cand n m.minSens) (m.cand n m.maxSens) ≤ z → r ≤ z + 1e-6) := by
  obtain ⟨r, h1, h2, h3⟩ := inverseLossesInt_one h (by norm_num : (0 : ℝ) < 1e-6) hin hf hc fill
  have hinv := (inverted_iff h _).2 hin
  have e : ([(n : ℝ)].filter fun e => m.Inverted e) = [(n : ℝ)] := by
    rw [List.filter_eq_self]; intro a ha; rw [List.mem_singleton] at ha; subst ha; simpa using hinv
  have e' : ([(n : ℝ)].filter fun e => ¬ m.Inverted e) = [] := by
    rw [List.filter_eq_nil_iff]; intro a ha; rw [List.mem_singleton] at ha; subst ha; simpa using hinv
  have hd : decide (m.Inverted (n : ℝ)) = true := decide_eq_true hinv
  refine ⟨r, ?_, ?_, h3⟩
  · unfold getDelta rawDeltas
    rw [if_neg (not_not.2 (List.pairwise_singleton _ _))]
    simp only [e, e', h1, List.map_cons, List.map_nil, hd]
    rfl
  · unfold getDeltaInt rawDeltasInt
    simp only [List.map_cons, List.map_nil]
    rw [if_neg (not_not.2 (List.pairwise_singleton _ _))]
    simp only [e, e', h2, hd]
    cases fill <;> rfl

lemma forall₂_true {α β : Type} {a : List α} {b : List β} : List.Forall₂ (fun _ _ => True) a b ↔ a.length = b.length := by
  rw [List.forall₂_iff_zip]; simp

lemma inverseRangeInt_length {p : ℝ} : ∀ {fuel : ℕ} {losses : List ℝ} {lo hi : ℝ} {out : List ℝ},
    m.inverseRangeInt p fuel losses lo hi = some out → losses.length = out.length := by
  classical
  intro fuel
  induction fuel with
  | zero =>
    intro losses lo hi out ho
    unfold inverseRangeInt at ho
    by_cases hl : losses = []
    · rw [if_pos hl] at ho; cases ho; rw [hl]
    rw [if_neg hl] at ho
    by_cases hs : hi - lo ≤ p
    · rw [if_pos hs] at ho; cases ho; simp
    · rw [if_neg hs] at ho; cases ho
  | succ fuel ih =>
    intro losses lo hi out ho
    unfold inverseRangeInt at ho
    by_cases hl : losses = []
    · rw [if_pos hl] at ho; cases ho; rw [hl]
    rw [if_neg hl] at ho
    by_cases hs : hi - lo ≤ p
    · rw [if_pos hs] at ho; cases ho; simp
    rw [if_neg hs] at ho
    simp only [Option.bind_eq_bind, Option.bind_eq_some_iff, Option.some.injEq] at ho
    obtain ⟨A, hA, B, hB, rfl⟩ := ho
    refine forall₂_true.1 (scatter_forall₂ (P := fun l => l < m.privacyLoss ((lo + hi) / 2)) (forall₂_true.2 ?_) (forall₂_true.2 ?_))
    · rw [List.length_map]; exact ih hA
    · rw [List.length_map]; exact ih hB

lemma inverseLossesInt_length {fill : Except Err ℝ} {losses out : List ℝ} {p : ℝ} (ho : m.inverseLossesInt fill losses p = .ok out) :
    losses.length = out.length := by
  classical
  unfold inverseLossesInt at ho
  split_ifs at ho with h1 h2 h3
  · cases ho; rw [h2]
  · rw [ite_eq_iff'] at ho
    by_cases hf : (losses.filter fun l => decide (m.Finite l)) = []
    · exact absurd (ho.1 hf) (by simp)
    have ho := ho.2 hf
    simp only [Mech.bind_ok] at ho
    obtain ⟨c, _, f, _, ho⟩ := ho
    split at ho
    · cases ho
    · rename_i out' hr
      cases ho
      refine forall₂_true.1 (scatter_forall₂ (P := fun l => m.Finite l) (forall₂_true.2 (inverseRangeInt_length hr)) (forall₂_true.2 ?_))
      rw [List.length_map]

/-- What can be said of a delta reported for an integer. -/
def Below (m : Obj) (ε d : ℝ) : Prop := 0 ≤ d ∧ d ≤ 1 ∧ ∀ δ, IsHs (mixUpper m.σ m.comps m.adj) (mixLower m.σ m.comps m.adj) ε δ → d ≤ δ

lemma below_clip (h : m.Good) {ε x : ℝ} (hx : ∀ δ, IsHs (mixUpper m.σ m.comps m.adj) (mixLower m.σ m.comps m.adj) ε δ → x ≤ δ) :
    m.Below ε (Mech.AdditiveNoise.clip01 x) :=
  have := upper_prob h
  ⟨le_min zero_le_one (le_max_left _ _), min_le_left _ _, fun δ hδ => clip_le (hx δ hδ) (Mech.isHs_range hδ).1⟩

lemma rawDeltasInt_below (h : m.Good) {fill : Except Err ℝ} {eps : List ℤ} {ds : List ℝ} (hd : m.rawDeltasInt fill eps = .ok ds) :
    (eps.map fun n : ℤ => (n : ℝ)).Pairwise (· ≤ ·) ∧ List.Forall₂ m.Below (eps.map fun n : ℤ => (n : ℝ)) ds := by
  classical
  unfold rawDeltasInt at hd
  simp only [] at hd
  generalize (eps.map fun n : ℤ => (n : ℝ)) = e at hd ⊢
  by_cases hs : e.Pairwise (· ≤ ·)
  swap
  · rw [if_pos hs] at hd; cases hd
  rw [if_neg (not_not.2 hs), Mech.bind_ok] at hd
  obtain ⟨xs, hx, hd⟩ := hd
  cases hd
  refine ⟨hs, ?_⟩
  rw [List.forall₂_map_right_iff]
  have hlen := inverseLossesInt_length hx
  refine scatter_forall₂ (P := fun e => m.Inverted e) ?_ ?_
  · rw [List.forall₂_iff_get]
    refine ⟨by rw [List.length_zipWith, ← hlen, min_self], fun i h1 h2 => ?_⟩
    simp only [List.get_eq_getElem, List.getElem_zipWith]
    exact below_clip h fun δ hδ => cutoffDelta_le h hδ.1 _
  · rw [List.forall₂_map_right_iff, List.forall₂_same]
    intro a ha
    have hn : ¬ m.InRange a := fun hc => of_decide_eq_true (List.mem_filter.1 ha).2 ((inverted_iff h a).2 hc)
    exact below_clip h fun δ hδ => (hδ.unique (other_isHs h hn)).symm.le

lemma suffixMax_below (h : m.Good) {eps ds : List ℝ} (hs : eps.Pairwise (· ≤ ·)) (hr : List.Forall₂ m.Below eps ds) :
    List.Forall₂ m.Below eps (suffixMax ds) := by
  induction hr with
  | nil => exact List.Forall₂.nil
  | @cons e d eps ds h1 h2 ih =>
    have hs' := List.pairwise_cons.1 hs
    have ih' := ih hs'.2
    rw [suffixMax]
    cases hsm : suffixMax ds with
    | nil =>
      rw [hsm, List.forall₂_nil_right_iff] at ih'
      subst ih'
      exact List.Forall₂.cons h1 List.Forall₂.nil
    | cons f fs =>
      rw [hsm] at ih'
      refine List.Forall₂.cons ?_ ih'
      obtain ⟨e', es, hef, _, rfl⟩ := List.forall₂_cons_right_iff.1 ih'
      obtain ⟨k0, k1, k2⟩ := h1
      refine ⟨k0.trans (le_max_left _ _), max_le k1 hef.2.1, fun δ hδ => max_le (k2 δ hδ) ?_⟩
      obtain ⟨δ', hδ'⟩ := exists_isHs h e'
      exact (hef.2.2 δ' hδ').trans (hs_anti hδ hδ' (hs'.1 e' (by simp)))

end Verif.Mixture.Obj
