import Verif.Proofs.MixturePld
import Verif.Proofs.MixtureVec

/-! # Mixtures of Gaussians: from the arguments to the privacy loss distribution -/

namespace Verif.Mixture
open Verif Spec Pld MeasureTheory ProbabilityTheory Mech

open Classical in
/-- The pairs with non-zero probability. -/
noncomputable def kept (sens probs : List ℝ) : List (ℝ × ℝ) := (sens.zip probs).filter fun c => c.2 ≠ 0

lemma mem_kept {sens probs : List ℝ} {c : ℝ × ℝ} : c ∈ kept sens probs ↔ c ∈ sens.zip probs ∧ c.2 ≠ 0 := by
  unfold kept; rw [List.mem_filter]; simp

lemma kept_sum (sens probs : List ℝ) : ((kept sens probs).map Prod.snd).sum = ((sens.zip probs).map Prod.snd).sum := by
  unfold kept
  generalize sens.zip probs = l
  induction l with
  | nil => rfl
  | cons c l ih =>
    rw [List.map_cons, List.sum_cons, ← ih]
    by_cases h : c.2 = 0
    · rw [List.filter_cons_of_neg (by simp [h]), h, zero_add]
    · rw [List.filter_cons_of_pos (by simp [h]), List.map_cons, List.sum_cons]

lemma kept_idem (sens probs : List ℝ) (σ : ℝ) : gaussMixture σ (kept sens probs) = gaussMixture σ (sens.zip probs) := by
  unfold kept
  generalize sens.zip probs = l
  induction l with
  | nil => rfl
  | cons c l ih =>
    by_cases h : c.2 = 0
    · rw [List.filter_cons_of_neg (by simp [h]), ih]
      simp [gaussMixture, h]
    · rw [List.filter_cons_of_pos (by simp [h])]
      simp only [gaussMixture, List.map_cons, List.sum_cons] at ih ⊢
      rw [ih]

/-- What the constructor accepts. -/
structure MkOk (σ : ℝ) (sens probs : List ℝ) (logBound : ℝ) : Prop where
  σ0 : 0 < σ
  lb : logBound ≤ 0
  len : probs.length = sens.length
  nonneg : ∀ c ∈ sens.zip probs, c.2 ≠ 0 → 0 ≤ c.1
  pos : ∃ c ∈ sens.zip probs, c.2 ≠ 0 ∧ c.1 ≠ 0
  close : IsClose ((sens.zip probs).map Prod.snd).sum 1
  prob : ∀ c ∈ sens.zip probs, 0 ≤ c.2 ∧ c.2 ≤ 1

open Classical in
lemma mk_iff (σ : ℝ) (sens probs : List ℝ) (pess : Bool) (logBound : ℝ) (adj : Adj) :
    (MkOk σ sens probs logBound → mk σ sens probs pess logBound adj = .ok ⟨σ, kept sens probs, adj, pess, logBound⟩) ∧
    (¬ MkOk σ sens probs logBound → mk σ sens probs pess logBound adj = .error .valueError) := by
  unfold mk
  refine ⟨fun h => ?_, fun h => ?_⟩
  · rw [if_neg (not_le.2 h.σ0), if_neg (not_lt.2 h.lb), if_neg (not_not.2 h.len)]
    change (if ∃ c ∈ kept sens probs, c.1 < 0 then _ else if ∀ c ∈ kept sens probs, c.1 = 0 then _ else
      if ¬ IsClose ((kept sens probs).map Prod.snd).sum 1 then _ else if ∃ c ∈ kept sens probs, c.2 ≤ 0 ∨ c.2 > 1 then _ else _) = _
    have e1 : ¬ ∃ c ∈ kept sens probs, c.1 < 0 := by
      rintro ⟨c, hc, hc'⟩
      rw [mem_kept] at hc
      exact absurd hc' (not_lt.2 (h.nonneg c hc.1 hc.2))
    have e2 : ¬ ∀ c ∈ kept sens probs, c.1 = 0 := by
      intro hc
      obtain ⟨c, h1, h2, h3⟩ := h.pos
      exact h3 (hc c (mem_kept.2 ⟨h1, h2⟩))
    have e3 : ¬ ∃ c ∈ kept sens probs, c.2 ≤ 0 ∨ c.2 > 1 := by
      rintro ⟨c, hc, hc'⟩
      rw [mem_kept] at hc
      obtain ⟨p0, p1⟩ := h.prob c hc.1
      rcases hc' with hc' | hc'
      · exact hc.2 (le_antisymm hc' p0)
      · linarith
    rw [if_neg e1, if_neg e2, kept_sum, if_neg (not_not.2 h.close), if_neg e3]
    rfl
  · simp only []
    split_ifs with a1 a2 a3 a4 a5 a6 a7
    all_goals try rfl
    exfalso
    apply h
    change ¬ ∃ c ∈ kept sens probs, c.1 < 0 at a4
    change ¬ ∀ c ∈ kept sens probs, c.1 = 0 at a5
    change IsClose ((kept sens probs).map Prod.snd).sum 1 at a6
    change ¬ ∃ c ∈ kept sens probs, c.2 ≤ 0 ∨ c.2 > 1 at a7
    push Not at a5
    refine ⟨not_le.1 a1, not_lt.1 a2, not_not.1 a3, fun c hc h0 => ?_, ?_, ?_, fun c hc => ?_⟩
    · by_contra hn
      exact a4 ⟨c, mem_kept.2 ⟨hc, h0⟩, not_le.1 hn⟩
    · obtain ⟨c, hc, h1⟩ := a5
      exact ⟨c, (mem_kept.1 hc).1, (mem_kept.1 hc).2, h1⟩
    · rw [kept_sum] at a6; exact a6
    · by_cases h0 : c.2 = 0
      · rw [h0]; exact ⟨le_rfl, zero_le_one⟩
      · exact ⟨not_lt.1 fun hh => a7 ⟨c, mem_kept.2 ⟨hc, h0⟩, .inl hh.le⟩, not_lt.1 fun hh => a7 ⟨c, mem_kept.2 ⟨hc, h0⟩, .inr hh⟩⟩

lemma MkOk.dist {σ : ℝ} {sens probs : List ℝ} {lb : ℝ} (h : MkOk σ sens probs lb) (h1 : ((sens.zip probs).map Prod.snd).sum = 1) :
    SensDist (kept sens probs) where
  sens c hc := h.nonneg c (mem_kept.1 hc).1 (mem_kept.1 hc).2
  prob c hc := lt_of_le_of_ne (h.prob c (mem_kept.1 hc).1).1 (Ne.symm (mem_kept.1 hc).2)
  sum := by rw [kept_sum, h1]
  pos := by
    obtain ⟨c, hc, h0, h2⟩ := h.pos
    exact ⟨c, mem_kept.2 ⟨hc, h0⟩, lt_of_le_of_ne (h.nonneg c hc h0) (Ne.symm h2)⟩

namespace Obj
variable {m : Obj}

lemma upperCdf_at_lower (h : m.Good) (hadj : m.adj = .remove) {z t : ℝ} (hz : gcdf m.σ z = t) :
    m.muUpperCdf ((z - m.maxSens : ℝ) : EReal) ≤ t := by
  unfold muUpperCdf
  simp only [hadj]
  have hn := gcdf_noise h.σ0
  have : ∀ c ∈ m.comps, m.noiseCdf (((z - m.maxSens : ℝ) : EReal) + (c.1 : EReal)) * c.2 ≤ t * c.2 := by
    intro c hc
    refine mul_le_mul_of_nonneg_right ?_ (h.dist.prob c hc).le
    rw [← EReal.coe_add, noiseCdf_eq, below_coe, ← hz]
    exact hn.mono (by
      rcases (h.dist.sens c hc).eq_or_lt with h0 | h0
      · rw [← h0]; linarith [maxSens_pos h]
      · linarith [le_maxSens h (c := c) (List.mem_filter.2 ⟨hc, decide_eq_true h0⟩)])
  refine (sum_le_of this).trans (le_of_eq ?_)
  have e : (m.comps.map fun c => t * c.2) = (m.comps.map Prod.snd).map fun x => t * x := by rw [List.map_map]; rfl
  rw [e, List.sum_map_mul_left, List.map_id', h.dist.sum, mul_one]

lemma truncation_terminates (h : m.Good) (ppf : ℝ → ℝ) (hz : gcdf m.σ (ppf (0.5 * Real.exp m.logBound)) = 0.5 * Real.exp m.logBound) :
    ∃ N, ∀ fuel ≥ N, ∃ b, m.bounds fuel ppf = some (.ok b) := by
  unfold bounds truncation
  cases hadj : m.adj
  · exact ⟨0, fun fuel _ => ⟨_, rfl⟩⟩
  · simp only []
    set t := 0.5 * Real.exp m.logBound
    have hmax := maxSens_pos h
    obtain ⟨N, hN⟩ := Props.C25_terminates (fun x => m.muUpperCdf (x : EReal)) t
      ⟨((ppf t - m.maxSens : ℝ) : EReal), (ppf t : EReal), none, 1e-4, false⟩ true
      ⟨by rw [EReal.coe_le_coe_iff]; linarith, fun g hg => by simp at hg⟩ (fun hc => by simp at hc) (by norm_num)
      ⟨ppf t, fun x hx => .inl (EReal.coe_le_coe_iff.2 hx)⟩
    refine ⟨N, fun fuel hf => ?_⟩
    have h1 := hN fuel hf
    have h2 : InverseMonotone.inverse fuel (fun x => m.muUpperCdf (x : EReal)) t
        ⟨((ppf t - m.maxSens : ℝ) : EReal), (ppf t : EReal), none, 1e-4, false⟩ true ≠ .notFound := by
      rw [Ne, Props.C25_none_iff, if_pos rfl]
      rintro ⟨l, hl, hv⟩
      have : l = ppf t - m.maxSens := (EReal.coe_eq_coe_iff.1 hl).symm
      rw [this] at hv
      exact absurd hv (not_lt.2 (upperCdf_at_lower h hadj hz))
    have h3 : InverseMonotone.inverse fuel (fun x => m.muUpperCdf (x : EReal)) t
        ⟨((ppf t - m.maxSens : ℝ) : EReal), (ppf t : EReal), none, 1e-4, false⟩ true ≠ .infiniteInterval := by
      unfold InverseMonotone.inverse
      split_ifs with hc
      · simp
      · simp only [InverseMonotone.finish]
        rw [if_neg (by rintro (hc | hc | hc | hc) <;> exact absurd hc (by first | exact EReal.coe_ne_bot _ | exact EReal.coe_ne_top _))]
        split <;> simp
    generalize InverseMonotone.inverse fuel (fun x => m.muUpperCdf (x : EReal)) t
        ⟨((ppf t - m.maxSens : ℝ) : EReal), (ppf t : EReal), none, 1e-4, false⟩ true = r at h1 h2 h3
    cases r with
    | found x => exact ⟨_, rfl⟩
    | notFound => exact absurd rfl h2
    | infiniteInterval => exact absurd rfl h3
    | outOfFuel => exact absurd rfl h1

end Obj

variable {ppf : ℝ → ℝ → ℝ} {σ disc lb : ℝ} {sens probs : List ℝ}

lemma singlePmf_valid (hppf : NormalQuantile ppf) (hlb : lb < 0) (hd : 0 < disc) (h1 : ((sens.zip probs).map Prod.snd).sum = 1)
    {fuel : ℕ} {adj : Adj} {pmf : Pmf} (hp : singlePmf fuel (ppf σ) σ sens probs disc lb adj = some (.ok pmf)) :
    MkOk σ sens probs lb ∧ ((⟨σ, kept sens probs, adj, true, lb⟩ : Obj).GridWeak disc →
      ∀ ε, Indist (mixUpper σ (kept sens probs) adj) (mixLower σ (kept sens probs) adj) ε
        (pmf.getDeltaForEpsilon ε + (⟨σ, kept sens probs, adj, true, lb⟩ : Obj).tol)) := by
  by_cases hok : MkOk σ sens probs lb
  · refine ⟨hok, fun hg ε => ?_⟩
    unfold singlePmf at hp
    rw [(mk_iff σ sens probs true lb adj).1 hok] at hp
    simp only [] at hp
    set m : Obj := ⟨σ, kept sens probs, adj, true, lb⟩ with hm
    have h : m.Good := ⟨hok.σ0, hok.dist h1⟩
    have ht : 0 < 0.5 * Real.exp m.logBound := by positivity
    have ht' : 0.5 * Real.exp m.logBound < 1 / 2 := by
      have : Real.exp lb < 1 := Real.exp_lt_one_iff.2 hlb
      change 0.5 * Real.exp lb < 1 / 2
      norm_num at this ⊢
      linarith
    have hz := quantile_nonpos hppf hok.σ0 ht ht'
    cases hb : m.bounds fuel (ppf σ) with
    | none => rw [hb] at hp; simp at hp
    | some r =>
      rw [hb] at hp
      simp only [Option.map_some, Option.some.injEq] at hp
      cases r with
      | error e => cases hp
      | ok b =>
        change m.dots b disc = .ok pmf at hp
        exact Obj.dots_valid h hd hg (Obj.bounds_spec h hz hb) hp ε
  · unfold singlePmf at hp
    rw [(mk_iff σ sens probs true lb adj).2 hok] at hp
    simp at hp

lemma singlePmf_accept (hppf : NormalQuantile ppf) (hlb : lb < 0) (hd : 0 < disc) (h1 : ((sens.zip probs).map Prod.snd).sum = 1)
    (hok : MkOk σ sens probs lb) {adj : Adj} (hg : (⟨σ, kept sens probs, adj, true, lb⟩ : Obj).GridOk disc) :
    ∃ N, ∀ fuel ≥ N, ∃ pmf, singlePmf fuel (ppf σ) σ sens probs disc lb adj = some (.ok pmf) := by
  set m : Obj := ⟨σ, kept sens probs, adj, true, lb⟩ with hm
  have h : m.Good := ⟨hok.σ0, hok.dist h1⟩
  have ht : 0 < 0.5 * Real.exp m.logBound := by positivity
  have ht' : 0.5 * Real.exp m.logBound < 1 / 2 := by
    have : Real.exp lb < 1 := Real.exp_lt_one_iff.2 hlb
    change 0.5 * Real.exp lb < 1 / 2
    norm_num at this ⊢
    linarith
  have hz := quantile_nonpos hppf hok.σ0 ht ht'
  obtain ⟨N, hN⟩ := Obj.truncation_terminates h (ppf σ) (hppf σ _ hok.σ0 ht (by linarith))
  refine ⟨N, fun fuel hf => ?_⟩
  obtain ⟨b, hb⟩ := hN fuel hf
  obtain ⟨k, hk, ha⟩ := Obj.exists_anchor h hd hg (Obj.bounds_spec h hz hb)
  obtain ⟨pmf, hp⟩ := Obj.dots_accept h hd hk ha
  refine ⟨pmf, ?_⟩
  unfold singlePmf
  rw [(mk_iff σ sens probs true lb adj).1 hok]
  simp only []
  rw [← hm, hb]
  simp only [Option.map_some, Option.some.injEq]
  exact hp

lemma fromMixture_ok {fuel : ℕ} {ppf : ℝ → ℝ} {p : Pld} (hp : fromMixture fuel ppf σ sens probs disc lb = some (.ok p)) :
    ∃ r a, singlePmf fuel ppf σ sens probs disc lb .remove = some (.ok r) ∧ singlePmf fuel ppf σ sens probs disc lb .add = some (.ok a) ∧
      p = Pld.mk' r (some a) := by
  unfold fromMixture at hp
  split at hp
  · simp at hp
  · simp at hp
  · rename_i r hr
    split at hp
    · simp at hp
    · simp at hp
    · rename_i a ha
      simp only [Option.some.injEq] at hp
      exact ⟨r, a, hr, ha, (Except.ok.inj hp).symm⟩

end Verif.Mixture
