import Verif.Proofs.MixtureSpec

/-! # Mixtures of Gaussians: what the accountant needs of the privacy loss distribution -/

namespace Verif.PldPmf
open Verif Verif.Spec MeasureTheory

/-- The law of connect-the-dots with arbitrary deltas: it is above every mechanism that the PMF is above, up to the same error. -/
lemma dots_law {disc : ℝ} (hd : 0 < disc) {eps : List ℤ} {deltas : List ℝ} {m : Pmf} (hm : connectDots disc eps deltas = .ok m) :
    ∃ L : LossLaw, AtLeast m.infinityMass m.disc m.points L ∧ ∀ {Ω : Type} [MeasurableSpace Ω] (P Q : Measure Ω) [IsProbabilityMeasure P]
      (τ : ℝ), 0 ≤ τ → CurveValid P Q (fun e => m.getDeltaForEpsilon e + τ) → CurveValid P Q fun e => L.hs e + τ := by
  obtain ⟨hok, g1, g2, g3, g6⟩ := Props.dots_ok hd hm
  have hI := incr_zip hok.incr deltas
  have hne : eps.zip deltas ≠ [] := by
    intro h
    have := congrArg List.length h
    rw [List.length_zip, hok.len, min_self] at this
    exact hok.ne (List.length_eq_zero_iff.1 (hok.len.trans this))
  have hr : 0 ≤ m.infinityMass ∧ m.infinityMass ≤ 1 := by
    rw [g3, lastD_zip _ _ hok.len, List.getLastD_eq_getLast?]
    rcases h : deltas.getLast? with _ | d
    · simp
    · exact hok.range d (List.mem_of_getLast? h)
  set pts := (raw disc 0 1 (eps.zip deltas)).map fun x => (x.1, max 0 x.2) with hpts
  have hinc : pts.Pairwise fun a b => a.1 < b.1 := by
    have : (pts.map Prod.fst).Pairwise (· < ·) := by
      have e : pts.map Prod.fst = (raw disc 0 1 (eps.zip deltas)).map Prod.fst := by rw [hpts, List.map_map]; rfl
      rw [e, raw_fst, List.pairwise_map]
      exact hI
    rwa [List.pairwise_map] at this
  have hnn : ∀ x ∈ pts, 0 ≤ x.2 := by
    intro x hx
    obtain ⟨y, _, rfl⟩ := List.mem_map.1 hx
    exact le_max_left _ _
  have hmass : 1 ≤ m.infinityMass + expect pts (fun _ => 1) := by
    have h1 : lastD (eps.zip deltas) + expect (raw disc 0 1 (eps.zip deltas)) (fun _ => 1) = 1 := by
      revert hI hne
      generalize eps.zip deltas = D
      intro hI hne
      obtain ⟨⟨e, d⟩, l, rfl⟩ := List.exists_cons_of_ne_nil hne
      rw [(raw_mass hd 0 1 e d l (Real.exp_pos _) hI).1]
      simp
    have h2 : ∀ l : List (ℤ × ℝ), expect l (fun _ => 1) ≤ expect (l.map fun x => (x.1, max 0 x.2)) (fun _ => 1) := by
      intro l
      induction l with
      | nil => simp
      | cons a l ih =>
        obtain ⟨k, v⟩ := a
        simp only [List.map_cons, expect_cons, mul_one]
        exact add_le_add (le_max_right _ _) ih
    have h3 := h2 (raw disc 0 1 (eps.zip deltas))
    rw [g3]
    linarith
  obtain ⟨L, h1, h2⟩ := exists_law_trim hd hr.1 hr.2 hnn hinc hmass
  refine ⟨L, fun φ hmo h0 h1' => ?_, fun P Q _ τ hτ hc e S hS => ?_⟩
  · rw [g6, g2]; exact h1 φ hmo h0 h1'
  · refine h2 (P.real S) (Q.real S) τ (by linarith [measureReal_le_one (μ := P) (s := S)]) (fun e => ?_) e
    have := hc e S hS
    simp only [Pmf.getDelta_eq_hs m g1] at this
    have e1 : m.hs e = hockeyStick m.infinityMass disc pts e := by
      show hockeyStick _ _ _ _ = _
      unfold hockeyStick
      rw [g6, g2]
    rwa [e1] at this

end Verif.PldPmf

namespace Verif.Mixture
open Verif Spec Pld MeasureTheory ProbabilityTheory Mech

namespace Obj
variable {m : Obj}

local notation "P[" m "]" => mixUpper (Obj.σ m) (Obj.comps m) (Obj.adj m)
local notation "Q[" m "]" => mixLower (Obj.σ m) (Obj.comps m) (Obj.adj m)

/-- The upper bound is the loss at a point below which little mass is. -/
lemma bounds_tail (h : m.Good) {fuel : ℕ} {ppf : ℝ → ℝ} (hz : gcdf m.σ (ppf (0.5 * Real.exp m.logBound)) ≤ 0.5 * Real.exp m.logBound)
    {b : ℝ × ℝ} (hb : m.bounds fuel ppf = some (.ok b)) :
    ∃ x : ℝ, b.2 = m.privacyLoss x ∧ P[m].real (Set.Iic x) ≤ 0.5 * Real.exp m.logBound := by
  have key := muUpperCdf_eq h
  unfold bounds truncation at hb
  cases hadj : m.adj
  · simp only [hadj, Option.map_some, Option.some.injEq] at hb
    have := Except.ok.inj hb
    subst this
    exact ⟨_, rfl, hz⟩
  · simp only [hadj] at hb key
    split at hb
    · rename_i x hx
      simp only [Option.map_some, Option.some.injEq] at hb
      have := Except.ok.inj hb
      subst this
      have := Props.C25_found_feasible _ _ _ _ _ _ hx
      rw [key, below_coe] at this
      exact ⟨x, rfl, this⟩
    · simp at hb; cases hb
    · simp at hb; cases hb
    · simp at hb

open Classical in
/-- Well-formed, with a tiny infinity mass. -/
lemma dots_inf (h : m.Good) {b : ℝ × ℝ} {disc : ℝ} (hd : 0 < disc) (hb : b.1 ≤ m.privacyLoss 0 ∧ m.privacyLoss 0 ≤ b.2)
    {x t : ℝ} (hx : b.2 = m.privacyLoss x) (ht : P[m].real (Set.Iic x) ≤ t) {pmf : Pmf} (hp : m.dots b disc = .ok pmf) :
    (pmf.WF ∧ pmf.NonNeg ∧ pmf.disc = disc ∧ pmf.pessimistic = true) ∧ pmf.infinityMass ≤ t ∧
      ∃ L : LossLaw, AtLeast pmf.infinityMass pmf.disc pmf.points L ∧ ∀ {Ω : Type} [MeasurableSpace Ω] (P Q : Measure Ω)
        [IsProbabilityMeasure P] (τ : ℝ), 0 ≤ τ → CurveValid P Q (fun e => pmf.getDeltaForEpsilon e + τ) →
          CurveValid P Q fun e => L.hs e + τ := by
  unfold dots at hp
  change (m.getDeltas ((grid b disc).map fun k : ℤ => (k : ℝ) * disc) >>= _) = _ at hp
  rw [bind_ok] at hp
  obtain ⟨ds, hds, hp⟩ := hp
  obtain ⟨hr, hne⟩ := getDeltas_ok h rfl hds
  rw [Props.C20_fixed_gap_agrees disc hd] at hp
  refine ⟨?_, ?_, PldPmf.dots_law hd hp⟩
  · obtain ⟨c1, c2⟩ := Props.C20_accepts disc hd (PldCommon.pyRange ⌊b.1 / disc⌋ (⌈b.2 / disc⌉ + 1)) ds
    have hok := (Props.dots_ok hd hp).1
    obtain ⟨m', e, k⟩ := c1 ⟨hok.len, hok.ne, hok.incr, hok.range, hok.anti⟩
    rw [hp] at e
    cases e
    exact k
  · obtain ⟨hok, -, -, g3, -⟩ := Props.dots_ok hd hp
    have hk : ⌈b.2 / disc⌉ ∈ grid b disc := mem_grid.2 ⟨(loss_zero_grid h hd hb).2.2, le_rfl⟩
    obtain ⟨i, hi, he⟩ := List.getElem_of_mem hk
    have hi' : i < ds.length := by
      have := hok.len
      change (grid b disc).length = _ at this
      omega
    have hmem : (⌈b.2 / disc⌉, ds[i]) ∈ (grid b disc).zip ds := by
      rw [← he]
      refine List.mem_iff_getElem.2 ⟨i, by rw [List.length_zip]; omega, by rw [List.getElem_zip]⟩
    have hle : pmf.infinityMass ≤ ds[i] := by
      rw [g3]
      refine PldPmf.lastD_le ?_ _ hmem
      have : (((grid b disc).zip ds).map Prod.snd).Pairwise (· ≥ ·) := by
        rw [List.map_snd_zip (by have := hok.len; change (grid b disc).length = _ at this; omega)]
        exact hok.anti
      rwa [List.pairwise_map] at this
    refine hle.trans ?_
    rw [List.forall₂_map_left_iff] at hr
    have rep := (List.forall₂_iff_zip.1 hr).2 hmem
    obtain ⟨δ, hδ⟩ := exists_isHs h (⌈b.2 / disc⌉ * disc)
    refine (rep δ hδ).1.trans ?_
    have hc := isHs_cutoff h x
    have ce : m.privacyLoss x ≤ (⌈b.2 / disc⌉ : ℝ) * disc := by
      rw [← hx]
      have := mul_le_mul_of_nonneg_right (Int.le_ceil (b.2 / disc)) hd.le
      rwa [div_mul_cancel₀ _ hd.ne'] at this
    refine (hs_anti hc hδ ce).trans ?_
    have : 0 ≤ Real.exp (m.privacyLoss x) * (mixLower m.σ m.comps m.adj).real (Set.Iic x) :=
      mul_nonneg (Real.exp_pos _).le measureReal_nonneg
    linarith

end Obj

/-! ### Fuel -/

lemma searchLoop_mono {inc discrete : Bool} {func : ℝ → ℝ} {value tol : ℝ} {fuel : ℕ} {l u : ℝ} {r : ℝ × ℝ}
    (h : InverseMonotone.searchLoop inc discrete func value tol fuel l u = some r) :
    InverseMonotone.searchLoop inc discrete func value tol (fuel + 1) l u = some r := by
  induction fuel generalizing l u with
  | zero =>
    unfold InverseMonotone.searchLoop at h ⊢
    split_ifs at h ⊢ with hc
    exact h
  | succ fuel ih =>
    unfold InverseMonotone.searchLoop at h ⊢
    split_ifs at h ⊢ with hc hk
    · exact ih h
    · exact ih h
    · exact h

lemma inverse_mono {fuel : ℕ} {func : ℝ → ℝ} {value : ℝ} {p : SearchParams} {inc : Bool} (hg : p.initialGuess = none)
    (h : InverseMonotone.inverse fuel func value p inc ≠ .outOfFuel) :
    InverseMonotone.inverse (fuel + 1) func value p inc = InverseMonotone.inverse fuel func value p inc := by
  unfold InverseMonotone.inverse at h ⊢
  split_ifs at h ⊢ with hi
  · rfl
  · simp only [hg] at h ⊢
    unfold InverseMonotone.finish at h ⊢
    by_cases hc : p.lowerBound = ⊥ ∨ p.lowerBound = ⊤ ∨ p.upperBound = ⊥ ∨ p.upperBound = ⊤
    · simp only [hc, if_true]
    · simp only [hc, if_false] at h ⊢
      generalize (if p.discrete = true then (1 : ℝ) else p.tolerance) = t at h ⊢
      cases hs : InverseMonotone.searchLoop inc p.discrete func value t fuel p.lowerBound.toReal p.upperBound.toReal with
      | none => rw [hs] at h; exact absurd rfl h
      | some r => rw [searchLoop_mono hs]

lemma bounds_mono {m : Obj} {fuel : ℕ} {ppf : ℝ → ℝ} {r} (h : m.bounds fuel ppf = some r) : m.bounds (fuel + 1) ppf = some r := by
  unfold Obj.bounds Obj.truncation at h ⊢
  cases hadj : m.adj
  · simp only [hadj] at h ⊢; exact h
  · simp only [hadj] at h ⊢
    rw [inverse_mono rfl]
    · exact h
    · intro hc
      rw [hc] at h
      simp at h

lemma singlePmf_mono {fuel : ℕ} {ppf : ℝ → ℝ} {σ disc lb : ℝ} {sens probs : List ℝ} {adj : Adj} {r}
    (h : singlePmf fuel ppf σ sens probs disc lb adj = some r) : singlePmf (fuel + 1) ppf σ sens probs disc lb adj = some r := by
  unfold singlePmf at h ⊢
  cases hm : mk σ sens probs true lb adj with
  | error e => rw [hm] at h; exact h
  | ok m =>
    rw [hm] at h
    simp only [Option.map_eq_some_iff] at h ⊢
    obtain ⟨b, hb, e⟩ := h
    exact ⟨b, bounds_mono hb, e⟩

lemma fromMixture_mono {fuel : ℕ} {ppf : ℝ → ℝ} {σ disc lb : ℝ} {sens probs : List ℝ} {p : Pld}
    (h : fromMixture fuel ppf σ sens probs disc lb = some (.ok p)) : ∀ n ≥ fuel, fromMixture n ppf σ sens probs disc lb = some (.ok p) := by
  intro n hn
  induction n, hn using Nat.le_induction with
  | base => exact h
  | succ n _ ih =>
    obtain ⟨r, a, h1, h2, rfl⟩ := fromMixture_ok ih
    unfold fromMixture
    rw [singlePmf_mono h1]
    simp only []
    rw [singlePmf_mono h2]

/-! ### Both directions -/

section
variable {ppf : ℝ → ℝ → ℝ} {σ lb disc : ℝ} {sens probs : List ℝ}

lemma mixError_kept (S : ℝ) : mixError σ S (kept sens probs) = mixError σ S (sens.zip probs) := by
  unfold mixError
  rw [zeroProb_kept]

lemma logRatio_kept (adj : Adj) (x : ℝ) :
    Real.log ((⟨σ, kept sens probs, adj, true, lb⟩ : Obj).ratio x) = mixLogRatio σ (sens.zip probs) x := by
  unfold Obj.ratio mixLogRatio
  rw [sum_kept _ _ _ fun c hc => by simp [hc]]
  rfl

/-- One direction of the distribution. -/
lemma singlePmf_curve (hppf : NormalQuantile ppf) (hlb : lb < 0) (hd : 0 < disc) (h1 : ((sens.zip probs).map Prod.snd).sum = 1)
    {s S : ℝ} (hs : ∃ c ∈ sens.zip probs, c.2 ≠ 0 ∧ c.1 = s) (hs0 : 0 < s) (hs' : ∀ c ∈ sens.zip probs, c.2 ≠ 0 → 0 < c.1 → s ≤ c.1)
    (hS : ∀ c ∈ sens.zip probs, c.1 ≤ S) (hg : DiscOk (sens.zip probs) disc (mixLogRatio σ (sens.zip probs) s))
    {fuel : ℕ} {adj : Adj} {pmf : Pmf} (hp : singlePmf fuel (ppf σ) σ sens probs disc lb adj = some (.ok pmf)) (ε : ℝ) :
    Indist (mixUpper σ (kept sens probs) adj) (mixLower σ (kept sens probs) adj) ε
      (pmf.getDeltaForEpsilon ε + mixError σ S (sens.zip probs)) := by
  obtain ⟨hok, v⟩ := singlePmf_valid hppf hlb hd h1 hp
  have good : (⟨σ, kept sens probs, adj, true, lb⟩ : Obj).Good := ⟨hok.σ0, hok.dist h1⟩
  have grid : (⟨σ, kept sens probs, adj, true, lb⟩ : Obj).GridWeak disc := by
    have hz := Obj.zeroProb_eq good
    change zeroProb (kept sens probs) = _ at hz
    rw [zeroProb_kept] at hz
    have hmin : (⟨σ, kept sens probs, adj, true, lb⟩ : Obj).minSens = s := by
      have hne : (⟨σ, kept sens probs, adj, true, lb⟩ : Obj).pos.map Prod.fst ≠ [] := by
        obtain ⟨c, hc, h0⟩ := good.dist.pos
        exact List.ne_nil_of_mem (List.mem_map_of_mem (List.mem_filter.2 ⟨hc, decide_eq_true h0⟩))
      have sp := Obj.listMin_spec hne
      refine le_antisymm ?_ ?_
      · obtain ⟨c, hc, c0, cs⟩ := hs
        have := sp.2 s (cs ▸ List.mem_map_of_mem (List.mem_filter.2 ⟨mem_kept.2 ⟨hc, c0⟩, decide_eq_true (by rw [cs]; exact hs0)⟩))
        exact this
      · obtain ⟨c, hc, he⟩ := List.mem_map.1 sp.1
        obtain ⟨c1, c2⟩ := List.mem_filter.1 hc
        obtain ⟨c3, c4⟩ := mem_kept.1 c1
        have := hs' c c3 c4 (of_decide_eq_true c2)
        have e : (⟨σ, kept sens probs, adj, true, lb⟩ : Obj).minSens = c.1 := he.symm
        rw [e]; exact this
    rcases hg with hg | ⟨k, hk1, hk2⟩
    · left; rw [hg] at hz; linarith
    · right
      rw [← hz, hmin, logRatio_kept]
      exact ⟨k, hk1, hk2⟩
  have tol : (⟨σ, kept sens probs, adj, true, lb⟩ : Obj).tol ≤ mixError σ S (sens.zip probs) := by
    have := Obj.tol_le good (S := S) fun c hc => hS c (mem_kept.1 hc).1
    rwa [show (⟨σ, kept sens probs, adj, true, lb⟩ : Obj).comps = kept sens probs from rfl, mixError_kept] at this
  exact Indist.mono (v grid ε) (by linarith)

/-- Changes of probability zero do not matter. -/
lemma changeWithin_kept {d : ℕ} {vs : List (Vec d × ℝ)} (v : Vec d) (hw : ChangeWithin vs (sens.zip probs)) :
    ∃ vs', ChangeWithin vs' (kept sens probs) ∧ vecMixture σ v vs' = vecMixture σ v vs := by
  unfold kept
  generalize sens.zip probs = l at hw
  induction hw with
  | nil => exact ⟨[], List.Forall₂.nil, rfl⟩
  | @cons a b l1 l2 hab _ ih =>
    obtain ⟨vs', h1, h2⟩ := ih
    by_cases h0 : b.2 = 0
    · refine ⟨vs', by rw [List.filter_cons_of_neg (by simp [h0])]; exact h1, ?_⟩
      rw [h2]
      simp [vecMixture, hab.2, h0]
    · refine ⟨a :: vs', by rw [List.filter_cons_of_pos (by simp [h0])]; exact List.Forall₂.cons hab h1, ?_⟩
      simp only [vecMixture, List.map_cons, List.sum_cons] at h2 ⊢
      rw [h2]

/-- The infinity mass, and the law of one direction. -/
lemma singlePmf_law (hppf : NormalQuantile ppf) (hlb : lb < 0) (hd : 0 < disc) (h1 : ((sens.zip probs).map Prod.snd).sum = 1)
    {fuel : ℕ} {adj : Adj} {pmf : Pmf} (hp : singlePmf fuel (ppf σ) σ sens probs disc lb adj = some (.ok pmf)) :
    (pmf.WF ∧ pmf.NonNeg ∧ pmf.disc = disc ∧ pmf.pessimistic = true) ∧ pmf.infinityMass ≤ 0.5 * Real.exp lb ∧
      ∃ L : LossLaw, AtLeast pmf.infinityMass pmf.disc pmf.points L ∧ ∀ {Ω : Type} [MeasurableSpace Ω] (P Q : Measure Ω)
        [IsProbabilityMeasure P] (τ : ℝ), 0 ≤ τ → CurveValid P Q (fun e => pmf.getDeltaForEpsilon e + τ) →
          CurveValid P Q fun e => L.hs e + τ := by
  have hok := (singlePmf_valid hppf hlb hd h1 hp).1
  unfold singlePmf at hp
  rw [(mk_iff σ sens probs true lb adj).1 hok] at hp
  simp only [] at hp
  set m : Obj := ⟨σ, kept sens probs, adj, true, lb⟩ with hm
  have h : m.Good := ⟨hok.σ0, hok.dist h1⟩
  have ht : 0 < 0.5 * Real.exp m.logBound := by positivity
  have ht' : 0.5 * Real.exp m.logBound < 1 / 2 := by
    have : Real.exp lb < 1 := Real.exp_lt_one_iff.2 hlb
    change 0.5 * Real.exp lb < 1 / 2
    norm_num at this ⊢
    linarith
  have hz := quantile_nonpos hppf hok.σ0 ht ht'
  cases hb : m.bounds fuel (ppf σ) with
  | none => rw [hb] at hp; simp at hp
  | some r =>
    rw [hb] at hp
    simp only [Option.map_some, Option.some.injEq] at hp
    cases r with
    | error e => cases hp
    | ok b =>
      change m.dots b disc = .ok pmf at hp
      obtain ⟨x, hx, hx'⟩ := Obj.bounds_tail h (hppf σ _ hok.σ0 ht (by linarith)).le hb
      exact Obj.dots_inf h hd (Obj.bounds_spec h hz hb) hx hx' hp

end

end Verif.Mixture
