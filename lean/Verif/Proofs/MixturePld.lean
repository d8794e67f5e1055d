import Verif.Proofs.MixtureDelta
import Verif.Proofs.PldEndToEnd
import Verif.Props.ConnectDots
import Verif.Props.InverseMonotone

/-! # Mixtures of Gaussians: the privacy loss distribution -/

namespace Verif.PldPmf
open Verif Verif.Spec MeasureTheory

lemma raw_shift (h η x0 d0 : ℝ) (D : List (ℤ × ℝ)) : raw h x0 (d0 + η) (D.map fun a => (a.1, a.2 + η)) = raw h x0 d0 D := by
  induction D generalizing x0 d0 with
  | nil => rfl
  | cons a l ih =>
    obtain ⟨e, d⟩ := a
    cases l with
    | nil => simp only [List.map_cons, List.map_nil, raw]; congr 3; ring
    | cons b l =>
      obtain ⟨e', d'⟩ := b
      have := ih (Real.exp (e * h)) d
      simp only [List.map_cons, raw] at this ⊢
      rw [this, show d0 + η - (d + η) = d0 - d by ring, show d' + η - (d + η) = d' - d by ring]

lemma lastD_shift (η : ℝ) {D : List (ℤ × ℝ)} (hD : D ≠ []) : lastD (D.map fun a => (a.1, a.2 + η)) = lastD D + η := by
  induction D with
  | nil => exact absurd rfl hD
  | cons a l ih =>
    obtain ⟨e, d⟩ := a
    cases l with
    | nil => rfl
    | cons b l =>
      have := ih (by simp)
      simpa [lastD] using this

/-- Connect-the-dots with deltas that are too small by at most `η`. -/
lemma dots_slack {disc η : ℝ} (hd : 0 < disc) (hη : 0 ≤ η) {eps : List ℤ} {deltas : List ℝ} {m : Pmf}
    (hm : connectDots disc eps deltas = .ok m) {Ω : Type*} [MeasurableSpace Ω] (P Q : Measure Ω)
    [IsProbabilityMeasure P] (hdots : ∀ x ∈ eps.zip deltas, Indist P Q (x.1 * disc) (x.2 + η)) (ε : ℝ) :
    Indist P Q ε (m.getDeltaForEpsilon ε + η) := by
  obtain ⟨hok, _⟩ := Props.dots_ok hd hm
  intro S hS
  have hne : eps.zip deltas ≠ [] := by
    intro h
    have := congrArg List.length h
    rw [List.length_zip, hok.len, min_self] at this
    exact hok.ne (List.length_eq_zero_iff.1 (hok.len.trans this))
  have hI : Incr ((eps.zip deltas).map fun a => (a.1, a.2 + η)) := by
    unfold Incr
    rw [List.pairwise_map]
    exact incr_zip hok.incr _
  have := rawHs_dominates (p := P.real S) hd (measureReal_nonneg (μ := Q) (s := S)) 0 (1 + η) (by
      have := measureReal_le_one (μ := P) (s := S)
      linarith) ((eps.zip deltas).map fun a => (a.1, a.2 + η)) (by simpa using hne)
    hI (fun a _ => Real.exp_pos _) (fun a ha => by
      obtain ⟨b, hb, rfl⟩ := List.mem_map.1 ha
      exact hdots b hb S hS) ε (Real.exp_pos _).le
  have e : rawHs disc 0 (1 + η) ((eps.zip deltas).map fun a => (a.1, a.2 + η)) ε = rawHs disc 0 1 (eps.zip deltas) ε + η := by
    unfold rawHs
    rw [raw_shift, lastD_shift η hne]
    ring
  rw [e] at this
  exact this.trans (by linarith [Props.rawHs_le_delta hd hm ε])

end Verif.PldPmf

namespace Verif.Mixture
open Verif Spec Pld MeasureTheory ProbabilityTheory Mech

namespace Obj
variable {m : Obj}

local notation "P[" m "]" => mixUpper (Obj.σ m) (Obj.comps m) (Obj.adj m)
local notation "Q[" m "]" => mixLower (Obj.σ m) (Obj.comps m) (Obj.adj m)

/-- The error of the reported deltas. -/
noncomputable def tol (m : Obj) : ℝ := max (m.slack 1e-6) m.window

lemma window_nonneg (m : Obj) : 0 ≤ m.window := by
  unfold window
  cases m.limit with
  | none => exact le_rfl
  | some L => simp only []; positivity

lemma tol_nonneg (m : Obj) : 0 ≤ m.tol := (window_nonneg m).trans (le_max_right _ _)

/-- The point `e` makes the candidate bounds sound. -/
def Anchor (m : Obj) (e : ℝ) : Prop := m.InRange e ∧ m.Finite e ∧
  match m.adj with | .add => m.privacyLoss m.minSens ≤ e | .remove => e ≤ m.privacyLoss (-m.minSens)

/-- The grid of connect-the-dots. -/
noncomputable def grid (b : ℝ × ℝ) (disc : ℝ) : List ℤ := PldCommon.pyRange ⌊b.1 / disc⌋ (⌈b.2 / disc⌉ + 1)

lemma grid_incr (b : ℝ × ℝ) (disc : ℝ) : (grid b disc).Pairwise (· < ·) := by
  unfold grid PldCommon.pyRange
  rw [List.pairwise_map]
  refine List.pairwise_lt_range.imp ?_
  intro a b hab
  omega

lemma mem_grid {b : ℝ × ℝ} {disc : ℝ} {k : ℤ} : k ∈ grid b disc ↔ ⌊b.1 / disc⌋ ≤ k ∧ k ≤ ⌈b.2 / disc⌉ := by
  unfold grid PldCommon.pyRange
  rw [List.mem_map]
  constructor
  · rintro ⟨i, hi, rfl⟩
    rw [List.mem_range] at hi
    omega
  · rintro ⟨h1, h2⟩
    exact ⟨(k - ⌊b.1 / disc⌋).toNat, by rw [List.mem_range]; omega, by omega⟩

lemma gridEps_sorted {b : ℝ × ℝ} {disc : ℝ} (hd : 0 < disc) : ((grid b disc).map fun k : ℤ => (k : ℝ) * disc).Pairwise (· ≤ ·) := by
  rw [List.pairwise_map]
  refine (grid_incr b disc).imp fun {a b} hab => ?_
  have : (a : ℝ) ≤ b := by exact_mod_cast hab.le
  exact mul_le_mul_of_nonneg_right this hd.le

open Classical in
lemma anchor_spec (h : m.Good) {eps : List ℝ} (hs : eps.Pairwise (· ≤ ·)) {e : ℝ} (he : e ∈ eps) (ha : m.Anchor e) :
    ∃ ds, m.getDeltas eps = .ok ds ∧ List.Forall₂ (m.Reported True) eps ds := by
  obtain ⟨h1, h2, h3⟩ := ha
  set fin := (eps.filter fun e => m.Inverted e).filter fun l => m.Finite l with hfin
  have hmem : e ∈ fin := List.mem_filter.2 ⟨List.mem_filter.2 ⟨he, decide_eq_true ((inverted_iff h e).2 h1)⟩, decide_eq_true h2⟩
  obtain ⟨ds, hd, hr⟩ := getDeltas_spec h hs hfin (.inr (List.ne_nil_of_mem hmem))
  have hc : m.Covered fin := by
    unfold Covered
    cases hadj : m.adj
    · simp only [hadj] at h3 ⊢
      exact .inl ⟨e, hmem, h3⟩
    · simp only [hadj] at h3 ⊢
      exact .inl ⟨e, hmem, h3⟩
  exact ⟨ds, hd, hr.imp fun a b hab δ hδ => by
    obtain ⟨k1, k2, k3, k4⟩ := hab δ hδ
    exact ⟨k1, k2, k3, fun _ => k4 hc⟩⟩

lemma reported_indist (h : m.Good) {e d : ℝ} (hr : m.Reported True e d) : Indist P[m] Q[m] e (d + m.tol) := by
  obtain ⟨δ, hδ⟩ := exists_isHs h e
  obtain ⟨_, k2, k3, k4⟩ := hr δ hδ
  refine Indist.mono hδ.1 ?_
  have t0 := tol_nonneg m
  by_cases hin : m.InRange e
  · by_cases hf : m.Finite e
    · exact (k4 trivial hin hf).trans (by unfold tol; linarith [le_max_left (m.slack 1e-6) m.window])
    · exact (k3 hin hf).trans (by unfold tol; linarith [le_max_right (m.slack 1e-6) m.window])
  · rw [k2 hin]; linarith

/-! ### Acceptance -/

lemma suffixMax_anti (ds : List ℝ) : (suffixMax ds).Pairwise (· ≥ ·) ∧ ∀ x ∈ suffixMax ds, x ∈ ds := by
  induction ds with
  | nil => exact ⟨List.Pairwise.nil, fun x hx => hx⟩
  | cons d ds ih =>
    rw [suffixMax]
    cases hs : suffixMax ds with
    | nil => exact ⟨List.pairwise_singleton _ _, fun x hx => by
        rw [List.mem_singleton] at hx; simp [hx]⟩
    | cons e es =>
      rw [hs] at ih
      refine ⟨List.pairwise_cons.2 ⟨fun x hx => ?_, ih.1⟩, fun x hx => ?_⟩
      · rcases List.mem_cons.1 hx with rfl | hx
        · exact le_max_right _ _
        · exact le_max_of_le_right ((List.pairwise_cons.1 ih.1).1 x hx)
      · rcases List.mem_cons.1 hx with rfl | hx
        · rcases max_choice d e with h | h <;> rw [h]
          · simp
          · exact List.mem_cons_of_mem _ (ih.2 e (by simp))
        · exact List.mem_cons_of_mem _ (ih.2 x hx)

lemma rawDeltas_range {eps ds : List ℝ} (hr : m.rawDeltas eps = .ok ds) : ∀ d ∈ ds, 0 ≤ d ∧ d ≤ 1 := by
  unfold rawDeltas at hr
  split_ifs at hr
  rw [bind_ok] at hr
  obtain ⟨xs, _, hr⟩ := hr
  have := Except.ok.inj hr
  subst this
  intro d hd
  obtain ⟨x, _, rfl⟩ := List.mem_map.1 hd
  exact ⟨le_min zero_le_one (le_max_left _ _), min_le_left _ _⟩

lemma getDeltas_range {eps ds : List ℝ} (hr : m.getDeltas eps = .ok ds) : (∀ d ∈ ds, 0 ≤ d ∧ d ≤ 1) ∧ ds.Pairwise (· ≥ ·) := by
  unfold getDeltas at hr
  cases hraw : m.rawDeltas eps with
  | error e => rw [hraw] at hr; cases hr
  | ok r =>
    rw [hraw] at hr
    have := Except.ok.inj hr
    subst this
    exact ⟨fun d hd => rawDeltas_range hraw d ((suffixMax_anti r).2 d hd), (suffixMax_anti r).1⟩

lemma dots_accept (h : m.Good) {b : ℝ × ℝ} {disc : ℝ} (hd : 0 < disc) {k : ℤ} (hk : k ∈ grid b disc) (ha : m.Anchor (k * disc)) :
    ∃ pmf, m.dots b disc = .ok pmf := by
  obtain ⟨ds, hds, hr⟩ := anchor_spec h (gridEps_sorted hd (b := b)) (List.mem_map_of_mem (f := fun k : ℤ => (k : ℝ) * disc) hk) ha
  obtain ⟨r1, r2⟩ := getDeltas_range hds
  rw [List.forall₂_map_left_iff] at hr
  obtain ⟨pmf, hp, _⟩ := (Props.C20_accepts disc hd (grid b disc) ds).1 ⟨hr.length_eq, List.ne_nil_of_mem hk, grid_incr b disc, r1, r2⟩
  refine ⟨pmf, ?_⟩
  unfold dots
  change (m.getDeltas ((grid b disc).map fun k : ℤ => (k : ℝ) * disc) >>= _) = _
  rw [hds]
  change PldPmf.connectDotsFixedGap disc ⌊b.1 / disc⌋ ⌈b.2 / disc⌉ ds = _
  rw [Props.C20_fixed_gap_agrees disc hd]
  exact hp

/-! ### The bounds -/

/-- The bounds surround the loss at zero. -/
lemma bounds_spec (h : m.Good) {fuel : ℕ} {ppf : ℝ → ℝ} (hz : ppf (0.5 * Real.exp m.logBound) ≤ 0) {b : ℝ × ℝ}
    (hb : m.bounds fuel ppf = some (.ok b)) : b.1 ≤ m.privacyLoss 0 ∧ m.privacyLoss 0 ≤ b.2 := by
  have anti := (privacyLoss_strictAnti h).antitone
  unfold bounds truncation at hb
  cases hadj : m.adj
  · simp only [hadj, Option.map_some, Option.some.injEq] at hb
    have := Except.ok.inj hb
    subst this
    exact ⟨anti (by linarith), anti hz⟩
  · simp only [hadj] at hb
    split at hb
    · rename_i x hx
      simp only [Option.map_some, Option.some.injEq] at hb
      have := Except.ok.inj hb
      subst this
      obtain ⟨⟨_, r2⟩, _⟩ := Props.C25_found_in_range _ _ _ _ _ _ ⟨by
        rw [EReal.coe_le_coe_iff]; linarith [maxSens_pos h], fun g hg => by simp at hg⟩ (fun hc => by simp at hc) hx
      have r2 : x ≤ ppf (0.5 * Real.exp m.logBound) := EReal.coe_le_coe_iff.1 r2
      exact ⟨anti (by linarith), anti (r2.trans hz)⟩
    · simp at hb; cases hb
    · simp at hb; cases hb
    · simp at hb

/-- Some multiple of the discretization is usable. -/
def GridOk (m : Obj) (disc : ℝ) : Prop := m.q = 1 ∨ ∃ k : ℤ, Real.log (1 - m.q) + (1e-8 + 1e-5 * |Real.log (1 - m.q)|) < k * disc ∧
  k * disc ≤ Real.log (m.ratio 0)

lemma exists_anchor (h : m.Good) {disc : ℝ} (hd : 0 < disc) (hg : m.GridOk disc) {b : ℝ × ℝ}
    (hb : b.1 ≤ m.privacyLoss 0 ∧ m.privacyLoss 0 ≤ b.2) : ∃ k ∈ grid b disc, m.Anchor (k * disc) := by
  have anti := (privacyLoss_strictAnti h).antitone
  have hmin := minSens_pos h
  have fl : (⌊b.1 / disc⌋ : ℝ) * disc ≤ b.1 := by
    have := mul_le_mul_of_nonneg_right (Int.floor_le (b.1 / disc)) hd.le
    rwa [div_mul_cancel₀ _ hd.ne'] at this
  have ce : b.2 ≤ (⌈b.2 / disc⌉ : ℝ) * disc := by
    have := mul_le_mul_of_nonneg_right (Int.le_ceil (b.2 / disc)) hd.le
    rwa [div_mul_cancel₀ _ hd.ne'] at this
  have hfc : ⌊b.1 / disc⌋ ≤ ⌈b.2 / disc⌉ := by
    have : (⌊b.1 / disc⌋ : ℝ) * disc ≤ ⌈b.2 / disc⌉ * disc := by linarith
    exact_mod_cast le_of_mul_le_mul_right this hd
  have hl0 := privacyLoss_eq h 0
  rcases hg with hq | ⟨k, hk1, hk2⟩
  · have hin : ∀ e, m.InRange e := fun e => by
      unfold InRange tOf
      rw [hq, sub_self]
      cases m.adj <;> exact Real.exp_pos _
    have hfin : ∀ e, m.Finite e := fun e => by
      unfold Finite limit
      rw [hq, if_neg (lt_irrefl _)]; trivial
    cases hadj : m.adj
    · refine ⟨⌈b.2 / disc⌉, mem_grid.2 ⟨hfc, le_rfl⟩, hin _, hfin _, ?_⟩
      simp only [hadj]
      have := anti hmin.le
      linarith
    · refine ⟨⌊b.1 / disc⌋, mem_grid.2 ⟨le_rfl, hfc⟩, hin _, hfin _, ?_⟩
      simp only [hadj]
      have := anti (neg_nonpos.2 hmin.le)
      linarith
  · by_cases hq : m.q < 1
    · set L := Real.log (1 - m.q) with hL
      have hlim : m.limit = match m.adj with | .add => some (-L) | .remove => some L := by
        unfold limit; rw [if_pos hq]; rfl
      cases hadj : m.adj
      · simp only [hadj] at hlim hl0
        -- a point below the limit by more than the window
        have good : ∀ e, e < -L - (1e-8 + 1e-5 * |L|) → m.InRange e ∧ m.Finite e := fun e he => by
          refine ⟨(inverted_iff h e).1 ?_, ?_⟩
          · unfold Inverted
            simp only [hlim, hadj]
            have : 0 ≤ |L| := abs_nonneg L
            norm_num at he ⊢
            linarith
          · unfold Finite
            simp only [hlim]
            unfold NpClose
            rw [abs_neg, not_le, abs_sub_comm]
            refine lt_of_lt_of_le ?_ (le_abs_self _)
            linarith
        have hmul : ((-k : ℤ) : ℝ) * disc = -(k * disc) := by push_cast; ring
        by_cases hk : -k ≤ ⌈b.2 / disc⌉
        · refine ⟨-k, mem_grid.2 ⟨?_, hk⟩, ?_⟩
          · have : (⌊b.1 / disc⌋ : ℝ) * disc ≤ ((-k : ℤ) : ℝ) * disc := by rw [hmul]; linarith [hb.1]
            exact_mod_cast le_of_mul_le_mul_right this hd
          · rw [hmul]
            obtain ⟨g1, g2⟩ := good (-(k * disc)) (by linarith)
            refine ⟨g1, g2, ?_⟩
            simp only [hadj]
            have := anti hmin.le
            linarith
        · push Not at hk
          refine ⟨⌈b.2 / disc⌉, mem_grid.2 ⟨hfc, le_rfl⟩, ?_⟩
          have : (⌈b.2 / disc⌉ : ℝ) * disc ≤ ((-k : ℤ) : ℝ) * disc :=
            mul_le_mul_of_nonneg_right (by exact_mod_cast hk.le) hd.le
          obtain ⟨g1, g2⟩ := good ((⌈b.2 / disc⌉ : ℝ) * disc) (by rw [hmul] at this; linarith)
          refine ⟨g1, g2, ?_⟩
          simp only [hadj]
          have := anti hmin.le
          linarith [hb.2]
      · simp only [hadj] at hlim hl0
        rw [neg_zero] at hl0
        have good : ∀ e, L + (1e-8 + 1e-5 * |L|) < e → m.InRange e ∧ m.Finite e := fun e he => by
          refine ⟨(inverted_iff h e).1 ?_, ?_⟩
          · unfold Inverted
            simp only [hlim, hadj]
            have : 0 ≤ |L| := abs_nonneg L
            norm_num at he ⊢
            linarith
          · unfold Finite
            simp only [hlim]
            unfold NpClose
            rw [not_le]
            refine lt_of_lt_of_le ?_ (le_abs_self _)
            linarith
        by_cases hk : ⌊b.1 / disc⌋ ≤ k
        · refine ⟨k, mem_grid.2 ⟨hk, ?_⟩, ?_⟩
          · have : (k : ℝ) * disc ≤ (⌈b.2 / disc⌉ : ℝ) * disc := by linarith [hb.2]
            exact_mod_cast le_of_mul_le_mul_right this hd
          · obtain ⟨g1, g2⟩ := good (k * disc) hk1
            refine ⟨g1, g2, ?_⟩
            simp only [hadj]
            have := anti (neg_nonpos.2 hmin.le)
            linarith
        · push Not at hk
          refine ⟨⌊b.1 / disc⌋, mem_grid.2 ⟨le_rfl, hfc⟩, ?_⟩
          have : (k : ℝ) * disc ≤ (⌊b.1 / disc⌋ : ℝ) * disc := mul_le_mul_of_nonneg_right (by exact_mod_cast hk.le) hd.le
          obtain ⟨g1, g2⟩ := good ((⌊b.1 / disc⌋ : ℝ) * disc) (by linarith)
          refine ⟨g1, g2, ?_⟩
          simp only [hadj]
          have := anti (neg_nonpos.2 hmin.le)
          linarith [hb.1]
    · -- excluded: the window starts above `log 0 = 0` and the ratio at zero is at most one
      have hq1 : m.q = 1 := le_antisymm (q_le_one m) (not_lt.1 hq)
      exfalso
      have hr : m.ratio 0 ≤ 1 := by
        unfold ratio
        rw [← h.dist.sum]
        refine sum_le_of fun c hc => mul_le_of_le_one_right (h.dist.prob c hc).le (Real.exp_le_one_iff.2 ?_)
        have := h.v0
        exact div_nonpos_of_nonpos_of_nonneg (by nlinarith [sq_nonneg c.1]) this.le
      have := Real.log_nonpos (ratio_pos h 0).le hr
      rw [hq1, sub_self, Real.log_zero, abs_zero] at hk1
      norm_num at hk1
      linarith

/-! ### Validity -/

open Classical in
lemma getDeltas_ne (h : m.Good) {eps fin : List ℝ} (hfin : fin = (eps.filter fun e => m.Inverted e).filter fun l => m.Finite l)
    (hs : eps.Pairwise (· ≤ ·)) (hin : ∃ e ∈ eps, m.InRange e) (hne : fin = []) : m.getDeltas eps = .error .valueError := by
  obtain ⟨e, he, hr⟩ := hin
  have hmem : e ∈ eps.filter fun e => m.Inverted e := List.mem_filter.2 ⟨he, decide_eq_true ((inverted_iff h e).2 hr)⟩
  unfold getDeltas rawDeltas
  rw [if_neg (not_not.2 hs)]
  have : m.inverseLosses (eps.filter fun e => m.Inverted e) 1e-6 = .error .valueError := by
    unfold inverseLosses
    rw [if_neg (not_not.2 (hs.filter _)), if_neg (List.ne_nil_of_mem hmem)]
    split_ifs with h1
    · rfl
    · simp only []
      rw [if_pos (by rw [← hfin, hne])]
  simp only []
  rw [this]
  rfl

open Classical in
lemma getDeltas_ok (h : m.Good) {eps ds fin : List ℝ} (hfin : fin = (eps.filter fun e => m.Inverted e).filter fun l => m.Finite l)
    (hds : m.getDeltas eps = .ok ds) : List.Forall₂ (m.Reported (m.Covered fin)) eps ds ∧ ((∃ e ∈ eps, m.InRange e) → fin ≠ []) := by
  have hs : eps.Pairwise (· ≤ ·) := by
    by_contra hc
    unfold getDeltas rawDeltas at hds
    rw [if_pos hc] at hds
    cases hds
  have hne : (∃ e ∈ eps, m.InRange e) → fin ≠ [] := fun hin hc => by
    rw [getDeltas_ne h hfin hs hin hc] at hds; cases hds
  refine ⟨?_, hne⟩
  obtain ⟨ds', hd', hr⟩ := getDeltas_spec h hs hfin (by
    by_cases hin : ∃ e ∈ eps, m.InRange e
    · exact .inr (hne hin)
    · exact .inl fun e he hc => hin ⟨e, he, hc⟩)
  rw [hd'] at hds
  rw [← Except.ok.inj hds]
  exact hr

/-- Some multiple of the discretization is above the window and at most the loss at the smallest sensitivity. -/
def GridWeak (m : Obj) (disc : ℝ) : Prop := m.q = 1 ∨ ∃ k : ℤ, Real.log (1 - m.q) + (1e-8 + 1e-5 * |Real.log (1 - m.q)|) < k * disc ∧
  k * disc ≤ Real.log (m.ratio m.minSens)

lemma loss_zero_grid (h : m.Good) {disc : ℝ} (hd : 0 < disc) {b : ℝ × ℝ} (hb : b.1 ≤ m.privacyLoss 0 ∧ m.privacyLoss 0 ≤ b.2) :
    (⌊b.1 / disc⌋ : ℝ) * disc ≤ m.privacyLoss 0 ∧ m.privacyLoss 0 ≤ (⌈b.2 / disc⌉ : ℝ) * disc ∧ ⌊b.1 / disc⌋ ≤ ⌈b.2 / disc⌉ := by
  have fl : (⌊b.1 / disc⌋ : ℝ) * disc ≤ b.1 := by
    have := mul_le_mul_of_nonneg_right (Int.floor_le (b.1 / disc)) hd.le
    rwa [div_mul_cancel₀ _ hd.ne'] at this
  have ce : b.2 ≤ (⌈b.2 / disc⌉ : ℝ) * disc := by
    have := mul_le_mul_of_nonneg_right (Int.le_ceil (b.2 / disc)) hd.le
    rwa [div_mul_cancel₀ _ hd.ne'] at this
  refine ⟨by linarith, by linarith, ?_⟩
  have : (⌊b.1 / disc⌋ : ℝ) * disc ≤ ⌈b.2 / disc⌉ * disc := by linarith
  exact_mod_cast le_of_mul_le_mul_right this hd

/-- A loss on the far side of the window is usable. -/
lemma usable_of (h : m.Good) {e : ℝ} (he : m.q = 1 ∨ m.q < 1 ∧ Real.log (1 - m.q) + (1e-8 + 1e-5 * |Real.log (1 - m.q)|) <
    (match m.adj with | .add => -e | .remove => e)) : m.InRange e ∧ m.Finite e := by
  rcases he with hq | ⟨hq, he⟩
  · refine ⟨?_, ?_⟩
    · unfold InRange tOf
      rw [hq, sub_self]
      cases m.adj <;> exact Real.exp_pos _
    · unfold Finite limit
      rw [hq, if_neg (lt_irrefl _)]; trivial
  · set L := Real.log (1 - m.q) with hL
    have hlim : m.limit = match m.adj with | .add => some (-L) | .remove => some L := by
      unfold limit; rw [if_pos hq]; rfl
    have : 0 ≤ |L| := abs_nonneg L
    cases hadj : m.adj
    · simp only [hadj] at hlim he
      refine ⟨(inverted_iff h e).1 ?_, ?_⟩
      · unfold Inverted
        simp only [hlim, hadj]
        norm_num at he ⊢
        linarith
      · unfold Finite
        simp only [hlim]
        unfold NpClose
        rw [abs_neg, not_le, abs_sub_comm]
        refine lt_of_lt_of_le ?_ (le_abs_self _)
        linarith
    · simp only [hadj] at hlim he
      refine ⟨(inverted_iff h e).1 ?_, ?_⟩
      · unfold Inverted
        simp only [hlim, hadj]
        norm_num at he ⊢
        linarith
      · unfold Finite
        simp only [hlim]
        unfold NpClose
        rw [not_le]
        refine lt_of_lt_of_le ?_ (le_abs_self _)
        linarith

open Classical in
lemma covered_grid (h : m.Good) {disc : ℝ} (hd : 0 < disc) (hg : m.GridWeak disc) {b : ℝ × ℝ}
    (hb : b.1 ≤ m.privacyLoss 0 ∧ m.privacyLoss 0 ≤ b.2) {fin : List ℝ}
    (hfin : fin = (((grid b disc).map fun k : ℤ => (k : ℝ) * disc).filter fun e => m.Inverted e).filter fun l => m.Finite l)
    (hne : fin ≠ []) : m.Covered fin := by
  have anti := (privacyLoss_strictAnti h).antitone
  have hmin := minSens_pos h
  obtain ⟨fl, ce, hfc⟩ := loss_zero_grid h hd hb
  have mem : ∀ k : ℤ, k ∈ grid b disc → m.InRange (k * disc) ∧ m.Finite (k * disc) → (k : ℝ) * disc ∈ fin := by
    intro k hk hu
    rw [hfin]
    exact List.mem_filter.2 ⟨List.mem_filter.2 ⟨List.mem_map_of_mem (f := fun k : ℤ => (k : ℝ) * disc) hk,
      decide_eq_true ((inverted_iff h _).2 hu.1)⟩, decide_eq_true hu.2⟩
  have back : ∀ e ∈ fin, ∃ k : ℤ, k ∈ grid b disc ∧ e = k * disc := by
    intro e he
    rw [hfin] at he
    obtain ⟨k, hk, rfl⟩ := List.mem_map.1 (List.mem_filter.1 (List.mem_filter.1 he).1).1
    exact ⟨k, hk, rfl⟩
  obtain ⟨e0, he0⟩ := List.exists_mem_of_ne_nil _ hne
  obtain ⟨k0, hk0, rfl⟩ := back e0 he0
  rw [mem_grid] at hk0
  have mono : ∀ {i j : ℤ}, i ≤ j → (i : ℝ) * disc ≤ j * disc := fun hij => mul_le_mul_of_nonneg_right (by exact_mod_cast hij) hd.le
  unfold Covered
  have hqq : m.q = 1 ∨ m.q < 1 := (q_le_one m).eq_or_lt
  cases hadj : m.adj
  · simp only []
    left
    have hl0 := anti hmin.le
    -- the largest grid point, unless it is beyond the limit
    have hls : m.privacyLoss m.minSens = -Real.log (m.ratio m.minSens) := by
      rw [privacyLoss_eq h]; simp only [hadj]
    rcases hg with hq | ⟨k, hk1, hk2⟩
    · exact ⟨_, mem _ (mem_grid.2 ⟨hfc, le_rfl⟩) (usable_of h (.inl hq)), by linarith⟩
    · have hmul : ((-k : ℤ) : ℝ) * disc = -(k * disc) := by push_cast; ring
      by_cases hq : m.q < 1
      · by_cases hk : -k ≤ ⌈b.2 / disc⌉
        · by_cases hkf : ⌊b.1 / disc⌋ ≤ -k
          · refine ⟨_, mem _ (mem_grid.2 ⟨hkf, hk⟩) (usable_of h (.inr ⟨hq, ?_⟩)), ?_⟩
            · simp only [hadj]; rw [hmul]; linarith
            · rw [hmul, hls]; linarith
          · push Not at hkf
            refine ⟨_, he0, ?_⟩
            have := mono (hkf.le.trans hk0.1)
            rw [hmul] at this
            linarith
        · push Not at hk
          refine ⟨_, mem _ (mem_grid.2 ⟨hfc, le_rfl⟩) (usable_of h (.inr ⟨hq, ?_⟩)), by linarith⟩
          simp only [hadj]
          have := mono hk.le
          rw [hmul] at this
          linarith
      · rcases hqq with hq' | hq'
        · exact ⟨_, mem _ (mem_grid.2 ⟨hfc, le_rfl⟩) (usable_of h (.inl hq')), by linarith⟩
        · exact absurd hq' hq
  · simp only []
    left
    have hl0 := anti (neg_nonpos.2 hmin.le)
    have hls : m.privacyLoss (-m.minSens) = Real.log (m.ratio m.minSens) := by
      rw [privacyLoss_eq h]; simp only [hadj, neg_neg]
    rcases hg with hq | ⟨k, hk1, hk2⟩
    · exact ⟨_, mem _ (mem_grid.2 ⟨le_rfl, hfc⟩) (usable_of h (.inl hq)), by linarith⟩
    · by_cases hq : m.q < 1
      · by_cases hk : ⌊b.1 / disc⌋ ≤ k
        · by_cases hkf : k ≤ ⌈b.2 / disc⌉
          · refine ⟨_, mem _ (mem_grid.2 ⟨hk, hkf⟩) (usable_of h (.inr ⟨hq, ?_⟩)), ?_⟩
            · simp only [hadj]; linarith
            · rw [hls]; linarith
          · push Not at hkf
            refine ⟨_, he0, ?_⟩
            have := mono (hk0.2.trans hkf.le)
            linarith
        · push Not at hk
          refine ⟨_, mem _ (mem_grid.2 ⟨le_rfl, hfc⟩) (usable_of h (.inr ⟨hq, ?_⟩)), by linarith⟩
          simp only [hadj]
          have := mono hk.le
          linarith
      · rcases hqq with hq' | hq'
        · exact ⟨_, mem _ (mem_grid.2 ⟨le_rfl, hfc⟩) (usable_of h (.inl hq')), by linarith⟩
        · exact absurd hq' hq

open Classical in
lemma dots_valid (h : m.Good) {b : ℝ × ℝ} {disc : ℝ} (hd : 0 < disc) (hg : m.GridWeak disc)
    (hb : b.1 ≤ m.privacyLoss 0 ∧ m.privacyLoss 0 ≤ b.2)
    {pmf : Pmf} (hp : m.dots b disc = .ok pmf) (ε : ℝ) : Indist P[m] Q[m] ε (pmf.getDeltaForEpsilon ε + m.tol) := by
  have f1 := upper_prob h
  unfold dots at hp
  change (m.getDeltas ((grid b disc).map fun k : ℤ => (k : ℝ) * disc) >>= _) = _ at hp
  rw [bind_ok] at hp
  obtain ⟨ds, hds, hp⟩ := hp
  obtain ⟨hr, hne⟩ := getDeltas_ok h rfl hds
  rw [Props.C20_fixed_gap_agrees disc hd] at hp
  refine PldPmf.dots_slack hd (tol_nonneg m) hp _ _ (fun x hx => ?_) ε
  rw [List.forall₂_map_left_iff] at hr
  have hx' : (x.1, x.2) ∈ List.zip (grid b disc) ds := hx
  have := (List.forall₂_iff_zip.1 hr).2 hx'
  refine reported_indist h fun δ hδ => ?_
  obtain ⟨k1, k2, k3, k4⟩ := this δ hδ
  refine ⟨k1, k2, k3, fun _ hin hf => k4 ?_ hin hf⟩
  exact covered_grid h hd hg hb rfl (hne ⟨_, List.mem_map_of_mem (f := fun k : ℤ => (k : ℝ) * disc) (List.of_mem_zip hx').1, hin⟩)

end Obj
end Verif.Mixture
