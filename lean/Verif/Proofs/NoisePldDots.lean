import Verif.Model.AdditiveNoisePld
import Verif.Props.AdditiveNoise
import Verif.Props.ConnectDots

/-!
# Connect-the-dots PMFs of additive noise mechanisms
-/

namespace Verif.Mech
open Verif.Spec Verif.Pld Verif.PldPmf MeasureTheory

lemma bind_ok {α β : Type} {x : Except Err α} {f : α → Except Err β} {b : β} :
    (x >>= f) = .ok b ↔ ∃ a, x = .ok a ∧ f a = .ok b := by
  cases x with
  | error e => constructor
               · intro h; exact absurd h (by simp [bind, Except.bind])
               · rintro ⟨a, h, -⟩; simp at h
  | ok a => constructor
            · intro h; exact ⟨a, rfl, h⟩
            · rintro ⟨a', h, h2⟩; cases h; exact h2

/-- A pessimistic PMF for the pair `(P, Q)`: well formed, of mass one, and with valid deltas. -/
structure Good {Ω : Type*} [MeasurableSpace Ω] (pmf : Pmf) (disc : ℝ) (P Q : Measure Ω) : Prop where
  wf : pmf.WF
  nonneg : pmf.NonNeg
  disc : pmf.disc = disc
  pess : pmf.pessimistic = true
  mass : totalMass pmf = 1
  valid : CurveValid P Q fun e => pmf.getDeltaForEpsilon e

lemma getDeltas_spec {X : Type} [AddCommGroup X] {m : AdditiveNoise X} {disc : ℝ} : ∀ {eps : List ℤ} {deltas : List ℝ},
    m.getDeltas (eps.map fun k : ℤ => (k : ℝ) * disc) = .ok deltas →
      eps.length = deltas.length ∧ ∀ x ∈ eps.zip deltas, m.getDelta (x.1 * disc) = .ok x.2 := by
  intro eps
  induction eps with
  | nil => 
    intro deltas h
    cases Except.ok.inj (show Except.ok [] = Except.ok deltas from h)
    simp
  | cons k eps ih =>
    intro deltas h
    unfold AdditiveNoise.getDeltas at h
    rw [List.map_cons, List.mapM_cons, bind_ok] at h
    obtain ⟨d, hd, h⟩ := h
    rw [bind_ok] at h
    obtain ⟨ds, hds, h⟩ := h
    cases Except.ok.inj (show Except.ok (d :: ds) = Except.ok deltas from h)
    obtain ⟨h1, h2⟩ := ih hds
    refine ⟨by simp [h1], ?_⟩
    intro x hx
    rw [List.zip_cons_cons, List.mem_cons] at hx
    rcases hx with rfl | hx
    · exact hd
    · exact h2 x hx

lemma getDeltas_ok {X : Type} [AddCommGroup X] {m : AdditiveNoise X} {disc : ℝ} : ∀ {eps : List ℤ},
    (∀ k ∈ eps, ∃ d, m.getDelta ((k : ℝ) * disc) = .ok d) → ∃ deltas, m.getDeltas (eps.map fun k : ℤ => (k : ℝ) * disc) = .ok deltas := by
  intro eps
  induction eps with
  | nil => intro _; exact ⟨[], rfl⟩
  | cons k eps ih =>
    intro h
    obtain ⟨d, hd⟩ := h k (by simp)
    obtain ⟨ds, hds⟩ := ih fun k hk => h k (by simp [hk])
    refine ⟨d :: ds, ?_⟩
    unfold AdditiveNoise.getDeltas at hds ⊢
    rw [List.map_cons, List.mapM_cons, hd, hds]
    rfl

section
variable {X : Type} [AddCommGroup X] [MeasurableSpace X] [MeasurableAdd X] {m : AdditiveNoise X} {ν : Measure X}
  [ν.IsAddRightInvariant] {f : X → ℝ}

/-- No multiple of `disc` is taken for the limit of the privacy loss by `math.isclose`. -/
def GridOk (disc q : ℝ) (adj : Adj) : Prop := q = 1 ∨ ∀ k : ℤ, ¬ IsClose ((k : ℝ) * disc) (lossLimit q adj)

lemma dots_good (h : Faithful m ν f) {disc : ℝ} (hd : 0 < disc) (hg : GridOk disc m.samplingProb m.adj) {eps : List ℤ}
    {deltas : List ℝ} (hdel : m.getDeltas (eps.map fun k : ℤ => (k : ℝ) * disc) = .ok deltas) {pmf : Pmf}
    (hp : connectDots disc eps deltas = .ok pmf) :
    Good pmf disc (upper (ν.withDensity fun x => ENNReal.ofReal (f x)) m.sensitivity m.samplingProb m.adj)
      (lower (ν.withDensity fun x => ENNReal.ofReal (f x)) m.sensitivity m.samplingProb m.adj) := by
  have p1 := upper_prob h
  have p2 := lower_prob h
  obtain ⟨hlen, hspec⟩ := getDeltas_spec hdel
  have hhs : ∀ x ∈ eps.zip deltas, IsHs (upper (ν.withDensity fun x => ENNReal.ofReal (f x)) m.sensitivity m.samplingProb m.adj)
      (lower (ν.withDensity fun x => ENNReal.ofReal (f x)) m.sensitivity m.samplingProb m.adj) (x.1 * disc) x.2 := by
    intro x hx
    obtain ⟨d, h1, h2⟩ := getDelta_isHs h (x.1 * disc) (by
      rw [Props.edge_eq]
      rcases hg with hg | hg
      · exact .inl hg
      · exact .inr (hg x.1))
    rw [hspec x hx] at h1
    cases h1
    exact h2
  obtain ⟨hacc1, hacc2⟩ := Props.C20_accepts disc hd eps deltas
  have hok : eps.length = deltas.length ∧ eps ≠ [] ∧ eps.Pairwise (· < ·) ∧ (∀ d ∈ deltas, 0 ≤ d ∧ d ≤ 1) ∧ deltas.Pairwise (· ≥ ·) := by
    by_contra hc
    rw [hacc2 hc] at hp
    exact absurd hp (by simp)
  obtain ⟨m', g, g1, g2, g3, g4⟩ := hacc1 hok
  rw [hp] at g; cases g
  exact ⟨g1, g2, g3, g4, (Props.C20_exact_at_dots disc hd eps deltas pmf hp _ _ hhs).1,
    fun ε => Props.C20_dominates disc hd eps deltas pmf hp _ _ (fun x hx => (hhs x hx).1) ε⟩

/-- Acceptance: on increasing dots connect-the-dots succeeds. -/
lemma dots_accept (h : Faithful m ν f) {disc : ℝ} (hd : 0 < disc) (hg : GridOk disc m.samplingProb m.adj) {eps : List ℤ} (hne : eps ≠ [])
    (hinc : eps.Pairwise (· < ·)) :
    ∃ deltas pmf, m.getDeltas (eps.map fun k : ℤ => (k : ℝ) * disc) = .ok deltas ∧ connectDots disc eps deltas = .ok pmf := by
  have p1 := upper_prob h
  have p2 := lower_prob h
  have hHs : ∀ k : ℤ, ∃ d, m.getDelta ((k : ℝ) * disc) = .ok d ∧
      IsHs (upper (ν.withDensity fun x => ENNReal.ofReal (f x)) m.sensitivity m.samplingProb m.adj)
      (lower (ν.withDensity fun x => ENNReal.ofReal (f x)) m.sensitivity m.samplingProb m.adj) (k * disc) d := by
    intro k
    exact getDelta_isHs h (k * disc) (by
      rw [Props.edge_eq]
      rcases hg with hg | hg
      · exact .inl hg
      · exact .inr (hg k))
  obtain ⟨deltas, hdel⟩ := getDeltas_ok (m := m) (disc := disc) (eps := eps) fun k _ => ⟨_, (hHs k).choose_spec.1⟩
  refine ⟨deltas, ?_⟩
  obtain ⟨hlen, hspec⟩ := getDeltas_spec hdel
  have hval : ∀ x ∈ eps.zip deltas, IsHs (upper (ν.withDensity fun x => ENNReal.ofReal (f x)) m.sensitivity m.samplingProb m.adj)
      (lower (ν.withDensity fun x => ENNReal.ofReal (f x)) m.sensitivity m.samplingProb m.adj) (x.1 * disc) x.2 := by
    intro x hx
    obtain ⟨d, h1, h2⟩ := hHs x.1
    rw [hspec x hx] at h1
    cases h1
    exact h2
  suffices hs : (∀ d ∈ deltas, 0 ≤ d ∧ d ≤ 1) ∧ deltas.Pairwise (· ≥ ·) by
    obtain ⟨pmf, hp, -⟩ := (Props.C20_accepts disc hd eps deltas).1 ⟨hlen, hne, hinc, hs.1, hs.2⟩
    exact ⟨pmf, hdel, hp⟩
  refine ⟨?_, ?_⟩
  · intro d hdm
    obtain ⟨i, hi, rfl⟩ := List.mem_iff_getElem.1 hdm
    have : (eps[i], deltas[i]) ∈ eps.zip deltas := by
      rw [List.mem_iff_getElem]
      exact ⟨i, by simp [hlen, hi], by simp⟩
    exact isHs_range (hval _ this)
  · rw [List.pairwise_iff_getElem] at hinc ⊢
    intro i j hi hj hij
    have m1 : (eps[i], deltas[i]) ∈ eps.zip deltas := by
      rw [List.mem_iff_getElem]; exact ⟨i, by simp [hlen, hi], by simp⟩
    have m2 : (eps[j], deltas[j]) ∈ eps.zip deltas := by
      rw [List.mem_iff_getElem]; exact ⟨j, by simp [hlen, hj], by simp⟩
    have v1 := hval _ m1
    have v2 := hval _ m2
    have hlt := hinc i j (by omega) (by omega) hij
    refine v2.2 ?_
    intro S hS
    have k := v1.1 S hS
    refine k.trans (add_le_add (mul_le_mul_of_nonneg_right (Real.exp_le_exp.2 ?_) measureReal_nonneg) le_rfl)
    have : (eps[i] : ℝ) ≤ eps[j] := by exact_mod_cast hlt.le
    simp only []
    nlinarith

end

/-- Connect-the-dots for continuous noise. -/
lemma dotsContinuous_good {m : AdditiveNoise ℝ} {f : ℝ → ℝ} (h : Faithful m volume f) {disc : ℝ} (hd : 0 < disc)
    (hg : GridOk disc m.samplingProb m.adj) {b : EReal × EReal} {pmf : Pmf} (hp : dotsContinuous m b disc = .ok pmf) :
    Good pmf disc (upper (volume.withDensity fun x => ENNReal.ofReal (f x)) m.sensitivity m.samplingProb m.adj)
      (lower (volume.withDensity fun x => ENNReal.ofReal (f x)) m.sensitivity m.samplingProb m.adj) := by
  unfold dotsContinuous at hp
  rw [bind_ok] at hp
  obtain ⟨up, -, hp⟩ := hp
  rw [bind_ok] at hp
  obtain ⟨lo, -, hp⟩ := hp
  rw [bind_ok] at hp
  obtain ⟨deltas, hdel, hp⟩ := hp
  rw [Props.C20_fixed_gap_agrees disc hd] at hp
  exact dots_good h hd hg hdel hp

lemma dotsContinuous_accept {m : AdditiveNoise ℝ} {f : ℝ → ℝ} (h : Faithful m volume f) {disc : ℝ} (hd : 0 < disc)
    (hg : GridOk disc m.samplingProb m.adj) {l u : ℝ} (hlu : l ≤ u) :
    ∃ pmf, dotsContinuous m ((l : EReal), (u : EReal)) disc = .ok pmf := by
  have hle : ⌊l / disc⌋ ≤ ⌈u / disc⌉ := by
    have h1 := Int.floor_le (l / disc)
    have h2 := Int.le_ceil (u / disc)
    have h3 : l / disc ≤ u / disc := div_le_div_of_nonneg_right hlu hd.le
    exact_mod_cast h1.trans (h3.trans h2)
  obtain ⟨deltas, pmf, h1, h2⟩ := dots_accept h hd hg (eps := PldCommon.pyRange ⌊l / disc⌋ (⌈u / disc⌉ + 1)) (by
      intro hc
      have := congrArg List.length hc
      simp only [PldCommon.pyRange, List.length_map, List.length_range, List.length_nil] at this
      omega) (by
      unfold PldCommon.pyRange
      rw [List.pairwise_map]
      refine List.pairwise_lt_range.imp ?_
      intro a b hab
      omega)
  refine ⟨pmf, ?_⟩
  unfold dotsContinuous
  rw [← Props.C20_fixed_gap_agrees disc hd] at h2
  show ((Except.ok ⌈u / disc⌉ : Except Err ℤ) >>= fun up => (Except.ok ⌊l / disc⌋ : Except Err ℤ) >>= fun lo =>
    m.getDeltas ((PldCommon.pyRange lo (up + 1)).map fun k : ℤ => (k : ℝ) * disc) >>= fun deltas => connectDotsFixedGap disc lo up deltas) = _
  show (m.getDeltas ((PldCommon.pyRange ⌊l / disc⌋ (⌈u / disc⌉ + 1)).map fun k : ℤ => (k : ℝ) * disc) >>=
    fun deltas => connectDotsFixedGap disc ⌊l / disc⌋ ⌈u / disc⌉ deltas) = _
  rw [h1]
  exact h2

/-- Connect-the-dots for discrete noise. -/
lemma dotsDiscrete_good {m : AdditiveNoise ℤ} {f : ℤ → ℝ} (h : Faithful m Measure.count f) {disc : ℝ} (hd : 0 < disc)
    (hg : GridOk disc m.samplingProb m.adj) {b : ℤ × ℤ} {pmf : Pmf} (hp : dotsDiscrete m b disc = .ok pmf) :
    Good pmf disc (upper (Measure.count.withDensity fun x => ENNReal.ofReal (f x)) m.sensitivity m.samplingProb m.adj)
      (lower (Measure.count.withDensity fun x => ENNReal.ofReal (f x)) m.sensitivity m.samplingProb m.adj) := by
  unfold dotsDiscrete at hp
  rw [bind_ok] at hp
  obtain ⟨eps, -, hp⟩ := hp
  rw [bind_ok] at hp
  obtain ⟨deltas, hdel, hp⟩ := hp
  exact dots_good h hd hg hdel hp

/-- The rounding loop returns an increasing, non-empty list when all losses are finite. -/
lemma roundEpsilons_ok {m : AdditiveNoise ℤ} (disc : ℝ) : ∀ (xs acc : List ℤ), (∀ x ∈ xs, ∃ l : ℝ, m.privacyLoss x = .ok (l : EReal)) →
    acc.Pairwise (· > ·) → ∃ eps, roundEpsilons m disc xs acc = .ok eps ∧ eps.Pairwise (· < ·) ∧ (xs ≠ [] ∨ acc ≠ [] → eps ≠ []) := by
  intro xs
  induction xs with
  | nil =>
    intro acc _ ha
    refine ⟨acc.reverse, rfl, ?_, ?_⟩
    · rw [List.pairwise_reverse]; exact ha
    · rintro (k | k)
      · exact absurd rfl k
      · simpa using k
  | cons x xs ih =>
    intro acc hl ha
    obtain ⟨l, hx⟩ := hl x (by simp)
    have push : ∀ (v a : ℤ) (r : List ℤ), (a :: r).Pairwise (· > ·) → v > a → (v :: a :: r).Pairwise (· > ·) := by
      intro v a r hp hv
      rw [List.pairwise_cons]
      refine ⟨?_, hp⟩
      intro b hb
      rcases List.mem_cons.1 hb with rfl | hb
      · exact hv
      · exact lt_trans (List.rel_of_pairwise_cons hp hb) hv
    -- after the first test
    obtain ⟨a1, r1, e1, p1⟩ : ∃ a1 r1, (match acc with
        | [] => [⌊l / disc⌋]
        | a :: r => if ⌊l / disc⌋ > a then ⌊l / disc⌋ :: a :: r else a :: r) = a1 :: r1 ∧ (a1 :: r1).Pairwise (· > ·) := by
      cases acc with
      | nil => exact ⟨_, _, rfl, by simp⟩
      | cons a r =>
        by_cases hc : ⌊l / disc⌋ > a
        · exact ⟨_, _, by simp only [if_pos hc], push _ _ _ ha hc⟩
        · exact ⟨_, _, by simp only [if_neg hc], ha⟩
    obtain ⟨a2, r2, e2, p2⟩ : ∃ a2 r2, (if ⌈l / disc⌉ > a1 then ⌈l / disc⌉ :: a1 :: r1 else a1 :: r1) = a2 :: r2 ∧
        (a2 :: r2).Pairwise (· > ·) := by
      by_cases hc : ⌈l / disc⌉ > a1
      · exact ⟨_, _, by rw [if_pos hc], push _ _ _ p1 hc⟩
      · exact ⟨_, _, by rw [if_neg hc], p1⟩
    obtain ⟨eps, g1, g2, g3⟩ := ih (a2 :: r2) (fun x hx => hl x (by simp [hx])) p2
    refine ⟨eps, ?_, g2, fun _ => g3 (.inr (by simp))⟩
    rw [roundEpsilons, hx]
    show roundEpsilons m disc xs (match (match acc with
        | [] => [⌊l / disc⌋]
        | a :: r => if ⌊l / disc⌋ > a then ⌊l / disc⌋ :: a :: r else a :: r) with
      | [] => []
      | a :: r => if ⌈l / disc⌉ > a then ⌈l / disc⌉ :: a :: r else a :: r) = _
    rw [e1]
    simp only []
    rw [e2, g1]

lemma dotsDiscrete_accept {m : AdditiveNoise ℤ} {f : ℤ → ℝ} (h : Faithful m Measure.count f) {disc : ℝ} (hd : 0 < disc)
    (hg : GridOk disc m.samplingProb m.adj) {lo up : ℤ} (hlu : lo ≤ up)
    (hl : ∀ x, lo ≤ x → x ≤ up → ∃ l : ℝ, m.privacyLoss x = .ok (l : EReal)) : ∃ pmf, dotsDiscrete m (lo, up) disc = .ok pmf := by
  obtain ⟨eps, h1, h2, h3⟩ := roundEpsilons_ok disc (PldCommon.pyRange lo (up + 1)).reverse [] (fun x hx => by
    rw [List.mem_reverse] at hx
    unfold PldCommon.pyRange at hx
    obtain ⟨i, hi, rfl⟩ := List.mem_map.1 hx
    rw [List.mem_range] at hi
    exact hl _ (by omega) (by omega)) List.Pairwise.nil
  have hne : eps ≠ [] := h3 (.inl (by
    intro hc
    have := congrArg List.length hc
    simp only [PldCommon.pyRange, List.length_reverse, List.length_map, List.length_range, List.length_nil] at this
    omega))
  obtain ⟨deltas, pmf, g1, g2⟩ := dots_accept h hd hg hne h2
  refine ⟨pmf, ?_⟩
  unfold dotsDiscrete
  rw [h1]
  show (m.getDeltas (eps.map fun k : ℤ => (k : ℝ) * disc) >>= fun deltas => connectDots disc eps deltas) = _
  rw [g1]
  exact g2

end Verif.Mech
