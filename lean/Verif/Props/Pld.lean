import Verif.Proofs.PldCtor
import Verif.Proofs.PldCdf
import Verif.Props.PldPmf
import Mathlib.MeasureTheory.Measure.Dirac

/-!
# C19, C21, C23, C24, C34: privacy loss distribution objects and their constructors

Vocabulary: `hsFinite` (hockey-stick divergence of two finite distributions), `Indist P Q eps delta` (one direction of
`(eps, delta)`-DP for arbitrary measures), `lossHs` (delta of an arbitrary distribution of the privacy loss), `rrProb`
(`k`-ary randomised response), all in `Verif/Spec`.
-/

namespace Verif.Props
open Verif Verif.Spec Verif.PldPmf Verif.Pld MeasureTheory

/-! ## C19 -/

section
variable {O : Type} [DecidableEq O]

/-- **C19 (pessimistic, symmetric).** For every pair of finite distributions given by log probabilities, every interval,
truncation bound and `eps`: the reported delta is between the exact divergence at `eps` and the exact divergence at
`eps - interval` plus the truncated mass. -/
theorem C19_pessimistic (lower upper : LogPmf O) (hl : (lower.map Prod.fst).Nodup) (hu : (upper.map Prod.fst).Nodup)
    (disc : ℝ) (hd : 0 < disc) (bound : LogProb) (e : ℝ) :
    ∃ p, fromTwoPmfs lower upper true disc bound true = .ok p ∧
      hsFinite (outcomes lower upper) (prob upper) (prob lower) e ≤ p.getDeltaForEpsilon e ∧
      p.getDeltaForEpsilon e ≤
        hsFinite (outcomes lower upper) (prob upper) (prob lower) (e - disc) + truncatedMass lower upper bound := by
  obtain ⟨p, h, hv, hs, hr, _⟩ := fromTwoPmfs_spec lower upper hl hu true hd bound true
  refine ⟨p, h, ?_⟩
  rw [Pld.getDelta_eq hv, hs_eq_of_symm hv hs]
  exact hr.pessimistic_bounds hd e

/-- **C19 (optimistic, symmetric).** -/
theorem C19_optimistic (lower upper : LogPmf O) (hl : (lower.map Prod.fst).Nodup) (hu : (upper.map Prod.fst).Nodup)
    (disc : ℝ) (hd : 0 < disc) (bound : LogProb) (e : ℝ) :
    ∃ p, fromTwoPmfs lower upper false disc bound true = .ok p ∧
      p.getDeltaForEpsilon e ≤ hsFinite (outcomes lower upper) (prob upper) (prob lower) e ∧
      hsFinite (outcomes lower upper) (prob upper) (prob lower) (e + disc) ≤
        p.getDeltaForEpsilon e + truncatedMass lower upper bound := by
  obtain ⟨p, h, hv, hs, hr, _⟩ := fromTwoPmfs_spec lower upper hl hu false hd bound true
  refine ⟨p, h, ?_⟩
  rw [Pld.getDelta_eq hv, hs_eq_of_symm hv hs]
  exact hr.optimistic_bounds hd e

/-- **C19 (asymmetric).** With `symmetric=False` each direction is rounded on its own; the reported delta covers both. -/
theorem C19_asymmetric (lower upper : LogPmf O) (hl : (lower.map Prod.fst).Nodup) (hu : (upper.map Prod.fst).Nodup)
    (disc : ℝ) (hd : 0 < disc) (bound : LogProb) (e : ℝ) :
    (∃ p, fromTwoPmfs lower upper true disc bound false = .ok p ∧
      max (hsFinite (outcomes lower upper) (prob upper) (prob lower) e)
        (hsFinite (outcomes lower upper) (prob lower) (prob upper) e) ≤ p.getDeltaForEpsilon e ∧
      p.getDeltaForEpsilon e ≤
        max (hsFinite (outcomes lower upper) (prob upper) (prob lower) (e - disc) + truncatedMass lower upper bound)
          (hsFinite (outcomes lower upper) (prob lower) (prob upper) (e - disc) + truncatedMass upper lower bound)) ∧
    (∃ p, fromTwoPmfs lower upper false disc bound false = .ok p ∧
      p.getDeltaForEpsilon e ≤ max (hsFinite (outcomes lower upper) (prob upper) (prob lower) e)
        (hsFinite (outcomes lower upper) (prob lower) (prob upper) e)) := by
  constructor
  · obtain ⟨p, h, hv, hs, hr, hr'⟩ := fromTwoPmfs_spec lower upper hl hu true hd bound false
    refine ⟨p, h, ?_⟩
    rw [Pld.getDelta_eq hv]
    have b1 := hr.pessimistic_bounds hd e
    have b2 := (hr' rfl).pessimistic_bounds hd e
    rw [outcomes_comm upper] at b2
    exact ⟨max_le_max b1.1 b2.1, max_le_max b1.2 b2.2⟩
  · obtain ⟨p, h, hv, hs, hr, hr'⟩ := fromTwoPmfs_spec lower upper hl hu false hd bound false
    refine ⟨p, h, ?_⟩
    rw [Pld.getDelta_eq hv]
    have b1 := hr.optimistic_bounds hd e
    have b2 := (hr' rfl).optimistic_bounds hd e
    rw [outcomes_comm upper] at b2
    exact max_le_max b1.1 b2.1

/-- **C19 (grid).** Without truncation and with all losses on the grid the reported delta is exact, for both kinds of
estimate. -/
theorem C19_exact_on_grid (lower upper : LogPmf O) (hl : (lower.map Prod.fst).Nodup) (hu : (upper.map Prod.fst).Nodup)
    (disc : ℝ) (hd : 0 < disc) (pess : Bool)
    (hg : ∀ (o : O) (u l : ℝ), LogPmf.get upper o = (u : LogProb) → LogPmf.get lower o = (l : LogProb) →
      ∃ n : ℤ, u - l = n * disc) (e : ℝ) :
    ∃ p, fromTwoPmfs lower upper pess disc ⊥ true = .ok p ∧
      p.getDeltaForEpsilon e = hsFinite (outcomes lower upper) (prob upper) (prob lower) e := by
  obtain ⟨p, h, hv, hs, hr, _⟩ := fromTwoPmfs_spec lower upper hl hu pess hd ⊥ true
  refine ⟨p, h, ?_⟩
  rw [Pld.getDelta_eq hv, hs_eq_of_symm hv hs]
  exact hr.exact hd hg e

/-- **C19 (mass).** A pessimistic PMF keeps all the mass of the distribution, whatever the truncation. -/
theorem C19_mass (lower upper : LogPmf O) (hl : (lower.map Prod.fst).Nodup) (hu : (upper.map Prod.fst).Nodup)
    (disc : ℝ) (hd : 0 < disc) (bound : LogProb) (symm : Bool) :
    ∃ p, fromTwoPmfs lower upper true disc bound symm = .ok p ∧
      totalMass p.remove = (∑ o ∈ outcomes lower upper, prob upper o) ∧
      (symm = false → totalMass p.add = ∑ o ∈ outcomes lower upper, prob lower o) := by
  obtain ⟨p, h, _, _, hr, hr'⟩ := fromTwoPmfs_spec lower upper hl hu true hd bound symm
  exact ⟨p, h, hr.mass, fun hs => by rw [(hr' hs).mass, outcomes_comm]⟩

/-- **C19 (privacy).** Hence the pessimistic object's delta is a valid privacy guarantee for the two distributions. -/
theorem C19_indist [MeasurableSpace O] (lower upper : LogPmf O) (hl : (lower.map Prod.fst).Nodup)
    (hu : (upper.map Prod.fst).Nodup) (disc : ℝ) (hd : 0 < disc) (bound : LogProb) :
    ∃ p, fromTwoPmfs lower upper true disc bound false = .ok p ∧ ∀ e : ℝ,
      Indist (finMeasure (outcomes lower upper) (prob upper)) (finMeasure (outcomes lower upper) (prob lower)) e
        (p.getDeltaForEpsilon e) ∧
      Indist (finMeasure (outcomes lower upper) (prob lower)) (finMeasure (outcomes lower upper) (prob upper)) e
        (p.getDeltaForEpsilon e) := by
  obtain ⟨p, h, _⟩ := (C19_asymmetric lower upper hl hu disc hd bound 0).1
  refine ⟨p, h, fun e => ?_⟩
  obtain ⟨p', h', hle, _⟩ := (C19_asymmetric lower upper hl hu disc hd bound e).1
  rw [h] at h'; cases h'
  exact ⟨(indist_finMeasure _ _ _ (fun o _ => expLog_nonneg _) (fun o _ => expLog_nonneg _) e).mono
      ((le_max_left _ _).trans hle),
    (indist_finMeasure _ _ _ (fun o _ => expLog_nonneg _) (fun o _ => expLog_nonneg _) e).mono
      ((le_max_right _ _).trans hle)⟩

end

/-- Non-vacuity: a pair with an outcome outside each support and a loss off the grid. -/
example : ∃ p, fromTwoPmfs (O := ℕ) [(0, logP (1/3)), (1, logP (2/3)), (2, ⊥)] [(0, logP (1/2)), (2, logP (1/2))] true 1
      (logP (1/8)) true = .ok p ∧ totalMass p.remove = 1 ∧ 1/2 ≤ p.getDeltaForEpsilon ((5 : ℝ) : EReal) := by
  have hl : (([(0, logP (1/3)), (1, logP (2/3)), (2, ⊥)] : LogPmf ℕ).map Prod.fst).Nodup := by simp
  have hu : (([(0, logP (1/2)), (2, logP (1/2))] : LogPmf ℕ).map Prod.fst).Nodup := by simp
  obtain ⟨p, h, h1, _⟩ := C19_pessimistic _ _ hl hu 1 one_pos (logP (1/8)) 5
  obtain ⟨p', h', h2, _⟩ := C19_mass _ _ hl hu 1 one_pos (logP (1/8)) true
  rw [h] at h'; cases h'
  have ho : outcomes ([(0, logP (1/3)), (1, logP (2/3)), (2, ⊥)] : LogPmf ℕ) [(0, logP (1/2)), (2, logP (1/2))] = {0, 1, 2} := by
    simp only [outcomes, List.map_cons, List.map_nil]; decide
  have e2 : expLog (logP (1/2)) = 1/2 := expLog_logP (by norm_num)
  have e0 : expLog (⊥ : LogProb) = 0 := rfl
  refine ⟨p, h, ?_, le_trans ?_ h1⟩
  · rw [h2, ho, Finset.sum_insert (by decide), Finset.sum_pair (by decide)]
    simp only [prob, LogPmf.get]
    norm_num [e0]
    rw [e2]; norm_num
  · unfold hsFinite
    rw [ho, Finset.sum_insert (by decide), Finset.sum_pair (by decide)]
    have : max 0 (prob ([(0, logP (1/2)), (2, logP (1/2))] : LogPmf ℕ) 2 -
        Real.exp 5 * prob ([(0, logP (1/3)), (1, logP (2/3)), (2, ⊥)] : LogPmf ℕ) 2) = 1/2 := by
      simp only [prob, LogPmf.get]
      norm_num [e0]
      rw [e2]; norm_num
    rw [this]
    have h0 := le_max_left 0 (prob ([(0, logP (1/2)), (2, logP (1/2))] : LogPmf ℕ) 0 -
        Real.exp 5 * prob ([(0, logP (1/3)), (1, logP (2/3)), (2, ⊥)] : LogPmf ℕ) 0)
    have h1 := le_max_left 0 (prob ([(0, logP (1/2)), (2, logP (1/2))] : LogPmf ℕ) 1 -
        Real.exp 5 * prob ([(0, logP (1/3)), (1, logP (2/3)), (2, ⊥)] : LogPmf ℕ) 1)
    linarith

/-- Non-vacuity: all losses are multiples of `log 2`. -/
example (pess : Bool) (e : ℝ) : ∃ p, fromTwoPmfs (O := ℕ) [(0, logP (1/3)), (1, logP (2/3))] [(0, logP (2/3)), (1, logP (1/3))] pess
      (Real.log 2) ⊥ true = .ok p ∧
    p.getDeltaForEpsilon e = hsFinite (outcomes [(0, logP (1/3)), (1, logP (2/3))] [(0, logP (2/3)), (1, logP (1/3))])
      (prob [(0, logP (2/3)), (1, logP (1/3))]) (prob [(0, logP (1/3)), (1, logP (2/3))]) e := by
  refine C19_exact_on_grid (O := ℕ) _ _ (by simp) (by simp) _ (Real.log_pos (by norm_num)) pess ?_ e
  intro o u l hu hl
  have key : Real.log (2/3) - Real.log (1/3) = Real.log 2 := by
    rw [← Real.log_div (by norm_num) (by norm_num)]; norm_num
  simp only [LogPmf.get, logP] at hu hl
  by_cases h0 : 0 = o
  · rw [if_pos h0] at hu hl
    refine ⟨1, ?_⟩
    rw [← WithBot.coe_inj.1 hu, ← WithBot.coe_inj.1 hl, key]; push_cast; ring
  · rw [if_neg h0] at hu hl
    by_cases h1 : 1 = o
    · rw [if_pos h1] at hu hl
      refine ⟨-1, ?_⟩
      rw [← WithBot.coe_inj.1 hu, ← WithBot.coe_inj.1 hl]
      push_cast; linarith
    · rw [if_neg h1] at hu
      simp at hu

/-! ## C21 -/

/-- **C21.** For all `eps >= 0`, `delta <= 1`, all grids, all measurable spaces and all pairs of probability measures that
are `(eps, delta)`-indistinguishable in both directions, the PLD of `from_privacy_parameters` reports at every `eps'` a
delta for which the pair is `(eps', delta')`-indistinguishable, in both directions. -/
theorem C21_dominates (eps delta disc : ℝ) (he : 0 ≤ eps) (hδ1 : delta ≤ 1) (hd : 0 < disc) (p : Pld)
    (hp : fromPrivacyParameters eps delta disc = .ok p) {Ω : Type*} [MeasurableSpace Ω] (P Q : Measure Ω)
    [IsProbabilityMeasure P] [IsProbabilityMeasure Q] (h1 : Indist P Q eps delta) (h2 : Indist Q P eps delta) (e' : ℝ) :
    Indist P Q e' (p.getDeltaForEpsilon e') ∧ Indist Q P e' (p.getDeltaForEpsilon e') :=
  ⟨fromPrivacyParameters_dominates he hδ1 hd hp P Q h1 h2 e', fromPrivacyParameters_dominates he hδ1 hd hp Q P h2 h1 e'⟩

/-- **C21 (exact).** If `eps` is a grid point, the delta reported at `eps` is exactly `delta`. -/
theorem C21_exact_on_grid (eps delta disc : ℝ) (he : 0 ≤ eps) (hd : 0 < disc) (p : Pld)
    (hp : fromPrivacyParameters eps delta disc = .ok p) (n : ℤ) (hn : eps = n * disc) :
    p.getDeltaForEpsilon eps = delta := fromPrivacyParameters_exact he hd hp n hn

/-- **C21 (success, mass).** The constructor always succeeds; the result is a valid symmetric object of mass one. -/
theorem C21_succeeds (eps delta disc : ℝ) (hδ0 : 0 ≤ delta) (hδ1 : delta ≤ 1) (hd : 0 < disc) :
    ∃ p, fromPrivacyParameters eps delta disc = .ok p ∧ p.Valid ∧ p.symmetric = true ∧ p.remove.NonNeg ∧
      totalMass p.remove = 1 ∧ p.remove.disc = disc ∧ p.remove.pessimistic = true := by
  obtain ⟨m, g, g1, g2, g3, g4, g5, g6, _⟩ := fromPrivacyParameters_spec eps delta hd
  refine ⟨_, g, valid_none g1, rfl, g6 hδ0 hδ1, ?_, g2, g4⟩
  show totalMass m = 1
  unfold totalMass finiteMass
  rw [g5, g3, Real.exp_neg]
  have := Real.exp_pos eps
  field_simp
  ring

/-- Non-vacuity: randomised response on two values is `(log 3, 0)`-indistinguishable but not identical. -/
lemma rr_pair_indist : ∃ P Q : Measure (Fin 2), IsProbabilityMeasure P ∧ IsProbabilityMeasure Q ∧ Indist P Q (Real.log 3) 0 ∧
    Indist Q P (Real.log 3) 0 ∧ P ≠ Q := by
  have h0 : ∀ x o : Fin 2, 0 ≤ rrProb (1/2) 2 x o := by intro x o; unfold rrProb; split_ifs <;> norm_num
  have hs : ∀ x : Fin 2, (finMeasure Finset.univ (rrProb (1/2) 2 x)) Set.univ = 1 := by
    intro x
    have := finMeasure_real Finset.univ (rrProb (1/2) 2 x) (fun o _ => h0 x o) MeasurableSet.univ
    have e : ∑ o : Fin 2, rrProb (1/2) 2 x o = 1 := by
      rw [Fin.sum_univ_two]; fin_cases x <;> norm_num [rrProb]
    simp only [Set.mem_univ, if_true, e] at this
    rw [measureReal_def] at this
    rw [← ENNReal.toReal_eq_one_iff]; exact this
  have hi : ∀ x y : Fin 2, x ≠ y → Indist (finMeasure Finset.univ (rrProb (1/2) 2 x)) (finMeasure Finset.univ (rrProb (1/2) 2 y))
      (Real.log 3) 0 := by
    intro x y hxy
    refine (indist_finMeasure Finset.univ _ _ (fun o _ => h0 x o) (fun o _ => h0 y o) _).mono ?_
    rw [rr_hs le_rfl x y hxy, Real.exp_log (by norm_num)]
    norm_num
  refine ⟨_, _, ⟨hs 0⟩, ⟨hs 1⟩, hi 0 1 (by decide), hi 1 0 (by decide), fun h => ?_⟩
  have := congrArg (fun m : Measure (Fin 2) => m.real {0}) h
  rw [finMeasure_real _ _ (fun o _ => h0 0 o) (measurableSet_singleton 0),
    finMeasure_real _ _ (fun o _ => h0 1 o) (measurableSet_singleton 0), Fin.sum_univ_two, Fin.sum_univ_two] at this
  norm_num [rrProb] at this

/-- Non-vacuity: the PLD of `(1, 1e-5)`-privacy on a grid that contains epsilon. -/
example : ∃ p, fromPrivacyParameters 1 1e-5 (1/2) = .ok p ∧ p.getDeltaForEpsilon ((1 : ℝ) : EReal) = 1e-5 := by
  obtain ⟨p, h, _⟩ := C21_succeeds 1 1e-5 (1/2) (by norm_num) (by norm_num) (by norm_num)
  exact ⟨p, h, C21_exact_on_grid 1 1e-5 (1/2) (by norm_num) (by norm_num) p h 2 (by norm_num)⟩

/-! ## C23 -/

/-- **C23 (REPLACE_ONE).** For every noise parameter in (0,1), every number of buckets `k >= 2`, every interval and every
two distinct inputs: the pessimistic PLD of `from_randomized_response` reports at least the exact divergence of the two
output distributions, at most the exact one at `eps - interval`, and has mass one. -/
theorem C23_replace_one (noise : ℝ) (h0 : 0 < noise) (h1 : noise < 1) (k : ℕ) (hk : 2 ≤ k) (disc : ℝ) (hd : 0 < disc)
    (x x' : Fin k) (hx : x ≠ x') (e : ℝ) :
    ∃ p, fromRandomizedResponse noise k true disc .replaceOne = .ok p ∧ totalMass p.remove = 1 ∧
      hsFinite Finset.univ (rrProb noise k x) (rrProb noise k x') e ≤ p.getDeltaForEpsilon e ∧
      p.getDeltaForEpsilon e ≤ hsFinite Finset.univ (rrProb noise k x) (rrProb noise k x') (e - disc) := by
  rw [rr_eq_replaceOne h0 h1 hk]
  obtain ⟨hl, hu⟩ := rr_nodup noise k
  obtain ⟨p, h, hv, hs, hr, _⟩ := fromTwoPmfs_spec _ _ hl hu true hd ⊥ true
  refine ⟨p, h, ?_, ?_⟩
  · rw [hr.mass, rr_sum h0 h1 hk fun a _ => a]
    have hk0 : (0 : ℝ) < k := by exact_mod_cast (by omega : 0 < k)
    split_ifs with h2
    · rw [h2]; push_cast; ring
    · field_simp; ring
  · rw [Pld.getDelta_eq hv, hs_eq_of_symm hv hs, ← rr_prob_hs h0 h1 hk x x' hx, ← rr_prob_hs h0 h1 hk x x' hx]
    have := hr.pessimistic_bounds hd e
    refine ⟨this.1, this.2.trans ?_⟩
    have ht : truncatedMass (rrLower noise k) (rrUpper noise k) ⊥ = 0 := by
      unfold truncatedMass
      refine Finset.sum_eq_zero fun o _ => ?_
      split_ifs with hc
      · unfold prob; rw [le_bot_iff.1 hc.2]; rfl
      · rfl
    rw [ht, add_zero]

/-- **C23 (optimistic).** -/
theorem C23_replace_one_optimistic (noise : ℝ) (h0 : 0 < noise) (h1 : noise < 1) (k : ℕ) (hk : 2 ≤ k) (disc : ℝ)
    (hd : 0 < disc) (x x' : Fin k) (hx : x ≠ x') (e : ℝ) :
    ∃ p, fromRandomizedResponse noise k false disc .replaceOne = .ok p ∧
      p.getDeltaForEpsilon e ≤ hsFinite Finset.univ (rrProb noise k x) (rrProb noise k x') e := by
  rw [rr_eq_replaceOne h0 h1 hk]
  obtain ⟨hl, hu⟩ := rr_nodup noise k
  obtain ⟨p, h, hv, hs, hr, _⟩ := fromTwoPmfs_spec _ _ hl hu false hd ⊥ true
  refine ⟨p, h, ?_⟩
  rw [Pld.getDelta_eq hv, hs_eq_of_symm hv hs, ← rr_prob_hs h0 h1 hk x x' hx]
  exact (hr.optimistic_bounds hd e).1

/-- **C23 (exact).** If the loss `log(Pr[truth]/Pr[other])` is a multiple of the interval, the reported delta is exact. -/
theorem C23_exact_on_grid (noise : ℝ) (h0 : 0 < noise) (h1 : noise < 1) (k : ℕ) (hk : 2 ≤ k) (disc : ℝ) (hd : 0 < disc)
    (x x' : Fin k) (hx : x ≠ x') (pess : Bool) (n : ℤ)
    (hg : Real.log ((1 - noise + noise / k) / (noise / k)) = n * disc) (e : ℝ) :
    ∃ p, fromRandomizedResponse noise k pess disc .replaceOne = .ok p ∧
      p.getDeltaForEpsilon e = hsFinite Finset.univ (rrProb noise k x) (rrProb noise k x') e := by
  rw [rr_eq_replaceOne h0 h1 hk, ← rr_prob_hs h0 h1 hk x x' hx]
  obtain ⟨hl, hu⟩ := rr_nodup noise k
  exact C19_exact_on_grid _ _ hl hu disc hd pess (rr_grid h0 h1 hk n hg) e

/-- **C23 (REPLACE_SPECIAL).** The PLD covers both directions between randomised response on any input and the uniform
output used for the special record. -/
theorem C23_replace_special (noise : ℝ) (h0 : 0 < noise) (h1 : noise < 1) (k : ℕ) (hk : 2 ≤ k) (disc : ℝ) (hd : 0 < disc)
    (x : Fin k) (e : ℝ) :
    ∃ p, fromRandomizedResponse noise k true disc .replaceSpecial = .ok p ∧ totalMass p.remove = 1 ∧ totalMass p.add = 1 ∧
      max (hsFinite Finset.univ (rrProb noise k x) (fun _ => 1 / (k : ℝ)) e)
        (hsFinite Finset.univ (fun _ => 1 / (k : ℝ)) (rrProb noise k x) e) ≤ p.getDeltaForEpsilon e ∧
      p.getDeltaForEpsilon e ≤ max (hsFinite Finset.univ (rrProb noise k x) (fun _ => 1 / (k : ℝ)) (e - disc))
        (hsFinite Finset.univ (fun _ => 1 / (k : ℝ)) (rrProb noise k x) (e - disc)) := by
  rw [rr_eq_replaceSpecial h0 h1 hk]
  obtain ⟨hl, hu⟩ := rrs_nodup noise k
  obtain ⟨ho, a0, a1, b0, b1⟩ := rrs_prob h0 h1 hk
  obtain ⟨p, h, hv, hs, hr, hr'⟩ := fromTwoPmfs_spec _ _ hl hu true hd ⊥ false
  have hk0 : (0 : ℝ) < k := by exact_mod_cast (by omega : 0 < k)
  have ht : ∀ a b : LogPmf ℕ, truncatedMass a b ⊥ = 0 := by
    intro a b
    unfold truncatedMass
    refine Finset.sum_eq_zero fun o _ => ?_
    split_ifs with hc
    · unfold prob; rw [le_bot_iff.1 hc.2]; rfl
    · rfl
  refine ⟨p, h, ?_, ?_, ?_⟩
  · rw [hr.mass, ho, Finset.sum_pair (by decide), a0, a1]; field_simp; ring
  · rw [(hr' rfl).mass, outcomes_comm, ho, Finset.sum_pair (by decide), b0, b1]; field_simp; ring
  · have c1 := hr.pessimistic_bounds hd e
    have c2 := (hr' rfl).pessimistic_bounds hd e
    rw [ht, add_zero, (rrs_prob_hs h0 h1 hk x _).1, (rrs_prob_hs h0 h1 hk x _).1] at c1
    rw [ht, add_zero, (rrs_prob_hs h0 h1 hk x _).2, (rrs_prob_hs h0 h1 hk x _).2] at c2
    rw [Pld.getDelta_eq hv]
    exact ⟨max_le_max c1.1 c2.1, max_le_max c1.2 c2.2⟩

/-- **C23 (arguments).** Exactly the documented arguments are rejected. -/
theorem C23_rejects (noise : ℝ) (k : ℤ) (pess : Bool) (disc : ℝ) (hd : 0 < disc) (nr : NeighborRel) :
    fromRandomizedResponse noise k pess disc nr = .error .valueError ↔
      noise ≤ 0 ∨ 1 ≤ noise ∨ k ≤ 1 ∨ nr = .addOrRemoveOne := by
  constructor
  · intro h
    by_contra hc
    push Not at hc
    obtain ⟨h0, h1, hk, hn⟩ := hc
    obtain ⟨k', rfl⟩ : ∃ k' : ℕ, k = k' := ⟨k.toNat, by omega⟩
    cases nr with
    | addOrRemoveOne => exact hn rfl
    | replaceOne =>
      rw [rr_eq_replaceOne h0 h1 (by omega)] at h
      obtain ⟨p, g, _⟩ := fromTwoPmfs_spec _ _ (rr_nodup noise k').1 (rr_nodup noise k').2 pess hd ⊥ true
      rw [g] at h; simp at h
    | replaceSpecial =>
      rw [rr_eq_replaceSpecial h0 h1 (by omega)] at h
      obtain ⟨p, g, _⟩ := fromTwoPmfs_spec _ _ (rrs_nodup noise k').1 (rrs_nodup noise k').2 pess hd ⊥ false
      rw [g] at h; simp at h
  · intro h
    unfold fromRandomizedResponse
    by_cases h1 : noise ≤ 0 ∨ noise ≥ 1
    · rw [if_pos h1]
    · rw [if_neg h1]
      by_cases h2 : k ≤ 1
      · rw [if_pos h2]
      · rw [if_neg h2]
        rcases h with h | h | h | h
        · exact absurd (Or.inl h) h1
        · exact absurd (Or.inr h) h1
        · exact absurd h h2
        · subst h; rfl

example : (0 : ℝ) < 1/3 ∧ (1/3 : ℝ) < 1 ∧ (0 : Fin 4) ≠ 3 ∧
    Real.log ((1 - 1/3 + 1/3 / ((4 : ℕ) : ℝ)) / (1/3 / ((4 : ℕ) : ℝ))) = (2 : ℤ) * Real.log 3 := by
  refine ⟨by norm_num, by norm_num, by decide, ?_⟩
  have : (1 - 1/3 + 1/3 / ((4 : ℕ) : ℝ)) / (1/3 / ((4 : ℕ) : ℝ)) = 3 ^ 2 := by norm_num
  rw [this, Real.log_pow]; norm_num

/-! ## C24 -/

/-- **C24.** PLDs on different grids or of different estimate types cannot be composed. -/
theorem C24_incompatible_rejected (p q : Pld) (hp : p.Valid) (hq : q.Valid) (t : ℝ)
    (h : p.remove.disc ≠ q.remove.disc ∨ p.remove.pessimistic ≠ q.remove.pessimistic) :
    p.compose q t = .error .valueError := by
  unfold Pld.compose
  rw [composePmfs_incompatible h hp.wfRemove hq.wfRemove]

/-- **C24.** If composition succeeds the objects were compatible, the result is a well-formed object on the same grid and
of the same type, symmetric iff both operands are, and (without truncation) its delta is the maximum over the two
directions of the exact delta of the sum of the losses. -/
theorem C24_compose_valid (p q r : Pld) (hp : p.Valid) (hq : q.Valid) (t : ℝ) (h : p.compose q t = .ok r) :
    q.remove.disc = p.remove.disc ∧ q.remove.pessimistic = p.remove.pessimistic ∧ r.Valid ∧
    r.remove.disc = p.remove.disc ∧ r.remove.pessimistic = p.remove.pessimistic ∧
    (r.symmetric = true ↔ p.symmetric = true ∧ q.symmetric = true) ∧
    (t = 0 → ∀ e : EReal, r.getDeltaForEpsilon e = max (p.remove.sumHs q.remove e) (p.add.sumHs q.add e)) := by
  unfold Pld.compose at h
  cases h1 : composePmfs p.remove q.remove t with
  | error e => rw [h1] at h; simp at h
  | ok m =>
    rw [h1] at h
    simp only at h
    have sp := composePmfs_spec h1 hp.wfRemove hq.wfRemove
    have wm := sp.wf hp.wfRemove hq.wfRemove
    by_cases hs : (p.symmetric && q.symmetric) = true
    · rw [if_pos hs] at h
      simp only [Except.ok.injEq] at h
      subst h
      rw [Bool.and_eq_true] at hs
      refine ⟨sp.disc', sp.pess', valid_none wm, sp.disc, sp.pess, ⟨fun _ => hs, fun _ => rfl⟩, fun ht e => ?_⟩
      subst ht
      rw [Pld.getDelta_eq (valid_none wm), hs_eq_of_symm (valid_none wm) rfl, hp.symm hs.1, hq.symm hs.2, max_self]
      rw [← C13_compose_delta p.remove q.remove m hp.wfRemove hq.wfRemove h1, C11_delta_exact m wm]
      rfl
    · rw [if_neg hs] at h
      cases h2 : composePmfs p.add q.add t with
      | error e => rw [h2] at h; simp at h
      | ok a =>
        rw [h2] at h
        simp only [Except.ok.injEq] at h
        subst h
        have sa := composePmfs_spec h2 hp.wfAdd hq.wfAdd
        have wa := sa.wf hp.wfAdd hq.wfAdd
        have va : (mk' m (some a)).Valid := valid_some wm wa (by rw [sa.disc, sp.disc, hp.disc]) (by rw [sa.pess, sp.pess, hp.pess])
        rw [Bool.and_eq_true] at hs
        refine ⟨sp.disc', sp.pess', va, sp.disc, sp.pess, ⟨fun h => by simp [mk'] at h, fun h => absurd h hs⟩, fun ht e => ?_⟩
        subst ht
        rw [Pld.getDelta_eq va, ← C13_compose_delta p.remove q.remove m hp.wfRemove hq.wfRemove h1,
          ← C13_compose_delta p.add q.add a hp.wfAdd hq.wfAdd h2, C11_delta_exact m wm, C11_delta_exact a wa]
        rfl

/-- **C24.** The scalar and vector deltas of an object are the larger of its two directions. -/
theorem C24_delta_max (p : Pld) (hp : p.Valid) :
    (∀ e : EReal, p.getDeltaForEpsilon e = max (p.remove.hs e) (p.add.hs e)) ∧
    ∀ es : List EReal, es.Pairwise (· ≤ ·) →
      p.getDeltaForEpsilons es = .ok (es.map fun e => max (p.remove.hs e) (p.add.hs e)) :=
  ⟨fun e => Pld.getDelta_eq hp e, fun es hs => Pld.getDeltas_eq hp es hs⟩

/-- **C24.** `get_epsilon_for_delta` of an object is infinite exactly when `delta` is below the infinity mass of a
direction; otherwise the delta reported at the returned epsilon does not exceed `delta`. -/
theorem C24_epsilon_valid (p : Pld) (hp : p.Valid) (hr : p.remove.NonNeg) (ha : p.add.NonNeg) (δ : ℝ) :
    (p.getEpsilonForDelta δ = ⊤ ↔ δ < p.remove.infinityMass ∨ δ < p.add.infinityMass) ∧
    (p.remove.infinityMass ≤ δ → p.add.infinityMass ≤ δ →
      ∃ r : ℝ, p.getEpsilonForDelta δ = (r : EReal) ∧ 0 ≤ r ∧ p.getDeltaForEpsilon r ≤ δ) := by
  have hr1 := C12_epsilon_valid p.remove hp.wfRemove hr δ
  have ha1 := C12_epsilon_valid p.add hp.wfAdd ha δ
  have key : p.getEpsilonForDelta δ = max (p.remove.getEpsilonForDelta δ) (p.add.getEpsilonForDelta δ) := by
    unfold Pld.getEpsilonForDelta
    by_cases hs : p.symmetric = true
    · simp only [hs, if_true, hp.symm hs, max_self]
    · simp only [hs]; rfl
  rw [key]
  refine ⟨?_, fun h1 h2 => ?_⟩
  · rw [← hr1.1, ← ha1.1, max_eq_top]
  · obtain ⟨r, g1, g2, g3⟩ := hr1.2 h1
    obtain ⟨a, f1, f2, f3⟩ := ha1.2 h2
    refine ⟨max r a, ?_, le_max_of_le_left g2, ?_⟩
    · rw [g1, f1]; exact (EReal.coe_strictMono.monotone.map_max (a := r) (b := a)).symm
    · rw [Pld.getDelta_eq hp]
      rw [C11_delta_exact _ hp.wfRemove] at g3
      rw [C11_delta_exact _ hp.wfAdd] at f3
      refine max_le ?_ ?_
      · exact le_trans (hs_mono_of_nonneg hr (by exact_mod_cast le_max_left r a)) g3
      · exact le_trans (hs_mono_of_nonneg ha (by exact_mod_cast le_max_right r a)) f3

/-- **C24.** `get_delta_for_epsilon_for_composed_pld` agrees with the delta of the composed object. -/
theorem C24_composed_delta (p q r : Pld) (hp : p.Valid) (hq : q.Valid) (e x : ℝ) (h : p.compose q 0 = .ok r)
    (hx : p.deltaForComposed q e = .ok x) : x = r.getDeltaForEpsilon e := by
  obtain ⟨_, _, _, _, _, hsym, hd⟩ := C24_compose_valid p q r hp hq 0 h
  rw [hd rfl]
  have sumEq : ∀ (a b : Pmf) (y : ℝ), a.WF → b.WF → a.deltaForComposed b e = .ok y → y = a.sumHs b e := by
    intro a b y ha hb hy
    obtain ⟨_, _, h⟩ := Pmf.deltaForComposed_spec ha hb hy
    rw [h]
    unfold Pmf.sumHs convE
    simp only [Int.cast_add]
    ring
  unfold Pld.deltaForComposed at hx
  cases h1 : p.remove.deltaForComposed q.remove e with
  | error _ => rw [h1] at hx; simp at hx
  | ok dr =>
    rw [h1] at hx
    simp only at hx
    have e1 := sumEq _ _ _ hp.wfRemove hq.wfRemove h1
    by_cases hs : (p.symmetric && q.symmetric) = true
    · rw [if_pos hs] at hx
      simp only [Except.ok.injEq] at hx
      rw [Bool.and_eq_true] at hs
      rw [hp.symm hs.1, hq.symm hs.2, max_self, ← hx, e1]
    · rw [if_neg hs] at hx
      cases h2 : p.add.deltaForComposed q.add e with
      | error _ => rw [h2] at hx; simp at hx
      | ok da =>
        rw [h2] at hx
        simp only [Except.ok.injEq] at hx
        rw [← hx, e1, sumEq _ _ _ hp.wfAdd hq.wfAdd h2]

/-- **C24.** `self_compose` keeps the object well formed and treats each direction as an `n`-fold sum. -/
theorem C24_self_compose_valid (nfl : ℕ → ℕ) (hnfl : ∀ k, k ≤ nfl k) (p r : Pld) (hp : p.Valid)
    (hi : p.remove.infinityMass ≤ 1) (hia : p.add.infinityMass ≤ 1) (n : ℤ) (t : ℝ) (h : p.selfCompose nfl n t = .ok r) :
    0 < n ∧ r.Valid ∧ r.remove.disc = p.remove.disc ∧ r.remove.pessimistic = p.remove.pessimistic ∧
    r.symmetric = p.symmetric ∧
    (t = 0 → ∀ e : EReal, r.getDeltaForEpsilon e = max (p.remove.nfoldHs n.toNat e) (p.add.nfoldHs n.toNat e)) := by
  unfold Pld.selfCompose at h
  cases h1 : p.remove.selfCompose nfl n t with
  | error e => rw [h1] at h; simp at h
  | ok m =>
    rw [h1] at h
    simp only at h
    obtain ⟨hn, sp⟩ := Pmf.selfCompose_spec hnfl hp.wfRemove hi h1
    have wm := sp.wf hp.wfRemove
    by_cases hs : p.symmetric = true
    · rw [if_pos hs] at h
      simp only [Except.ok.injEq] at h
      subst h
      refine ⟨hn, valid_none wm, sp.disc, sp.pess, hs.symm, fun ht e => ?_⟩
      subst ht
      rw [Pld.getDelta_eq (valid_none wm), hs_eq_of_symm (valid_none wm) rfl, hp.symm hs, max_self]
      rw [← (C16_self_compose_exact nfl hnfl p.remove m n hp.wfRemove hi h1).2.2.2, C11_delta_exact m wm]
      rfl
    · rw [if_neg hs] at h
      cases h2 : p.add.selfCompose nfl n t with
      | error e => rw [h2] at h; simp at h
      | ok a =>
        rw [h2] at h
        simp only [Except.ok.injEq] at h
        subst h
        obtain ⟨_, sa⟩ := Pmf.selfCompose_spec hnfl hp.wfAdd hia h2
        have wa := sa.wf hp.wfAdd
        have va : (mk' m (some a)).Valid := valid_some wm wa (by rw [sa.disc, sp.disc, hp.disc]) (by rw [sa.pess, sp.pess, hp.pess])
        refine ⟨hn, va, sp.disc, sp.pess, by simp only [Bool.not_eq_true] at hs; exact hs.symm, fun ht e => ?_⟩
        subst ht
        rw [Pld.getDelta_eq va, ← (C16_self_compose_exact nfl hnfl p.remove m n hp.wfRemove hi h1).2.2.2,
          ← (C16_self_compose_exact nfl hnfl p.add a n hp.wfAdd hia h2).2.2.2, C11_delta_exact m wm, C11_delta_exact a wa]
        rfl

/-- **C24 (disagreement).** `validate_composable` rejects PLDs that `compose` accepts: two compatible objects of which one
is stored densely and the other sparsely. -/
theorem C24_validate_rejects_composable : ∃ p q : Pld, p.Valid ∧ q.Valid ∧
    p.validateComposable q = .error .valueError ∧ ∃ r, p.compose q 0 = .ok r := by
  refine ⟨mk' exDense none, mk' exSparse none, valid_none exDense_ok.1, valid_none exSparse_ok.1, rfl, ?_⟩
  obtain ⟨c, hc⟩ := C13_compose_succeeds exDense exSparse 0 exDense_ok.1 exSparse_ok.1 exDense_ok.2.1 exSparse_ok.2.1 rfl rfl
    exDense_ok.2.2.1 exSparse_ok.2.2.1 (Or.inl rfl)
  refine ⟨mk' c none, ?_⟩
  unfold Pld.compose
  simp only [mk'_none, hc]
  rfl

example : ∃ p q r : Pld, p.Valid ∧ q.Valid ∧ p.symmetric = false ∧ p.compose q 0 = .ok r ∧ r.symmetric = false := by
  obtain ⟨c, hc⟩ := C13_compose_succeeds exDense exSparse 0 exDense_ok.1 exSparse_ok.1 exDense_ok.2.1 exSparse_ok.2.1 rfl rfl
    exDense_ok.2.2.1 exSparse_ok.2.2.1 (Or.inl rfl)
  obtain ⟨c', hc'⟩ := C13_compose_succeeds exSparse exSparse 0 exSparse_ok.1 exSparse_ok.1 exSparse_ok.2.1 exSparse_ok.2.1 rfl rfl
    exSparse_ok.2.2.1 exSparse_ok.2.2.1 (Or.inl rfl)
  refine ⟨mk' exDense (some exSparse), mk' exSparse none, mk' c (some c'), valid_some exDense_ok.1 exSparse_ok.1 rfl rfl,
    valid_none exSparse_ok.1, rfl, ?_, rfl⟩
  unfold Pld.compose
  simp only [mk'_none, mk'_some, hc, hc']
  rfl

/-- Non-vacuity: seven copies of a PLD. -/
example : ∃ r, (mk' exDense none).selfCompose id 7 0 = .ok r ∧ r.Valid ∧
    r.getDeltaForEpsilon ((0 : ℝ) : EReal) = exDense.nfoldHs 7 ((0 : ℝ) : EReal) := by
  have hm : 0 < finiteMass exDense.points := by
    have := exDense_ok.2.2.2; unfold totalMass at this
    have hi : exDense.infinityMass = 1/4 := rfl
    linarith
  have hi : exDense.infinityMass < 1 := by show (1/4 : ℝ) < 1; norm_num
  obtain ⟨c, hc⟩ := C16_self_compose_succeeds id exDense 7 (by norm_num) exDense_ok.1 exDense_ok.2.1 hm hi
  have hr : (mk' exDense none).selfCompose id 7 0 = .ok (mk' c none) := by
    unfold Pld.selfCompose
    simp only [mk'_none, hc]
    rfl
  have := C24_self_compose_valid id (fun _ => le_rfl) _ _ (valid_none exDense_ok.1) hi.le hi.le 7 0 hr
  refine ⟨_, hr, this.2.1, ?_⟩
  rw [this.2.2.2.2.2 rfl]
  exact max_self _

/-! ## C34 -/

/-- **C34.** For every distribution of the privacy loss (a finite measure on the reals plus a mass at infinity), every
interval and truncation mass: whenever `create_from_cdf` returns, the pessimistic object reports at every `eps` at least
the delta of the loss distribution, and at most the one at `eps - interval` plus the truncated mass. -/
theorem C34_pessimistic (μ : Measure ℝ) [IsFiniteMeasure μ] (inf : ℝ) (hi : 0 ≤ inf) (hmass : μ.real Set.univ + inf = 1)
    (disc t : ℝ) (hd : 0 < disc) (ht : 0 ≤ t) (fuel : ℕ) (r : Except Err Pld)
    (hr : createFromCdf fuel (fun x => μ.real (Set.Iic x)) true disc t = some r) :
    ∃ p, r = .ok p ∧ p.Valid ∧ ∀ e : ℝ, lossHs μ inf e ≤ p.getDeltaForEpsilon e ∧
      p.getDeltaForEpsilon e ≤ lossHs μ inf (e - disc) + t := by
  obtain ⟨m, h1, h2, h3, h4, h5, h6, h7⟩ := createFromCdf_spec hd ht hmass hr
  refine ⟨mk' m none, h1, valid_none h2, fun e => ?_⟩
  rw [Pld.getDelta_eq (valid_none h2), hs_eq_of_symm (valid_none h2) rfl]
  show _ ≤ m.hs e ∧ m.hs e ≤ _
  unfold Pmf.hs hockeyStick lossHs
  rw [h5, h3]
  simp only [if_true] at h7 ⊢
  constructor
  · exact (h7 _ _ (measurable_hinge _) (hinge_nonneg _) (hinge_le_one _)).1 fun k x _ hx => hinge_mono _ (by linarith)
  · have := (h7 (hinge ((e - disc : ℝ) : EReal)) (fun k => hinge (e : EReal) (k * disc)) (measurable_hinge _) (hinge_nonneg _)
      (hinge_le_one _)).2 fun k x hx _ => ?_
    · linarith
    · rw [hinge_coe, hinge_coe]
      refine max_le_max le_rfl (sub_le_sub_left (Real.exp_le_exp.2 ?_) _)
      linarith

/-- **C34 (optimistic).** -/
theorem C34_optimistic (μ : Measure ℝ) [IsFiniteMeasure μ] (inf : ℝ) (hi : 0 ≤ inf) (hmass : μ.real Set.univ + inf = 1)
    (disc t : ℝ) (hd : 0 < disc) (ht : 0 ≤ t) (fuel : ℕ) (r : Except Err Pld)
    (hr : createFromCdf fuel (fun x => μ.real (Set.Iic x)) false disc t = some r) :
    ∃ p, r = .ok p ∧ p.Valid ∧ ∀ e : ℝ, p.getDeltaForEpsilon e ≤ lossHs μ inf e ∧
      lossHs μ inf (e + disc) - t ≤ p.getDeltaForEpsilon e := by
  obtain ⟨m, h1, h2, h3, h4, h5, h6, h7⟩ := createFromCdf_spec hd ht hmass hr
  refine ⟨mk' m none, h1, valid_none h2, fun e => ?_⟩
  rw [Pld.getDelta_eq (valid_none h2), hs_eq_of_symm (valid_none h2) rfl]
  show m.hs e ≤ _ ∧ _ ≤ m.hs e
  unfold Pmf.hs hockeyStick lossHs
  rw [h5, h3]
  simp only [Bool.false_eq_true, if_false, sub_zero, zero_add] at h7 ⊢
  constructor
  · have := (h7 (hinge (e : EReal)) (fun k => hinge (e : EReal) (k * disc)) (measurable_hinge _) (hinge_nonneg _)
      (hinge_le_one _)).2 fun k x hx _ => hinge_mono _ hx.le
    linarith
  · have := (h7 (hinge ((e + disc : ℝ) : EReal)) (fun k => hinge (e : EReal) (k * disc)) (measurable_hinge _) (hinge_nonneg _)
      (hinge_le_one _)).1 fun k x _ hx => ?_
    · linarith
    · rw [hinge_coe, hinge_coe]
      refine max_le_max le_rfl (sub_le_sub_left (Real.exp_le_exp.2 ?_) _)
      linarith

/-- **C34 (termination).** Both loops stop when the truncation mass is positive and exceeds twice the infinite-loss mass. -/
theorem C34_terminates (μ : Measure ℝ) [IsFiniteMeasure μ] (inf : ℝ) (hmass : μ.real Set.univ + inf = 1) (disc t : ℝ)
    (hd : 0 < disc) (ht : 0 < t) (hit : 2 * inf < t) (pess : Bool) :
    ∃ N, ∀ fuel, N ≤ fuel → ∃ r, createFromCdf fuel (fun x => μ.real (Set.Iic x)) pess disc t = some r :=
  createFromCdf_terminates μ hd ht (by linarith) pess

/-- **C34 (disagreement).** For a loss that is infinite with probability more than half of the truncation mass, the first
loop never ends: no number of iterations suffices. -/
theorem C34_diverges_with_infinite_mass (μ : Measure ℝ) [IsFiniteMeasure μ] (inf : ℝ) (hmass : μ.real Set.univ + inf = 1)
    (disc t : ℝ) (hit : t < 2 * inf) (pess : Bool) (fuel : ℕ) :
    createFromCdf fuel (fun x => μ.real (Set.Iic x)) pess disc t = none := by
  unfold createFromCdf
  rw [cdfUp_diverges (fun x => lt_of_le_of_lt (measureReal_mono (Set.subset_univ _)) (by linarith))]

/-- Non-vacuity: half of the mass at loss 0.3, half at -7; and the delta bracketed at eps 0. -/
example : ∃ p, (∃ fuel, createFromCdf fuel (fun x => ((1/2 : ENNReal) • Measure.dirac (0.3 : ℝ) +
      (1/2 : ENNReal) • Measure.dirac (-7 : ℝ)).real (Set.Iic x)) true 1 (1/4) = some (.ok p)) ∧
    lossHs ((1/2 : ENNReal) • Measure.dirac (0.3 : ℝ) + (1/2 : ENNReal) • Measure.dirac (-7 : ℝ)) 0 0 ≤
      p.getDeltaForEpsilon ((0 : ℝ) : EReal) := by
  set μ : Measure ℝ := (1/2 : ENNReal) • Measure.dirac (0.3 : ℝ) + (1/2 : ENNReal) • Measure.dirac (-7 : ℝ) with hμ
  have hu : μ Set.univ = 1 := by simp [hμ, ENNReal.inv_two_add_inv_two]
  haveI : IsProbabilityMeasure μ := ⟨hu⟩
  have hm : μ.real Set.univ + 0 = 1 := by simp
  obtain ⟨N, hN⟩ := C34_terminates μ 0 hm 1 (1/4) one_pos (by norm_num) (by norm_num) true
  obtain ⟨r, hr⟩ := hN N le_rfl
  obtain ⟨p, rfl, _, hp⟩ := C34_pessimistic μ 0 le_rfl hm 1 (1/4) one_pos (by norm_num) N r hr
  exact ⟨p, ⟨N, hr⟩, (hp 0).1⟩

end Verif.Props
