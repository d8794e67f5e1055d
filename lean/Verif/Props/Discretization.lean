import Verif.Proofs.Discretization
import Verif.Props.AdditiveNoisePld
import Verif.Proofs.PldEndToEnd
import Verif.Proofs.PolygonDiscrete
import Verif.Proofs.BucketRefineContinuous

/-!
# C83: what the discretization interval does to the reported deltas

The docstrings of the constructors promise that a smaller `value_discretization_interval` gives more accurate estimates. This holds when the
smaller interval divides the larger one; otherwise it can fail (`C83_smaller_interval_violated`). For Laplace, discrete Laplace and
discrete Gaussian noise with connect-the-dots the reported delta is given exactly: the polygon through the exact privacy curve at the multiples of the interval. The order of the
deltas of two PLDs is kept by composition.
-/

namespace Verif.Props
open Verif Spec Pld Mech PldPmf MeasureTheory ProbabilityTheory

/-- Both directions of `p` report at most the deltas of `p'`, up to `τ`. -/
def PldLe (p p' : Pld) (τ : ℝ) : Prop :=
  ∀ e : ℝ, p.remove.getDeltaForEpsilon e ≤ p'.remove.getDeltaForEpsilon e + τ ∧ p.add.getDeltaForEpsilon e ≤ p'.add.getDeltaForEpsilon e + τ

/-- Then so do the deltas of the PLDs. -/
lemma PldLe.delta {p p' : Pld} {τ : ℝ} (h : PldLe p p' τ) (hp : p.Valid) (hp' : p'.Valid) (e : ℝ) :
    p.getDeltaForEpsilon e ≤ p'.getDeltaForEpsilon e + τ := by
  rw [(C24_delta_max p hp).1, (C24_delta_max p' hp').1, ← C11_delta_exact _ hp.wfRemove, ← C11_delta_exact _ hp.wfAdd,
    ← C11_delta_exact _ hp'.wfRemove, ← C11_delta_exact _ hp'.wfAdd]
  have h1 := le_max_left (p'.remove.getDeltaForEpsilon (e : EReal)) (p'.add.getDeltaForEpsilon (e : EReal))
  have h2 := le_max_right (p'.remove.getDeltaForEpsilon (e : EReal)) (p'.add.getDeltaForEpsilon (e : EReal))
  exact max_le ((h e).1.trans (by linarith)) ((h e).2.trans (by linarith))

/-! ### Two probability mass functions -/

section
variable {O : Type} [DecidableEq O]

/-- **C83, pessimistic.** Dividing the interval by a whole number never raises a pessimistic delta of `from_two_probability_mass_functions`. -/
theorem C83_two_pmfs_pessimistic (lower upper : LogPmf O) (hl : (lower.map Prod.fst).Nodup) (hu : (upper.map Prod.fst).Nodup)
    {disc : ℝ} (hd : 0 < disc) (n : ℕ) (hn : 0 < n) (bound : LogProb) (symm : Bool) (p p' : Pld)
    (h : fromTwoPmfs lower upper true disc bound symm = .ok p) (h' : fromTwoPmfs lower upper true (disc / n) bound symm = .ok p') (e : EReal) :
    p'.getDeltaForEpsilon e ≤ p.getDeltaForEpsilon e := by
  have hn' : (0 : ℝ) < n := by exact_mod_cast hn
  obtain ⟨_, g, hv, hs, hr, ha⟩ := fromTwoPmfs_spec lower upper hl hu true hd bound symm
  rw [h] at g; cases g
  obtain ⟨_, g, hv', hs', hr', ha'⟩ := fromTwoPmfs_spec lower upper hl hu true (div_pos hd hn') bound symm
  rw [h'] at g; cases g
  rw [(C24_delta_max p hv).1, (C24_delta_max p' hv').1]
  have h1 := hr.refine_pess hd hn hr' e
  cases symm with
  | true =>
    rw [hv.symm hs, hv'.symm hs', max_self, max_self]
    exact h1
  | false => exact max_le_max h1 ((ha rfl).refine_pess hd hn (ha' rfl) e)

/-- **C83, optimistic.** It never lowers an optimistic delta. -/
theorem C83_two_pmfs_optimistic (lower upper : LogPmf O) (hl : (lower.map Prod.fst).Nodup) (hu : (upper.map Prod.fst).Nodup)
    {disc : ℝ} (hd : 0 < disc) (n : ℕ) (hn : 0 < n) (bound : LogProb) (symm : Bool) (p p' : Pld)
    (h : fromTwoPmfs lower upper false disc bound symm = .ok p) (h' : fromTwoPmfs lower upper false (disc / n) bound symm = .ok p') (e : EReal) :
    p.getDeltaForEpsilon e ≤ p'.getDeltaForEpsilon e := by
  have hn' : (0 : ℝ) < n := by exact_mod_cast hn
  obtain ⟨_, g, hv, hs, hr, ha⟩ := fromTwoPmfs_spec lower upper hl hu false hd bound symm
  rw [h] at g; cases g
  obtain ⟨_, g, hv', hs', hr', ha'⟩ := fromTwoPmfs_spec lower upper hl hu false (div_pos hd hn') bound symm
  rw [h'] at g; cases g
  rw [(C24_delta_max p hv).1, (C24_delta_max p' hv').1]
  have h1 := hr.refine_opt hd hn hr' e
  cases symm with
  | true =>
    rw [hv.symm hs, hv'.symm hs', max_self, max_self]
    exact h1
  | false => exact max_le_max h1 ((ha rfl).refine_opt hd hn (ha' rfl) e)

/-- The constructor returns for any dictionaries and intervals. -/
example (lower upper : LogPmf O) (hl : (lower.map Prod.fst).Nodup) (hu : (upper.map Prod.fst).Nodup) (n : ℕ) (hn : 0 < n) (pess symm : Bool) :
    (∃ p, fromTwoPmfs lower upper pess 1e-4 ⊥ symm = .ok p) ∧ ∃ p, fromTwoPmfs lower upper pess (1e-4 / n) ⊥ symm = .ok p := by
  have hn' : (0 : ℝ) < n := by exact_mod_cast hn
  obtain ⟨p, h, -⟩ := fromTwoPmfs_spec lower upper hl hu pess (disc := 1e-4) (by norm_num) ⊥ symm
  obtain ⟨p', h', -⟩ := fromTwoPmfs_spec lower upper hl hu pess (disc := 1e-4 / n) (div_pos (by norm_num) hn') ⊥ symm
  exact ⟨⟨p, h⟩, ⟨p', h'⟩⟩

end

/-! ### Privacy parameters -/

/-- **C83** for `from_privacy_parameters`. -/
theorem C83_privacy_parameters {eps delta disc : ℝ} (h1 : delta ≤ 1) (hd : 0 < disc) (n : ℕ) (hn : 0 < n) (p p' : Pld)
    (h : fromPrivacyParameters eps delta disc = .ok p) (h' : fromPrivacyParameters eps delta (disc / n) = .ok p') (e : EReal) :
    p'.getDeltaForEpsilon e ≤ p.getDeltaForEpsilon e := by
  have hn' : (0 : ℝ) < n := by exact_mod_cast hn
  obtain ⟨m, g, g1, g2, g3, g4, g5, -⟩ := fromPrivacyParameters_spec eps delta hd
  rw [h] at g; cases g
  obtain ⟨m', g, k1, k2, k3, k4, k5, -⟩ := fromPrivacyParameters_spec eps delta (div_pos hd hn')
  rw [h'] at g; cases g
  rw [(C24_delta_max _ (valid_none g1)).1, (C24_delta_max _ (valid_none k1)).1]
  show max (m'.hs e) (m'.hs e) ≤ max (m.hs e) (m.hs e)
  rw [max_self, max_self]
  unfold Pmf.hs hockeyStick
  rw [g5, g3, g2, k5, k3, k2]
  have c1 : 0 ≤ (1 - delta) / (1 + Real.exp (-eps)) := div_nonneg (by linarith) (by positivity)
  have c2 : 0 ≤ (1 - delta) / (1 + Real.exp eps) := div_nonneg (by linarith) (by positivity)
  have a1 := mul_le_mul_of_nonneg_left (hinge_mono e (ceil_refine hd hn eps)) c1
  have a2 := mul_le_mul_of_nonneg_left (hinge_mono e (ceil_refine hd hn (-eps))) c2
  linarith

/-- **C83 fails for intervals that do not divide each other.** For a mechanism with privacy parameters `(eps, delta)` the interval `eps`
gives the exact delta at `eps`; every smaller interval above `eps / 2` gives a larger one. -/
theorem C83_smaller_interval_violated {eps delta disc : ℝ} (h1 : delta < 1) (hd : eps / 2 < disc) (hd' : disc < eps) :
    ∃ p p', fromPrivacyParameters eps delta eps = .ok p ∧ fromPrivacyParameters eps delta disc = .ok p' ∧
      p.getDeltaForEpsilon eps = delta ∧ delta < p'.getDeltaForEpsilon eps := by
  have he : 0 < eps := by linarith
  have d0 : 0 < disc := by linarith
  obtain ⟨m, g, -⟩ := fromPrivacyParameters_spec eps delta he
  obtain ⟨m', g', k1, k2, k3, k4, k5, -⟩ := fromPrivacyParameters_spec eps delta d0
  refine ⟨_, _, g, g', fromPrivacyParameters_exact he.le he g 1 (by simp), ?_⟩
  rw [(C24_delta_max _ (valid_none k1)).1]
  show delta < max (m'.hs (eps : EReal)) (m'.hs (eps : EReal))
  rw [max_self]
  unfold Pmf.hs hockeyStick
  rw [k5, k3, k2]
  have hc : ⌈eps / disc⌉ = 2 := by
    rw [Int.ceil_eq_iff]
    constructor
    · push_cast; rw [lt_div_iff₀ d0]; linarith
    · push_cast; rw [div_le_iff₀ d0]; linarith
  rw [hc]
  have c1 : 0 < (1 - delta) / (1 + Real.exp (-eps)) := div_pos (by linarith) (by positivity)
  have c2 : 0 ≤ (1 - delta) / (1 + Real.exp eps) := div_nonneg (by linarith) (by positivity)
  have a1 : 0 < hinge (eps : EReal) (((2 : ℤ) : ℝ) * disc) := by
    rw [hinge_coe]
    refine lt_max_of_lt_right ?_
    have : Real.exp (eps - ((2 : ℤ) : ℝ) * disc) < 1 := Real.exp_lt_one_iff.2 (by push_cast; linarith)
    linarith
  have a2 := mul_nonneg c2 (hinge_nonneg (eps : EReal) ((⌈-eps / disc⌉ : ℝ) * disc))
  have a3 := mul_pos c1 a1
  linarith

example : (0 : ℝ) < 1 ∧ (1 : ℝ) / 2 < 0.7 ∧ (0.7 : ℝ) < 1 := by norm_num

/-! ### Laplace noise -/

lemma OffGrid.coarse {disc q : ℝ} {n : ℕ} (hn : 0 < n) (h : OffGrid (disc / n) q) : OffGrid disc q := by
  have hn' : (n : ℝ) ≠ 0 := by exact_mod_cast hn.ne'
  rcases h with h | h
  · exact .inl h
  · refine .inr fun k hk => h (k * n) ?_
    have : ((k * n : ℤ) : ℝ) * (disc / n) = k * disc := by push_cast; field_simp
    rwa [this]

/-- **C83, Laplace.** With connect-the-dots the reported delta is the value of the polygon, over `e^eps`, through the exact privacy curves
at the multiples of the interval: the larger one of the two directions. -/
theorem C83_laplace_exact {fuel : ℕ} {b s disc q : ℝ} {p : Pld} (h : fromLaplace fuel b s true disc q true = some (.ok p)) (hd : 0 < disc)
    (hg : OffGrid disc q) {f g : ℝ → ℝ} (hf : HsCurve (upper (laplace 0 b) s q .remove) (lower (laplace 0 b) s q .remove) f)
    (hg' : HsCurve (upper (laplace 0 b) s q .add) (lower (laplace 0 b) s q .add) g) (ε : ℝ) :
    p.getDeltaForEpsilon ε = max (gridPolygon disc f ε) (gridPolygon disc g ε) := by
  have hv := (C32_laplace_partial h hd hg).1.valid
  obtain ⟨h1, h2⟩ := fromLaplace_polygon h hd hg.gridOk (h := fun | .remove => f | .add => g) fun adj => by cases adj <;> assumption
  rw [(C24_delta_max p hv).1, ← C11_delta_exact _ hv.wfRemove, ← C11_delta_exact _ hv.wfAdd, h1, h2]

/-- The exact curves exist. -/
lemma laplace_curves {b s q : ℝ} (hb : 0 < b) (hs : 0 < s) (q0 : 0 < q) (q1 : q ≤ 1) :
    ∃ h : Adj → ℝ → ℝ, ∀ adj, HsCurve (upper (laplace 0 b) s q adj) (lower (laplace 0 b) s q adj) (h adj) := by
  have key : ∀ adj, ∃ h, HsCurve (upper (laplace 0 b) s q adj) (lower (laplace 0 b) s q adj) h := by
    intro adj
    obtain ⟨m, hm⟩ := mkLaplace_ok (b := b) (s := s) (q := q) adj hb ⟨hs, q0, q1⟩
    obtain ⟨hf, e1, e2, e3, -, -⟩ := laplace_faithful hm
    have p1 := upper_prob hf
    have p2 := lower_prob hf
    rw [e1, e2, e3, ← laplace_law] at p1 p2
    exact exists_hsCurve _ _
  choose h hh using key
  exact ⟨h, hh⟩

/-- **C83, Laplace.** Dividing the interval by a whole number never raises a delta, in either direction. -/
theorem C83_laplace_refine {fuel fuel' : ℕ} {b s disc q : ℝ} {n : ℕ} (hn : 0 < n) {p p' : Pld}
    (h : fromLaplace fuel b s true disc q true = some (.ok p)) (h' : fromLaplace fuel' b s true (disc / n) q true = some (.ok p'))
    (hd : 0 < disc) (hg : OffGrid (disc / n) q) : PldLe p' p 0 := by
  have hn' : (0 : ℝ) < n := by exact_mod_cast hn
  obtain ⟨hb, hs, q0, q1⟩ := laplace_params h
  obtain ⟨f, hf⟩ := laplace_curves hb hs q0 q1
  obtain ⟨h1, h2⟩ := fromLaplace_polygon h hd (hg.coarse hn).gridOk hf
  obtain ⟨k1, k2⟩ := fromLaplace_polygon h' (div_pos hd hn') hg.gridOk hf
  intro e
  rw [h1, h2, k1, k2, add_zero, add_zero]
  have key : ∀ adj, gridPolygon (disc / n) (f adj) e ≤ gridPolygon disc (f adj) e := by
    intro adj
    exact gridPolygon_refine hd e (hf adj) hn
  exact ⟨key _, key _⟩

/-- **C83, Laplace.** The error: the reported delta lies between the exact delta at `eps` and the exact delta at `eps` minus the interval. -/
theorem C83_laplace_accuracy {fuel : ℕ} {b s disc q : ℝ} {p : Pld} (h : fromLaplace fuel b s true disc q true = some (.ok p)) (hd : 0 < disc)
    (hg : OffGrid disc q) {f g : ℝ → ℝ} (hf : HsCurve (upper (laplace 0 b) s q .remove) (lower (laplace 0 b) s q .remove) f)
    (hg' : HsCurve (upper (laplace 0 b) s q .add) (lower (laplace 0 b) s q .add) g) (ε : ℝ) :
    max (f ε) (g ε) ≤ p.getDeltaForEpsilon ε ∧ p.getDeltaForEpsilon ε ≤ max (f (ε - disc)) (g (ε - disc)) := by
  rw [C83_laplace_exact h hd hg hf hg']
  exact ⟨max_le_max (le_gridPolygon hd ε hf) (le_gridPolygon hd ε hg'), max_le_max (gridPolygon_le hd ε hf) (gridPolygon_le hd ε hg')⟩

/-- Scale 1, sensitivity 1, sampling with probability 1/2 and the default interval, and without sampling a tenth of it. -/
example : (∃ fuel p, fromLaplace fuel 1 1 true 1e-4 (1 / 2) true = some (.ok p)) ∧
    (∃ fuel p, fromLaplace fuel 1 1 true 1e-4 1 true = some (.ok p)) ∧ (∃ fuel p, fromLaplace fuel 1 1 true (1e-4 / (10 : ℕ)) 1 true = some (.ok p)) ∧
    ∃ h : Adj → ℝ → ℝ, ∀ adj, HsCurve (upper (laplace 0 1) 1 (1 / 2) adj) (lower (laplace 0 1) 1 (1 / 2) adj) (h adj) := by
  obtain ⟨N, hN⟩ := C32_laplace_accepts (b := 1) (s := 1) (disc := 1e-4) (q := 1 / 2) true true one_pos one_pos (by norm_num) (by norm_num) (by norm_num)
    offGrid_half
  obtain ⟨N1, hN1⟩ := C32_laplace_accepts (b := 1) (s := 1) (disc := 1e-4) (q := 1) true true one_pos one_pos one_pos le_rfl (by norm_num) (offGrid_one _)
  obtain ⟨N2, hN2⟩ := C32_laplace_accepts (b := 1) (s := 1) (disc := 1e-4 / (10 : ℕ)) (q := 1) true true one_pos one_pos one_pos le_rfl (by norm_num)
    (offGrid_one _)
  exact ⟨⟨N + 1, hN _ (by omega)⟩, ⟨N1 + 1, hN1 _ (by omega)⟩, ⟨N2 + 1, hN2 _ (by omega)⟩,
    laplace_curves one_pos one_pos (by norm_num) (by norm_num)⟩

/-! ### Gaussian noise -/

lemma gaussian_curves {σ s q : ℝ} (hσ : 0 < σ) (hs : 0 < s) (q0 : 0 < q) (q1 : q ≤ 1) :
    ∃ h : Adj → ℝ → ℝ, ∀ adj, HsCurve (upper (gaussianReal 0 (Real.toNNReal (σ ^ 2))) s q adj) (lower (gaussianReal 0 (Real.toNNReal (σ ^ 2))) s q adj)
      (h adj) := by
  have key : ∀ adj, ∃ h, HsCurve (upper (gaussianReal 0 (Real.toNNReal (σ ^ 2))) s q adj) (lower (gaussianReal 0 (Real.toNNReal (σ ^ 2))) s q adj) h := by
    intro adj
    obtain ⟨m, hm⟩ := mkGaussian_ok (σ := σ) (s := s) (lb := 0) (q := q) adj hσ le_rfl ⟨hs, q0, q1⟩
    obtain ⟨hf, e1, e2, e3, -, -⟩ := gaussian_faithful hm
    have p1 := upper_prob hf
    have p2 := lower_prob hf
    rw [e1, e2, e3, ← gaussian_law hσ] at p1 p2
    exact exists_hsCurve _ _
  choose h hh using key
  exact ⟨h, hh⟩

lemma gaussian_polygon {fuel : ℕ} {ppf : ℝ → ℝ → ℝ} (hppf : NormalQuantile ppf) {σ s disc lb q : ℝ} (hlb : lb < 0) {p : Pld}
    (h : fromGaussian fuel (ppf σ) σ s true disc lb q true = some (.ok p)) (hd : 0 < disc) (hg : OffGrid disc q) {f : Adj → ℝ → ℝ}
    (hf : ∀ adj, HsCurve (upper (gaussianReal 0 (Real.toNNReal (σ ^ 2))) s q adj) (lower (gaussianReal 0 (Real.toNNReal (σ ^ 2))) s q adj) (f adj)) :
    p.Valid ∧ (∀ ε : ℝ, gridPolygon disc (f .remove) ε ≤ p.remove.getDeltaForEpsilon ε ∧
      p.remove.getDeltaForEpsilon ε ≤ gridPolygon disc (f .remove) ε + 0.5 * Real.exp lb) ∧
    ∀ ε : ℝ, gridPolygon disc (f .add) ε ≤ p.add.getDeltaForEpsilon ε ∧ p.add.getDeltaForEpsilon ε ≤ gridPolygon disc (f .add) ε + 0.5 * Real.exp lb := by
  obtain ⟨hσ, hs, q0, q1⟩ := gaussian_params h
  have e1 := Real.exp_lt_one_iff.2 hlb
  have e0 := Real.exp_pos lb
  have e2 : 0.5 * Real.exp lb < 1 / 2 := by
    rw [show (0.5 : ℝ) = 1 / 2 by norm_num]; linarith
  have hx := quantile_nonpos hppf hσ (p := 0.5 * Real.exp lb) (by positivity) e2
  exact ⟨(C32_gaussian_partial h hx hd hg).1.valid,
    fromGaussian_polygon h hd hg.gridOk hx (hppf σ _ hσ (by positivity) (by linarith)) hf⟩

/-- **C83, Gaussian.** The error: at most the interval in epsilon and half of the mass that is truncated. -/
theorem C83_gaussian_accuracy {fuel : ℕ} {ppf : ℝ → ℝ → ℝ} (hppf : NormalQuantile ppf) {σ s disc lb q : ℝ} (hlb : lb < 0) {p : Pld}
    (h : fromGaussian fuel (ppf σ) σ s true disc lb q true = some (.ok p)) (hd : 0 < disc) (hg : OffGrid disc q) {f g : ℝ → ℝ}
    (hf : HsCurve (upper (gaussianReal 0 (Real.toNNReal (σ ^ 2))) s q .remove) (lower (gaussianReal 0 (Real.toNNReal (σ ^ 2))) s q .remove) f)
    (hg' : HsCurve (upper (gaussianReal 0 (Real.toNNReal (σ ^ 2))) s q .add) (lower (gaussianReal 0 (Real.toNNReal (σ ^ 2))) s q .add) g) (ε : ℝ) :
    max (f ε) (g ε) ≤ p.getDeltaForEpsilon ε ∧ p.getDeltaForEpsilon ε ≤ max (f (ε - disc)) (g (ε - disc)) + 0.5 * Real.exp lb := by
  obtain ⟨hv, h1, h2⟩ := gaussian_polygon hppf hlb h hd hg (f := fun | .remove => f | .add => g) fun adj => by cases adj <;> assumption
  rw [(C24_delta_max p hv).1, ← C11_delta_exact _ hv.wfRemove, ← C11_delta_exact _ hv.wfAdd]
  refine ⟨max_le_max ((le_gridPolygon hd ε hf).trans (h1 ε).1) ((le_gridPolygon hd ε hg').trans (h2 ε).1), max_le ?_ ?_⟩
  · exact (h1 ε).2.trans (add_le_add ((gridPolygon_le hd ε hf).trans (le_max_left _ _)) le_rfl)
  · exact (h2 ε).2.trans (add_le_add ((gridPolygon_le hd ε hg').trans (le_max_right _ _)) le_rfl)

/-- **C83, Gaussian.** Dividing the interval by a whole number raises no delta by more than half of the mass that is truncated. -/
theorem C83_gaussian_refine {fuel fuel' : ℕ} {ppf : ℝ → ℝ → ℝ} (hppf : NormalQuantile ppf) {σ s disc lb q : ℝ} (hlb : lb < 0) {n : ℕ} (hn : 0 < n)
    {p p' : Pld} (h : fromGaussian fuel (ppf σ) σ s true disc lb q true = some (.ok p))
    (h' : fromGaussian fuel' (ppf σ) σ s true (disc / n) lb q true = some (.ok p')) (hd : 0 < disc) (hg : OffGrid (disc / n) q) :
    PldLe p' p (0.5 * Real.exp lb) := by
  have hn' : (0 : ℝ) < n := by exact_mod_cast hn
  obtain ⟨hσ, hs, q0, q1⟩ := gaussian_params h
  obtain ⟨f, hf⟩ := gaussian_curves hσ hs q0 q1
  obtain ⟨-, h1, h2⟩ := gaussian_polygon hppf hlb h hd (hg.coarse hn) hf
  obtain ⟨-, k1, k2⟩ := gaussian_polygon hppf hlb h' (div_pos hd hn') hg hf
  intro e
  have key : ∀ adj, gridPolygon (disc / n) (f adj) e ≤ gridPolygon disc (f adj) e := fun adj => gridPolygon_refine hd e (hf adj) hn
  have a1 := key .remove
  have a2 := key .add
  exact ⟨by linarith [(h1 e).1, (k1 e).2], by linarith [(h2 e).1, (k2 e).2]⟩

/-- Noise 1, sensitivity 1, the default interval and truncation. -/
example : ∃ ppf fuel p, NormalQuantile ppf ∧ fromGaussian fuel (ppf 1) 1 1 true 1e-4 (-50) (1 / 2) true = some (.ok p) := by
  obtain ⟨ppf, hppf⟩ := exists_normalQuantile
  have e1 := Real.exp_lt_one_iff.2 (show (-50 : ℝ) < 0 by norm_num)
  have e2 : 0.5 * Real.exp (-50) < 1 / 2 := by
    rw [show (0.5 : ℝ) = 1 / 2 by norm_num]; linarith
  have hx := quantile_nonpos hppf one_pos (p := 0.5 * Real.exp (-50)) (by positivity) e2
  obtain ⟨N, hN⟩ := C32_gaussian_accepts (ppf := ppf 1) (σ := 1) (s := 1) (disc := 1e-4) (lb := -50) (q := 1 / 2) true true one_pos (by norm_num) one_pos
    (by norm_num) (by norm_num) hx (by norm_num) offGrid_half
  obtain ⟨p, hp⟩ := hN (N + 1) (by omega)
  exact ⟨ppf, _, p, hppf, hp⟩

/-! ### Noise on the integers -/

lemma discreteLaplace_curves {a disc q : ℝ} {s : ℤ} {p : Pld} (h : fromDiscreteLaplace a s true disc q true = some (.ok p)) :
    ∃ h : Adj → ℝ → ℝ, ∀ adj, HsCurve (upper (discreteLaplace a) s q adj) (lower (discreteLaplace a) s q adj) (h adj) := by
  obtain ⟨ha, q0, q1⟩ := discreteLaplace_params h
  have I := (discreteLaplace_logConcave ha).prob
  have key : ∀ adj, ∃ h, HsCurve (upper (discreteLaplace a) s q adj) (lower (discreteLaplace a) s q adj) h := by
    intro adj
    have I1 : IsProbabilityMeasure (discreteLaplace a) := I
    have p1 := mixShift_prob (discreteLaplace a) q q0.le q1 s
    have p2 := mixShift_prob (discreteLaplace a) q q0.le q1 (-s)
    cases adj
    · exact exists_hsCurve (discreteLaplace a) (mixShift (discreteLaplace a) q s)
    · exact exists_hsCurve (mixShift (discreteLaplace a) q (-s)) (discreteLaplace a)
  choose h hh using key
  exact ⟨h, hh⟩

/-- **C83, discrete Laplace.** With connect-the-dots the reported delta is the value of the polygon, over `e^eps`, through the exact privacy
curves at the multiples of the interval, although the accountant evaluates the curves only next to the losses that occur. -/
theorem C83_discrete_laplace_exact {a disc q : ℝ} {s : ℤ} {p : Pld} (h : fromDiscreteLaplace a s true disc q true = some (.ok p))
    (hd : 0 < disc) (hg : OffGrid disc q) {f g : ℝ → ℝ} (hf : HsCurve (upper (discreteLaplace a) s q .remove) (lower (discreteLaplace a) s q .remove) f)
    (hg' : HsCurve (upper (discreteLaplace a) s q .add) (lower (discreteLaplace a) s q .add) g) (ε : ℝ) :
    p.getDeltaForEpsilon ε = max (gridPolygon disc f ε) (gridPolygon disc g ε) := by
  have hv := (C32_discrete_laplace_partial h hd hg).1.valid
  obtain ⟨h1, h2⟩ := fromDiscreteLaplace_polygon h hd hg.gridOk (h := fun | .remove => f | .add => g) fun adj => by cases adj <;> assumption
  rw [(C24_delta_max p hv).1, ← C11_delta_exact _ hv.wfRemove, ← C11_delta_exact _ hv.wfAdd, h1, h2]

/-- **C83, discrete Laplace.** Dividing the interval by a whole number never raises a delta, in either direction. -/
theorem C83_discrete_laplace_refine {a disc q : ℝ} {s : ℤ} {n : ℕ} (hn : 0 < n) {p p' : Pld} (h : fromDiscreteLaplace a s true disc q true = some (.ok p))
    (h' : fromDiscreteLaplace a s true (disc / n) q true = some (.ok p')) (hd : 0 < disc) (hg : OffGrid (disc / n) q) : PldLe p' p 0 := by
  have hn' : (0 : ℝ) < n := by exact_mod_cast hn
  obtain ⟨f, hf⟩ := discreteLaplace_curves h
  obtain ⟨h1, h2⟩ := fromDiscreteLaplace_polygon h hd (hg.coarse hn).gridOk hf
  obtain ⟨k1, k2⟩ := fromDiscreteLaplace_polygon h' (div_pos hd hn') hg.gridOk hf
  intro e
  rw [h1, h2, k1, k2, add_zero, add_zero]
  exact ⟨gridPolygon_refine hd e (hf _) hn, gridPolygon_refine hd e (hf _) hn⟩

/-- **C83, discrete Laplace.** The error: the reported delta lies between the exact delta at `eps` and the exact delta at `eps` minus the interval. -/
theorem C83_discrete_laplace_accuracy {a disc q : ℝ} {s : ℤ} {p : Pld} (h : fromDiscreteLaplace a s true disc q true = some (.ok p))
    (hd : 0 < disc) (hg : OffGrid disc q) {f g : ℝ → ℝ} (hf : HsCurve (upper (discreteLaplace a) s q .remove) (lower (discreteLaplace a) s q .remove) f)
    (hg' : HsCurve (upper (discreteLaplace a) s q .add) (lower (discreteLaplace a) s q .add) g) (ε : ℝ) :
    max (f ε) (g ε) ≤ p.getDeltaForEpsilon ε ∧ p.getDeltaForEpsilon ε ≤ max (f (ε - disc)) (g (ε - disc)) := by
  rw [C83_discrete_laplace_exact h hd hg hf hg']
  exact ⟨max_le_max (le_gridPolygon hd ε hf) (le_gridPolygon hd ε hg'), max_le_max (gridPolygon_le hd ε hf) (gridPolygon_le hd ε hg')⟩

lemma discreteGaussian_curves {σ disc q : ℝ} {s : ℤ} {bound : Option ℤ} {p : Pld} (h : fromDiscreteGaussian σ s bound true disc q true = some (.ok p)) :
    ∃ h : Adj → ℝ → ℝ, ∀ adj, HsCurve (upper (discreteGaussian σ (dgBound σ bound)) s q adj) (lower (discreteGaussian σ (dgBound σ bound)) s q adj) (h adj) := by
  obtain ⟨hl, q0, q1⟩ := discreteGaussian_params h
  have I := hl.prob
  have key : ∀ adj, ∃ h, HsCurve (upper (discreteGaussian σ (dgBound σ bound)) s q adj) (lower (discreteGaussian σ (dgBound σ bound)) s q adj) h := by
    intro adj
    have I1 : IsProbabilityMeasure (discreteGaussian σ (dgBound σ bound)) := I
    have p1 := mixShift_prob (discreteGaussian σ (dgBound σ bound)) q q0.le q1 s
    have p2 := mixShift_prob (discreteGaussian σ (dgBound σ bound)) q q0.le q1 (-s)
    cases adj
    · exact exists_hsCurve (discreteGaussian σ (dgBound σ bound)) (mixShift (discreteGaussian σ (dgBound σ bound)) q s)
    · exact exists_hsCurve (mixShift (discreteGaussian σ (dgBound σ bound)) q (-s)) (discreteGaussian σ (dgBound σ bound))
  choose h hh using key
  exact ⟨h, hh⟩

/-- **C83, discrete Gaussian.** With connect-the-dots the reported delta is the value of the polygon, over `e^eps`, through the exact privacy
curves at the multiples of the interval, although the accountant evaluates the curves only next to the losses that occur. -/
theorem C83_discrete_gaussian_exact {σ disc q : ℝ} {s : ℤ} {bound : Option ℤ} {p : Pld} (h : fromDiscreteGaussian σ s bound true disc q true = some (.ok p))
    (hd : 0 < disc) (hg : OffGrid disc q) {f g : ℝ → ℝ} (hf : HsCurve (upper (discreteGaussian σ (dgBound σ bound)) s q .remove) (lower (discreteGaussian σ (dgBound σ bound)) s q .remove) f)
    (hg' : HsCurve (upper (discreteGaussian σ (dgBound σ bound)) s q .add) (lower (discreteGaussian σ (dgBound σ bound)) s q .add) g) (ε : ℝ) :
    p.getDeltaForEpsilon ε = max (gridPolygon disc f ε) (gridPolygon disc g ε) := by
  have hv := (C32_discrete_gaussian_partial h hd hg).1.valid
  obtain ⟨h1, h2⟩ := fromDiscreteGaussian_polygon h hd hg.gridOk (h := fun | .remove => f | .add => g) fun adj => by cases adj <;> assumption
  rw [(C24_delta_max p hv).1, ← C11_delta_exact _ hv.wfRemove, ← C11_delta_exact _ hv.wfAdd, h1, h2]

/-- **C83, discrete Gaussian.** Dividing the interval by a whole number never raises a delta, in either direction. -/
theorem C83_discrete_gaussian_refine {σ disc q : ℝ} {s : ℤ} {bound : Option ℤ} {n : ℕ} (hn : 0 < n) {p p' : Pld} (h : fromDiscreteGaussian σ s bound true disc q true = some (.ok p))
    (h' : fromDiscreteGaussian σ s bound true (disc / n) q true = some (.ok p')) (hd : 0 < disc) (hg : OffGrid (disc / n) q) : PldLe p' p 0 := by
  have hn' : (0 : ℝ) < n := by exact_mod_cast hn
  obtain ⟨f, hf⟩ := discreteGaussian_curves h
  obtain ⟨h1, h2⟩ := fromDiscreteGaussian_polygon h hd (hg.coarse hn).gridOk hf
  obtain ⟨k1, k2⟩ := fromDiscreteGaussian_polygon h' (div_pos hd hn') hg.gridOk hf
  intro e
  rw [h1, h2, k1, k2, add_zero, add_zero]
  exact ⟨gridPolygon_refine hd e (hf _) hn, gridPolygon_refine hd e (hf _) hn⟩

/-- **C83, discrete Gaussian.** The error: the reported delta lies between the exact delta at `eps` and the exact delta at `eps` minus the interval. -/
theorem C83_discrete_gaussian_accuracy {σ disc q : ℝ} {s : ℤ} {bound : Option ℤ} {p : Pld} (h : fromDiscreteGaussian σ s bound true disc q true = some (.ok p))
    (hd : 0 < disc) (hg : OffGrid disc q) {f g : ℝ → ℝ} (hf : HsCurve (upper (discreteGaussian σ (dgBound σ bound)) s q .remove) (lower (discreteGaussian σ (dgBound σ bound)) s q .remove) f)
    (hg' : HsCurve (upper (discreteGaussian σ (dgBound σ bound)) s q .add) (lower (discreteGaussian σ (dgBound σ bound)) s q .add) g) (ε : ℝ) :
    max (f ε) (g ε) ≤ p.getDeltaForEpsilon ε ∧ p.getDeltaForEpsilon ε ≤ max (f (ε - disc)) (g (ε - disc)) := by
  rw [C83_discrete_gaussian_exact h hd hg hf hg']
  exact ⟨max_le_max (le_gridPolygon hd ε hf) (le_gridPolygon hd ε hg'), max_le_max (gridPolygon_le hd ε hf) (gridPolygon_le hd ε hg')⟩

/-- Parameter 1 or standard deviation 2, sensitivity 3, sampling with probability 1/2 and the default interval; without sampling a tenth of it. -/
example : (∃ p, fromDiscreteLaplace 1 3 true 1e-4 (1 / 2) true = some (.ok p)) ∧ (∃ p, fromDiscreteLaplace 1 3 true 1e-4 1 true = some (.ok p)) ∧
    (∃ p, fromDiscreteLaplace 1 3 true (1e-4 / (10 : ℕ)) 1 true = some (.ok p)) ∧
    (∃ p, fromDiscreteGaussian 2 3 (some 20) true 1e-4 (1 / 2) true = some (.ok p)) ∧
    (∃ p, fromDiscreteGaussian 2 3 (some 20) true 1e-4 1 true = some (.ok p)) ∧
    ∃ p, fromDiscreteGaussian 2 3 (some 20) true (1e-4 / (10 : ℕ)) 1 true = some (.ok p) :=
  ⟨C32_discrete_laplace_accepts true true one_pos (by norm_num) (by norm_num) (by norm_num) (by norm_num) offGrid_half,
    C32_discrete_laplace_accepts true true one_pos (by norm_num) one_pos le_rfl (by norm_num) (offGrid_one _),
    C32_discrete_laplace_accepts true true one_pos (by norm_num) one_pos le_rfl (by norm_num) (offGrid_one _),
    C32_discrete_gaussian_accepts true true two_pos (by norm_num) (by simp [dgBound]) (by norm_num) (by norm_num) (by norm_num) offGrid_half,
    C32_discrete_gaussian_accepts true true two_pos (by norm_num) (by simp [dgBound]) one_pos le_rfl (by norm_num) (offGrid_one _),
    C32_discrete_gaussian_accepts true true two_pos (by norm_num) (by simp [dgBound]) one_pos le_rfl (by norm_num) (offGrid_one _)⟩

/-- **C83, discrete Laplace, privacy buckets.** Without connect-the-dots dividing the interval by a whole number never raises a pessimistic delta
and never lowers an optimistic one, also at intervals that meet the limit of the loss. -/
theorem C83_discrete_laplace_buckets {a disc q : ℝ} {s : ℤ} {n : ℕ} (hn : 0 < n) (hd : 0 < disc) {p p' : Pld} :
    (fromDiscreteLaplace a s true disc q false = some (.ok p) → fromDiscreteLaplace a s true (disc / n) q false = some (.ok p') → PldLe p' p 0) ∧
    ∀ useDots, fromDiscreteLaplace a s false disc q useDots = some (.ok p) → fromDiscreteLaplace a s false (disc / n) q useDots = some (.ok p') → PldLe p p' 0 := by
  have hn' : (0 : ℝ) < n := by exact_mod_cast hn
  refine ⟨fun h h' e => ?_, fun u h h' e => ?_⟩
  · obtain ⟨h1, h2⟩ := fromDiscreteLaplace_buckets (div_pos hd hn') hd (by simp) (by simp) h' h (roundLe_pess hd hn)
    rw [add_zero, add_zero]
    exact ⟨h1 e, h2 e⟩
  · obtain ⟨h1, h2⟩ := fromDiscreteLaplace_buckets hd (div_pos hd hn') (by simp) (by simp) h h' (roundLe_opt hd hn)
    rw [add_zero, add_zero]
    exact ⟨h1 e, h2 e⟩

/-- **C83, discrete Gaussian, privacy buckets.** Without connect-the-dots dividing the interval by a whole number never raises a pessimistic delta
and never lowers an optimistic one, also at intervals that meet the limit of the loss. -/
theorem C83_discrete_gaussian_buckets {σ disc q : ℝ} {s : ℤ} {bound : Option ℤ} {n : ℕ} (hn : 0 < n) (hd : 0 < disc) {p p' : Pld} :
    (fromDiscreteGaussian σ s bound true disc q false = some (.ok p) → fromDiscreteGaussian σ s bound true (disc / n) q false = some (.ok p') → PldLe p' p 0) ∧
    ∀ useDots, fromDiscreteGaussian σ s bound false disc q useDots = some (.ok p) → fromDiscreteGaussian σ s bound false (disc / n) q useDots = some (.ok p') → PldLe p p' 0 := by
  have hn' : (0 : ℝ) < n := by exact_mod_cast hn
  refine ⟨fun h h' e => ?_, fun u h h' e => ?_⟩
  · obtain ⟨h1, h2⟩ := fromDiscreteGaussian_buckets (div_pos hd hn') hd (by simp) (by simp) h' h (roundLe_pess hd hn)
    rw [add_zero, add_zero]
    exact ⟨h1 e, h2 e⟩
  · obtain ⟨h1, h2⟩ := fromDiscreteGaussian_buckets hd (div_pos hd hn') (by simp) (by simp) h h' (roundLe_opt hd hn)
    rw [add_zero, add_zero]
    exact ⟨h1 e, h2 e⟩

/-- The same mechanisms, with privacy buckets. -/
example (n : ℕ) (hn : 0 < n) (pess : Bool) : (∃ p, fromDiscreteLaplace 1 3 pess 1e-4 (1 / 2) false = some (.ok p)) ∧
    (∃ p, fromDiscreteLaplace 1 3 pess (1e-4 / n) 1 false = some (.ok p)) ∧
    (∃ p, fromDiscreteGaussian 2 3 (some 20) pess 1e-4 (1 / 2) false = some (.ok p)) ∧
    ∃ p, fromDiscreteGaussian 2 3 (some 20) pess (1e-4 / n) 1 false = some (.ok p) := by
  have hn' : (0 : ℝ) < n := by exact_mod_cast hn
  exact ⟨C32_discrete_laplace_accepts pess false one_pos (by norm_num) (by norm_num) (by norm_num) (by norm_num) offGrid_half,
    C32_discrete_laplace_accepts pess false one_pos (by norm_num) one_pos le_rfl (div_pos (by norm_num) hn') (offGrid_one _),
    C32_discrete_gaussian_accepts pess false two_pos (by norm_num) (by simp [dgBound]) (by norm_num) (by norm_num) (by norm_num) offGrid_half,
    C32_discrete_gaussian_accepts pess false two_pos (by norm_num) (by simp [dgBound]) one_pos le_rfl (div_pos (by norm_num) hn') (offGrid_one _)⟩

/-- **C83, Laplace, privacy buckets.** Dividing the interval by a whole number never raises a pessimistic delta and never lowers an
optimistic one. -/
theorem C83_laplace_buckets {fuel fuel' : ℕ} {b s disc q : ℝ} {n : ℕ} (hn : 0 < n) (hd : 0 < disc) (hg : OffGrid (disc / n) q) {p p' : Pld} :
    (fromLaplace fuel b s true disc q false = some (.ok p) → fromLaplace fuel' b s true (disc / n) q false = some (.ok p') → PldLe p' p 0) ∧
    ∀ useDots, fromLaplace fuel b s false disc q useDots = some (.ok p) → fromLaplace fuel' b s false (disc / n) q useDots = some (.ok p') → PldLe p p' 0 := by
  have hn' : (0 : ℝ) < n := by exact_mod_cast hn
  refine ⟨fun h h' e => ?_, fun u h h' e => ?_⟩
  · obtain ⟨h1, h2⟩ := fromLaplace_buckets (div_pos hd hn') hd hg.gridOk (hg.coarse hn).gridOk (by simp) (by simp) h' h (roundLe_pess hd hn)
      (fun _ _ => bucketVal_le_pess hd hn)
    rw [add_zero, add_zero]
    exact ⟨h1 e, h2 e⟩
  · obtain ⟨h1, h2⟩ := fromLaplace_buckets hd (div_pos hd hn') (hg.coarse hn).gridOk hg.gridOk (by simp) (by simp) h h' (roundLe_opt hd hn)
      (fun _ _ => bucketVal_le_opt hd hn)
    rw [add_zero, add_zero]
    exact ⟨h1 e, h2 e⟩

/-- **C83, Gaussian, privacy buckets.** Dividing the interval by a whole number never raises a pessimistic delta and never lowers an
optimistic one; with connect-the-dots this holds only up to the truncated mass (`C83_gaussian_refine`). -/
theorem C83_gaussian_buckets {fuel fuel' : ℕ} {ppf : ℝ → ℝ} {σ s disc lb q : ℝ} (hppf : ppf (0.5 * Real.exp lb) ≤ 0) {n : ℕ} (hn : 0 < n)
    (hd : 0 < disc) (hg : OffGrid (disc / n) q) {p p' : Pld} :
    (fromGaussian fuel ppf σ s true disc lb q false = some (.ok p) → fromGaussian fuel' ppf σ s true (disc / n) lb q false = some (.ok p') → PldLe p' p 0) ∧
    ∀ useDots, fromGaussian fuel ppf σ s false disc lb q useDots = some (.ok p) → fromGaussian fuel' ppf σ s false (disc / n) lb q useDots = some (.ok p') →
      PldLe p p' 0 := by
  have hn' : (0 : ℝ) < n := by exact_mod_cast hn
  refine ⟨fun h h' e => ?_, fun u h h' e => ?_⟩
  · obtain ⟨h1, h2⟩ := fromGaussian_buckets (div_pos hd hn') hd hg.gridOk (hg.coarse hn).gridOk hppf (by simp) (by simp) h' h (roundLe_pess hd hn)
      (fun _ _ => bucketVal_le_pess hd hn)
    rw [add_zero, add_zero]
    exact ⟨h1 e, h2 e⟩
  · obtain ⟨h1, h2⟩ := fromGaussian_buckets hd (div_pos hd hn') (hg.coarse hn).gridOk hg.gridOk hppf (by simp) (by simp) h h' (roundLe_opt hd hn)
      (fun _ _ => bucketVal_le_opt hd hn)
    rw [add_zero, add_zero]
    exact ⟨h1 e, h2 e⟩

/-- Noise 1, sensitivity 1, the default interval and any whole fraction of it. -/
example (n : ℕ) (hn : 0 < n) (pess : Bool) {ppf : ℝ → ℝ → ℝ} (hppf : NormalQuantile ppf) :
    (∃ fuel p, fromLaplace fuel 1 1 pess 1e-4 1 false = some (.ok p)) ∧ (∃ fuel p, fromLaplace fuel 1 1 pess (1e-4 / n) 1 false = some (.ok p)) ∧
    ppf 1 (0.5 * Real.exp (-50)) ≤ 0 ∧ (∃ fuel p, fromGaussian fuel (ppf 1) 1 1 pess 1e-4 (-50) 1 false = some (.ok p)) ∧
    ∃ fuel p, fromGaussian fuel (ppf 1) 1 1 pess (1e-4 / n) (-50) 1 false = some (.ok p) := by
  have hn' : (0 : ℝ) < n := by exact_mod_cast hn
  have e1 := Real.exp_lt_one_iff.2 (show (-50 : ℝ) < 0 by norm_num)
  have e2 : 0.5 * Real.exp (-50) < 1 / 2 := by
    rw [show (0.5 : ℝ) = 1 / 2 by norm_num]; linarith
  have hx := quantile_nonpos hppf one_pos (p := 0.5 * Real.exp (-50)) (by positivity) e2
  have h1 : ∀ disc : ℝ, 0 < disc → ∃ fuel p, fromLaplace fuel 1 1 pess disc 1 false = some (.ok p) := fun disc hd => by
    obtain ⟨N, hN⟩ := C32_laplace_accepts (b := 1) (s := 1) (disc := disc) (q := 1) pess false one_pos one_pos one_pos le_rfl hd (offGrid_one _)
    exact ⟨N + 1, hN _ (by omega)⟩
  have h2 : ∀ disc : ℝ, 0 < disc → ∃ fuel p, fromGaussian fuel (ppf 1) 1 1 pess disc (-50) 1 false = some (.ok p) := fun disc hd => by
    obtain ⟨N, hN⟩ := C32_gaussian_accepts (ppf := ppf 1) (σ := 1) (s := 1) (disc := disc) (lb := -50) (q := 1) pess false one_pos (by norm_num) one_pos
      one_pos le_rfl hx hd (offGrid_one _)
    exact ⟨N + 1, hN _ (by omega)⟩
  exact ⟨h1 _ (by norm_num), h1 _ (div_pos (by norm_num) hn'), hx, h2 _ (by norm_num), h2 _ (div_pos (by norm_num) hn')⟩

/-! ### More noise, less sampling -/

lemma gridPolygon_mono_grid {disc : ℝ} (hd : 0 < disc) {h h' : ℝ → ℝ} (hh : ∀ k : ℤ, h (k * disc) ≤ h' (k * disc)) (ε : ℝ) :
    gridPolygon disc h ε ≤ gridPolygon disc h' ε := by
  obtain ⟨t, t0, t1, -, -, he⟩ := cell_weight hd ε
  rw [he, he]
  have e : (⌊ε / disc⌋ : ℝ) * disc + disc = ((⌊ε / disc⌋ + 1 : ℤ) : ℝ) * disc := by push_cast; ring
  rw [e]
  have := mul_le_mul_of_nonneg_left (hh ⌊ε / disc⌋) (sub_nonneg.2 t1)
  have := mul_le_mul_of_nonneg_left (hh (⌊ε / disc⌋ + 1)) t0
  linarith

/-- At the points of the grid the exact curves are ordered if the reported deltas are. -/
lemma curves_le {X : Type} [AddCommGroup X] [MeasurableSpace X] [MeasurableAdd X] {ν : Measure X} [ν.IsAddRightInvariant] {m m' : AdditiveNoise X}
    {d d' : X → ℝ} (hf : Faithful m ν d) (hf' : Faithful m' ν d') {disc : ℝ} (hg : GridOk disc m.samplingProb m.adj)
    (hg' : GridOk disc m'.samplingProb m'.adj) (hle : ∀ ε : ℝ, ∃ x y, m.getDelta ε = .ok x ∧ m'.getDelta ε = .ok y ∧ x ≤ y) {h h' : ℝ → ℝ}
    (hh : HsCurve (upper (ν.withDensity fun x => ENNReal.ofReal (d x)) m.sensitivity m.samplingProb m.adj)
      (lower (ν.withDensity fun x => ENNReal.ofReal (d x)) m.sensitivity m.samplingProb m.adj) h)
    (hh' : HsCurve (upper (ν.withDensity fun x => ENNReal.ofReal (d' x)) m'.sensitivity m'.samplingProb m'.adj)
      (lower (ν.withDensity fun x => ENNReal.ofReal (d' x)) m'.sensitivity m'.samplingProb m'.adj) h') (k : ℤ) : h (k * disc) ≤ h' (k * disc) := by
  obtain ⟨x, y, hx, hy, hxy⟩ := hle (k * disc)
  obtain ⟨x', a1, a2⟩ := getDelta_isHs hf (k * disc) (by
    rw [edge_eq]
    rcases hg with hg | hg
    · exact .inl hg
    · exact .inr (hg k))
  obtain ⟨y', b1, b2⟩ := getDelta_isHs hf' (k * disc) (by
    rw [edge_eq]
    rcases hg' with hg | hg
    · exact .inl hg
    · exact .inr (hg k))
  rw [hx] at a1; cases a1
  rw [hy] at b1; cases b1
  rw [(hh _).unique a2, (hh' _).unique b2]
  exact hxy

/-- **C80, Laplace PLD.** More noise for the sensitivity and less sampling never raise a delta of the PLD, in either direction. -/
theorem C80_laplace_pld {fuel fuel' : ℕ} {b b' s s' disc q q' : ℝ} {p p' : Pld} (h : fromLaplace fuel b s true disc q true = some (.ok p))
    (h' : fromLaplace fuel' b' s' true disc q' true = some (.ok p')) (hd : 0 < disc) (hg : OffGrid disc q) (hg' : OffGrid disc q')
    (hb : b' / s' ≤ b / s) (hq : q ≤ q') : PldLe p p' 0 := by
  obtain ⟨b0, s0, q0, q1⟩ := laplace_params h
  obtain ⟨b0', s0', q0', q1'⟩ := laplace_params h'
  obtain ⟨f, hf⟩ := laplace_curves b0 s0 q0 q1
  obtain ⟨f', hf'⟩ := laplace_curves b0' s0' q0' q1'
  obtain ⟨h1, h2⟩ := fromLaplace_polygon h hd hg.gridOk hf
  obtain ⟨k1, k2⟩ := fromLaplace_polygon h' hd hg'.gridOk hf'
  have key : ∀ adj, ∀ k : ℤ, f adj (k * disc) ≤ f' adj (k * disc) := by
    intro adj
    obtain ⟨m, hm⟩ := mkLaplace_ok (b := b) (s := s) (q := q) adj b0 ⟨s0, q0, q1⟩
    obtain ⟨m', hm'⟩ := mkLaplace_ok (b := b') (s := s') (q := q') adj b0' ⟨s0', q0', q1'⟩
    have hle := C80_laplace hm hm' hb hq
    obtain ⟨ff, e1, e2, e3, -, -⟩ := laplace_faithful hm
    obtain ⟨ff', e1', e2', e3', -, -⟩ := laplace_faithful hm'
    refine curves_le ff ff' (by rw [e2, e3]; exact hg.gridOk adj) (by rw [e2', e3']; exact hg'.gridOk adj) hle ?_ ?_
    · rw [e1, e2, e3, ← laplace_law]; exact hf adj
    · rw [e1', e2', e3', ← laplace_law]; exact hf' adj
  intro e
  rw [h1, h2, k1, k2, add_zero, add_zero]
  exact ⟨gridPolygon_mono_grid hd (key .remove) e, gridPolygon_mono_grid hd (key .add) e⟩

/-- **C80, Gaussian PLD.** The same up to half of the truncated mass. -/
theorem C80_gaussian_pld {fuel fuel' : ℕ} {ppf : ℝ → ℝ → ℝ} (hppf : NormalQuantile ppf) {σ σ' s s' disc lb lb' q q' : ℝ} (hlb : lb < 0)
    (hlb' : lb' < 0) {p p' : Pld} (h : fromGaussian fuel (ppf σ) σ s true disc lb q true = some (.ok p))
    (h' : fromGaussian fuel' (ppf σ') σ' s' true disc lb' q' true = some (.ok p')) (hd : 0 < disc) (hg : OffGrid disc q) (hg' : OffGrid disc q')
    (hb : σ' / s' ≤ σ / s) (hq : q ≤ q') : PldLe p p' (0.5 * Real.exp lb) := by
  obtain ⟨b0, s0, q0, q1⟩ := gaussian_params h
  obtain ⟨b0', s0', q0', q1'⟩ := gaussian_params h'
  obtain ⟨f, hf⟩ := gaussian_curves b0 s0 q0 q1
  obtain ⟨f', hf'⟩ := gaussian_curves b0' s0' q0' q1'
  obtain ⟨-, h1, h2⟩ := gaussian_polygon hppf hlb h hd hg hf
  obtain ⟨-, k1, k2⟩ := gaussian_polygon hppf hlb' h' hd hg' hf'
  have key : ∀ adj, ∀ k : ℤ, f adj (k * disc) ≤ f' adj (k * disc) := by
    intro adj
    obtain ⟨m, hm⟩ := mkGaussian_ok (σ := σ) (s := s) (lb := 0) (q := q) adj b0 le_rfl ⟨s0, q0, q1⟩
    obtain ⟨m', hm'⟩ := mkGaussian_ok (σ := σ') (s := s') (lb := 0) (q := q') adj b0' le_rfl ⟨s0', q0', q1'⟩
    have hle := C80_gaussian hm hm' hb hq
    obtain ⟨ff, e1, e2, e3, -, -⟩ := gaussian_faithful hm
    obtain ⟨ff', e1', e2', e3', -, -⟩ := gaussian_faithful hm'
    refine curves_le ff ff' (by rw [e2, e3]; exact hg.gridOk adj) (by rw [e2', e3']; exact hg'.gridOk adj) hle ?_ ?_
    · rw [e1, e2, e3, ← gaussian_law b0]; exact hf adj
    · rw [e1', e2', e3', ← gaussian_law b0']; exact hf' adj
  intro e
  have a1 := gridPolygon_mono_grid hd (key .remove) e
  have a2 := gridPolygon_mono_grid hd (key .add) e
  exact ⟨by linarith [(h1 e).2, (k1 e).1], by linarith [(h2 e).2, (k2 e).1]⟩

lemma discreteLaplace_sens {a disc q : ℝ} {s : ℤ} {p : Pld} (h : fromDiscreteLaplace a s true disc q true = some (.ok p)) : 0 < s := by
  unfold fromDiscreteLaplace subsampledPld at h
  cases hm : mkDiscreteLaplace a s q .remove with
  | error e => simp only [hm] at h; cases h
  | ok m =>
    obtain ⟨-, -, -, -, hs, -⟩ := discreteLaplace_faithful hm
    exact hs

/-- **C80, discrete Laplace PLD.** More noise (a smaller parameter), a smaller sensitivity and less sampling never raise a delta. -/
theorem C80_discrete_laplace_pld {a a' disc q q' : ℝ} {s s' : ℤ} {p p' : Pld} (h : fromDiscreteLaplace a s true disc q true = some (.ok p))
    (h' : fromDiscreteLaplace a' s' true disc q' true = some (.ok p')) (hd : 0 < disc) (hg : OffGrid disc q) (hg' : OffGrid disc q')
    (ha : a ≤ a') (hs : s ≤ s') (hq : q ≤ q') : PldLe p p' 0 := by
  obtain ⟨f, hf⟩ := discreteLaplace_curves h
  obtain ⟨f', hf'⟩ := discreteLaplace_curves h'
  obtain ⟨h1, h2⟩ := fromDiscreteLaplace_polygon h hd hg.gridOk hf
  obtain ⟨k1, k2⟩ := fromDiscreteLaplace_polygon h' hd hg'.gridOk hf'
  have key : ∀ adj, ∀ k : ℤ, f adj (k * disc) ≤ f' adj (k * disc) := by
    intro adj
    obtain ⟨a0, q0, q1⟩ := discreteLaplace_params h
    obtain ⟨a0', q0', q1'⟩ := discreteLaplace_params h'
    obtain ⟨m, hm⟩ := mkDiscreteLaplace_ok (a := a) (s := s) (q := q) adj a0 ⟨by exact_mod_cast discreteLaplace_sens h, q0, q1⟩
    obtain ⟨m', hm'⟩ := mkDiscreteLaplace_ok (a := a') (s := s') (q := q') adj a0' ⟨by exact_mod_cast discreteLaplace_sens h', q0', q1'⟩
    have hle := C80_discrete_laplace hm hm' ha hs hq
    obtain ⟨ff, e1, e2, e3, -, -⟩ := discreteLaplace_faithful hm
    obtain ⟨ff', e1', e2', e3', -, -⟩ := discreteLaplace_faithful hm'
    refine curves_le ff ff' (by rw [e2, e3]; exact hg.gridOk adj) (by rw [e2', e3']; exact hg'.gridOk adj) hle ?_ ?_
    · rw [e1, e2, e3]; exact hf adj
    · rw [e1', e2', e3']; exact hf' adj
  intro e
  rw [h1, h2, k1, k2, add_zero, add_zero]
  exact ⟨gridPolygon_mono_grid hd (key .remove) e, gridPolygon_mono_grid hd (key .add) e⟩

lemma discreteGaussian_all {σ disc q : ℝ} {s : ℤ} {bound : Option ℤ} {p : Pld}
    (h : fromDiscreteGaussian σ s bound true disc q true = some (.ok p)) : 0 < s ∧ 0 < σ ∧ s ≤ 2 * dgBound σ bound ∧ 0 < q ∧ q ≤ 1 := by
  unfold fromDiscreteGaussian subsampledPld at h
  cases hm : mkDiscreteGaussian σ s bound q .remove with
  | error e => simp only [hm] at h; cases h
  | ok m =>
    obtain ⟨hf, -, rfl, -, hs, hσ, hT⟩ := discreteGaussian_faithful hm
    exact ⟨hs, hσ, hT, hf.q0, hf.q1⟩

/-- **C80, discrete Gaussian PLD.** With the same noise a smaller sensitivity and less sampling never raise a delta; more noise can
(`C80_discrete_gaussian_violated`). -/
theorem C80_discrete_gaussian_pld_partial {σ disc q q' : ℝ} {s s' : ℤ} {bound : Option ℤ} {p p' : Pld}
    (h : fromDiscreteGaussian σ s bound true disc q true = some (.ok p)) (h' : fromDiscreteGaussian σ s' bound true disc q' true = some (.ok p'))
    (hd : 0 < disc) (hg : OffGrid disc q) (hg' : OffGrid disc q') (hs : s ≤ s') (hq : q ≤ q') : PldLe p p' 0 := by
  obtain ⟨f, hf⟩ := discreteGaussian_curves h
  obtain ⟨f', hf'⟩ := discreteGaussian_curves h'
  obtain ⟨h1, h2⟩ := fromDiscreteGaussian_polygon h hd hg.gridOk hf
  obtain ⟨k1, k2⟩ := fromDiscreteGaussian_polygon h' hd hg'.gridOk hf'
  have key : ∀ adj, ∀ k : ℤ, f adj (k * disc) ≤ f' adj (k * disc) := by
    intro adj
    obtain ⟨s0, σ0, hT, q0, q1⟩ := discreteGaussian_all h
    obtain ⟨s0', -, hT', q0', q1'⟩ := discreteGaussian_all h'
    obtain ⟨m, hm⟩ := mkDiscreteGaussian_ok (σ := σ) (s := s) (bound := bound) (q := q) adj σ0 hT ⟨by exact_mod_cast s0, q0, q1⟩
    obtain ⟨m', hm'⟩ := mkDiscreteGaussian_ok (σ := σ) (s := s') (bound := bound) (q := q') adj σ0 hT' ⟨by exact_mod_cast s0', q0', q1'⟩
    have hle := C80_discrete_gaussian_partial hm hm' hs hq
    obtain ⟨ff, e1, e2, e3, -, -, -⟩ := discreteGaussian_faithful hm
    obtain ⟨ff', e1', e2', e3', -, -, -⟩ := discreteGaussian_faithful hm'
    refine curves_le ff ff' (by rw [e2, e3]; exact hg.gridOk adj) (by rw [e2', e3']; exact hg'.gridOk adj) hle ?_ ?_
    · rw [e1, e2, e3]; exact hf adj
    · rw [e1', e2', e3']; exact hf' adj
  intro e
  rw [h1, h2, k1, k2, add_zero, add_zero]
  exact ⟨gridPolygon_mono_grid hd (key .remove) e, gridPolygon_mono_grid hd (key .add) e⟩

/-- A smaller parameter, a smaller sensitivity and less sampling. -/
example : (∃ p p', fromDiscreteLaplace 1 3 true 1e-4 (1 / 2) true = some (.ok p) ∧ fromDiscreteLaplace 2 4 true 1e-4 1 true = some (.ok p')) ∧
    ∃ p p', fromDiscreteGaussian 2 3 (some 20) true 1e-4 (1 / 2) true = some (.ok p) ∧
      fromDiscreteGaussian 2 4 (some 20) true 1e-4 1 true = some (.ok p') := by
  obtain ⟨p1, h1⟩ := C32_discrete_laplace_accepts (a := 1) (s := 3) (disc := 1e-4) (q := 1 / 2) true true one_pos (by norm_num) (by norm_num) (by norm_num)
    (by norm_num) offGrid_half
  obtain ⟨p2, h2⟩ := C32_discrete_laplace_accepts (a := 2) (s := 4) (disc := 1e-4) (q := 1) true true two_pos (by norm_num) one_pos le_rfl
    (by norm_num) (offGrid_one _)
  obtain ⟨p3, h3⟩ := C32_discrete_gaussian_accepts (σ := 2) (s := 3) (bound := some 20) (disc := 1e-4) (q := 1 / 2) true true two_pos (by norm_num)
    (by simp [dgBound]) (by norm_num) (by norm_num) (by norm_num) offGrid_half
  obtain ⟨p4, h4⟩ := C32_discrete_gaussian_accepts (σ := 2) (s := 4) (bound := some 20) (disc := 1e-4) (q := 1) true true two_pos (by norm_num)
    (by simp [dgBound]) one_pos le_rfl (by norm_num) (offGrid_one _)
  exact ⟨⟨p1, p2, h1, h2⟩, p3, p4, h3, h4⟩

/-- More noise and less sampling. -/
example : ∃ fuel fuel' p p', fromLaplace fuel 2 1 true 1e-4 (1 / 2) true = some (.ok p) ∧ fromLaplace fuel' 1 1 true 1e-4 1 true = some (.ok p') := by
  obtain ⟨N, hN⟩ := C32_laplace_accepts (b := 2) (s := 1) (disc := 1e-4) (q := 1 / 2) true true two_pos one_pos (by norm_num) (by norm_num) (by norm_num)
    offGrid_half
  obtain ⟨N1, hN1⟩ := C32_laplace_accepts (b := 1) (s := 1) (disc := 1e-4) (q := 1) true true one_pos one_pos one_pos le_rfl (by norm_num) (offGrid_one _)
  obtain ⟨p, hp⟩ := hN _ (Nat.lt_succ_self N)
  obtain ⟨p', hp'⟩ := hN1 _ (Nat.lt_succ_self N1)
  exact ⟨_, _, p, p', hp, hp'⟩

/-! ### Composition keeps the order -/

/-- **C83, `compose`.** If the deltas of two PLDs are at most those of two others (which may be on another grid), up to `α` and `β`, then so are the
deltas of the compositions, up to `α + β` and the truncated mass. -/
theorem C83_compose {p q r p' q' r' : Pld} {t t' α β : ℝ} (h : p.compose q t = .ok r) (h' : p'.compose q' t' = .ok r') (ht : 0 ≤ t)
    (hα : 0 ≤ α) (hβ : 0 ≤ β) (hp : ProperPld p) (hq : ProperPld q) (hp' : ProperPld p') (hq' : ProperPld q') (h1 : PldLe p p' α) (h2 : PldLe q q' β) :
    PldLe r r' (α + β + t) := by
  obtain ⟨c1, c2⟩ := compose_both hp.valid hq.valid h
  obtain ⟨d1, d2⟩ := compose_both hp'.valid hq'.valid h'
  have v := (C24_compose_valid p q r hp.valid hq.valid t h).2.2.1
  have v' := (C24_compose_valid p' q' r' hp'.valid hq'.valid t' h').2.2.1
  have cv : ∀ {a b : Pld} {τ : ℝ}, ProperPld a → ProperPld b → PldLe a b τ → ∀ e : ℝ, a.remove.hs (e : EReal) ≤ b.remove.hs (e : EReal) + τ ∧
      a.add.hs (e : EReal) ≤ b.add.hs (e : EReal) + τ := by
    intro a b τ ha hb hle e
    have := hle e
    rwa [C11_delta_exact _ ha.valid.wfRemove, C11_delta_exact _ ha.valid.wfAdd, C11_delta_exact _ hb.valid.wfRemove,
      C11_delta_exact _ hb.valid.wfAdd] at this
  intro e
  rw [C11_delta_exact _ v.wfRemove, C11_delta_exact _ v.wfAdd, C11_delta_exact _ v'.wfRemove, C11_delta_exact _ v'.wfAdd]
  exact ⟨compose_order c1 d1 ht hp.valid.wfRemove hq.valid.wfRemove hp'.valid.wfRemove hq'.valid.wfRemove hp.nonneg hq.nonneg hp'.nonneg hq'.nonneg
      hp.pess hp'.pess hq.mass hp'.mass hq'.mass hα hβ (fun e => (cv hp hp' h1 e).1) (fun e => (cv hq hq' h2 e).1) e,
    compose_order c2 d2 ht hp.valid.wfAdd hq.valid.wfAdd hp'.valid.wfAdd hq'.valid.wfAdd hp.nonnegAdd hq.nonnegAdd hp'.nonnegAdd hq'.nonnegAdd
      (hp.valid.pess.trans hp.pess) (hp'.valid.pess.trans hp'.pess) hq.massAdd hp'.massAdd hq'.massAdd hα hβ (fun e => (cv hp hp' h1 e).2)
      (fun e => (cv hq hq' h2 e).2) e⟩

/-- **C83, `self_compose`.** The same for any number of repetitions. -/
theorem C83_self_compose {nfl : ℕ → ℕ} (hnfl : ∀ k, k ≤ nfl k) {p r p' r' : Pld} {n : ℤ} {t t' α : ℝ} (h : p.selfCompose nfl n t = .ok r)
    (h' : p'.selfCompose nfl n t' = .ok r') (ht : 0 ≤ t) (ht' : 0 ≤ t') (hα : 0 ≤ α) (hp : ProperPld p) (hp' : ProperPld p') (h1 : PldLe p p' α) :
    PldLe r r' (n.toNat * α + 2 * t) := by
  obtain ⟨c1, c2⟩ := selfCompose_both hp.valid h
  obtain ⟨d1, d2⟩ := selfCompose_both hp'.valid h'
  have inf : ∀ {m : Pmf}, m.NonNeg → totalMass m = 1 → m.infinityMass ≤ 1 := by
    intro m hn hm
    have := Verif.finiteMass_nonneg hn
    unfold totalMass at hm; linarith
  have cv : ∀ e : ℝ, p.remove.hs (e : EReal) ≤ p'.remove.hs (e : EReal) + α ∧ p.add.hs (e : EReal) ≤ p'.add.hs (e : EReal) + α := by
    intro e
    have := h1 e
    rwa [C11_delta_exact _ hp.valid.wfRemove, C11_delta_exact _ hp.valid.wfAdd, C11_delta_exact _ hp'.valid.wfRemove,
      C11_delta_exact _ hp'.valid.wfAdd] at this
  intro e
  have a1 := C17_self_compose_truncated nfl hnfl _ _ n t hp.valid.wfRemove hp.nonneg (inf hp.nonneg hp.mass) hp.pess ht c1 (e : EReal)
  have a2 := C17_self_compose_truncated nfl hnfl _ _ n t hp.valid.wfAdd hp.nonnegAdd (inf hp.nonnegAdd hp.massAdd) (hp.valid.pess.trans hp.pess) ht c2
    (e : EReal)
  have b1 := C17_self_compose_truncated nfl hnfl _ _ n t' hp'.valid.wfRemove hp'.nonneg (inf hp'.nonneg hp'.mass) hp'.pess ht' d1 (e : EReal)
  have b2 := C17_self_compose_truncated nfl hnfl _ _ n t' hp'.valid.wfAdd hp'.nonnegAdd (inf hp'.nonnegAdd hp'.massAdd) (hp'.valid.pess.trans hp'.pess) ht'
    d2 (e : EReal)
  have m1 := nfoldHs_mono hp.nonneg hp'.nonneg hp.mass hp'.mass hα (fun e => (cv e).1) n.toNat e
  have m2 := nfoldHs_mono hp.nonnegAdd hp'.nonnegAdd hp.massAdd hp'.massAdd hα (fun e => (cv e).2) n.toNat e
  exact ⟨by linarith, by linarith⟩

/-- Laplace noise on two grids: the finer one reports at most the deltas of the coarser one after any number of repetitions. -/
example {nfl : ℕ → ℕ} (hnfl : ∀ k, k ≤ nfl k) {fuel fuel' : ℕ} {b s : ℝ} {p p' r r' : Pld}
    (h : fromLaplace fuel b s true (1e-4 / (10 : ℕ)) 1 true = some (.ok p)) (h' : fromLaplace fuel' b s true 1e-4 1 true = some (.ok p'))
    (hr : p.selfCompose nfl 1000 0 = .ok r) (hr' : p'.selfCompose nfl 1000 0 = .ok r') : PldLe r r' 0 := by
  have := C83_self_compose hnfl hr hr' le_rfl le_rfl le_rfl (C32_laplace_partial h (by norm_num) (offGrid_one _)).1
    (C32_laplace_partial h' (by norm_num) (offGrid_one _)).1 (C83_laplace_refine (by norm_num) h' h (by norm_num) (offGrid_one _))
  rwa [mul_zero, mul_zero, add_zero] at this

end Verif.Props
