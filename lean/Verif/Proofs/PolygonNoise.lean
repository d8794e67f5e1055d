import Verif.Proofs.Polygon
import Verif.Proofs.NoiseSlack
import Verif.Proofs.LaplaceLaw

/-!
# Curves of PLDs built with connect-the-dots from noise with bounded loss
-/

namespace Verif.Spec
open MeasureTheory

/-- Every pair of finite measures has an exact curve. -/
lemma exists_hsCurve {Ω : Type*} [MeasurableSpace Ω] (P Q : Measure Ω) [IsFiniteMeasure P] [IsFiniteMeasure Q] : ∃ h, HsCurve P Q h := by
  have key : ∀ e : ℝ, ∃ d, IsHs P Q e d := by
    intro e
    have hb : BddAbove (Set.range fun S : {S : Set Ω // MeasurableSet S} => P.real S.1 - Real.exp e * Q.real S.1) := by
      refine ⟨P.real Set.univ, ?_⟩
      rintro _ ⟨S, rfl⟩
      have h1 : P.real S.1 ≤ P.real Set.univ := measureReal_mono (Set.subset_univ _)
      have h2 := mul_nonneg (Real.exp_pos e).le (measureReal_nonneg (μ := Q) (s := S.1))
      simp only []
      linarith
    have : Nonempty {S : Set Ω // MeasurableSet S} := ⟨⟨∅, MeasurableSet.empty⟩⟩
    refine ⟨⨆ S : {S : Set Ω // MeasurableSet S}, (P.real S.1 - Real.exp e * Q.real S.1), ?_, ?_⟩
    · intro S hS
      have := le_ciSup hb ⟨S, hS⟩
      simp only [] at this
      linarith
    · intro d hd
      refine ciSup_le fun S => ?_
      have := hd S.1 S.2
      linarith
  choose h hh using key
  exact ⟨h, hh⟩

end Verif.Spec

namespace Verif.Mech
open Verif.Spec Verif.Pld Verif.PldPmf MeasureTheory ProbabilityTheory

lemma indist_weaken {Ω : Type*} [MeasurableSpace Ω] {P Q : Measure Ω} {a b δ : ℝ} (h : Indist P Q a δ) (hab : a ≤ b) : Indist P Q b δ := by
  intro S hS
  have := h S hS
  have h2 := mul_le_mul_of_nonneg_right (Real.exp_le_exp.2 hab) (measureReal_nonneg (μ := Q) (s := S))
  linarith

/-- Connect-the-dots runs on exact deltas. -/
lemma dotsContinuous_exact {m : AdditiveNoise ℝ} {f : ℝ → ℝ} (hf : Faithful m volume f) {disc : ℝ} (hd : 0 < disc)
    (hg : GridOk disc m.samplingProb m.adj) {l u : ℝ} (hlu : l ≤ u) {pmf : Pmf}
    (hp : dotsContinuous m ((l : EReal), (u : EReal)) disc = .ok pmf) {P Q : Measure ℝ}
    (hP : P = upper (volume.withDensity fun x => ENNReal.ofReal (f x)) m.sensitivity m.samplingProb m.adj)
    (hQ : Q = lower (volume.withDensity fun x => ENNReal.ofReal (f x)) m.sensitivity m.samplingProb m.adj)
    {h : ℝ → ℝ} (hh : HsCurve P Q h) :
    ⌊l / disc⌋ ≤ ⌈u / disc⌉ ∧ connectDots disc (PldCommon.pyRange ⌊l / disc⌋ (⌈u / disc⌉ + 1))
      ((PldCommon.pyRange ⌊l / disc⌋ (⌈u / disc⌉ + 1)).map fun k : ℤ => h (k * disc)) = .ok pmf := by
  have p1 := upper_prob hf
  have p2 := lower_prob hf
  rw [← hP] at p1
  rw [← hQ] at p2
  have hle : ⌊l / disc⌋ ≤ ⌈u / disc⌉ := by
    have h1 := Int.floor_le (l / disc)
    have h2 := Int.le_ceil (u / disc)
    have h3 : l / disc ≤ u / disc := div_le_div_of_nonneg_right hlu hd.le
    exact_mod_cast h1.trans (h3.trans h2)
  unfold dotsContinuous at hp
  change (m.getDeltas ((PldCommon.pyRange ⌊l / disc⌋ (⌈u / disc⌉ + 1)).map fun k : ℤ => (k : ℝ) * disc) >>=
    fun deltas => connectDotsFixedGap disc ⌊l / disc⌋ ⌈u / disc⌉ deltas) = _ at hp
  rw [bind_ok] at hp
  obtain ⟨deltas, hdel, hp⟩ := hp
  rw [Props.C20_fixed_gap_agrees disc hd] at hp
  obtain ⟨hlen, hspec⟩ := getDeltas_spec hdel
  have hval : deltas = (PldCommon.pyRange ⌊l / disc⌋ (⌈u / disc⌉ + 1)).map fun k : ℤ => h (k * disc) := by
    refine List.ext_getElem (by simp [hlen]) ?_
    intro i h1 h2
    rw [List.getElem_map]
    have hi : i < (PldCommon.pyRange ⌊l / disc⌋ (⌈u / disc⌉ + 1)).length := by rw [hlen]; exact h1
    have hmem : ((PldCommon.pyRange ⌊l / disc⌋ (⌈u / disc⌉ + 1))[i], deltas[i]) ∈
        (PldCommon.pyRange ⌊l / disc⌋ (⌈u / disc⌉ + 1)).zip deltas := by
      rw [List.mem_iff_getElem]
      exact ⟨i, by simp [hi, h1], by simp⟩
    obtain ⟨d, g1, g2⟩ := getDelta_isHs hf ((PldCommon.pyRange ⌊l / disc⌋ (⌈u / disc⌉ + 1))[i] * disc) (by
      rw [Props.edge_eq]
      rcases hg with hg | hg
      · exact .inl hg
      · exact .inr (hg _))
    rw [hspec _ hmem, Except.ok.injEq] at g1
    rw [← hP, ← hQ] at g2
    simp only [] at g1
    rw [g1]
    exact g2.unique (hh _)
  rw [hval] at hp
  exact ⟨hle, hp⟩

/-- Connect-the-dots over a range that covers all losses gives the polygon through the exact curve. -/
lemma dotsContinuous_polygon {m : AdditiveNoise ℝ} {f : ℝ → ℝ} (hf : Faithful m volume f) {disc : ℝ} (hd : 0 < disc)
    (hg : GridOk disc m.samplingProb m.adj) {l u : ℝ} (hlu : l ≤ u) {pmf : Pmf}
    (hp : dotsContinuous m ((l : EReal), (u : EReal)) disc = .ok pmf) {P Q : Measure ℝ}
    (hP : P = upper (volume.withDensity fun x => ENNReal.ofReal (f x)) m.sensitivity m.samplingProb m.adj)
    (hQ : Q = lower (volume.withDensity fun x => ENNReal.ofReal (f x)) m.sensitivity m.samplingProb m.adj)
    (hl : Indist Q P (-l) 0) (hu : Indist P Q u 0) {h : ℝ → ℝ} (hh : HsCurve P Q h) (ε : ℝ) :
    pmf.getDeltaForEpsilon ε = gridPolygon disc h ε := by
  obtain ⟨hle, hc⟩ := dotsContinuous_exact hf hd hg hlu hp hP hQ hh
  have p1 := upper_prob hf
  have p2 := lower_prob hf
  rw [← hP] at p1
  rw [← hQ] at p2
  refine dots_polygon hh hd hle hc (indist_weaken hl ?_) (indist_weaken hu ?_) ε
  · have := Int.floor_le (l / disc)
    rw [le_div_iff₀ hd] at this
    linarith
  · have := Int.le_ceil (u / disc)
    rwa [div_le_iff₀ hd] at this

/-- Laplace distributions with centres at distance `d` are within `d / b`. -/
lemma laplace_indist {b : ℝ} (hb : 0 < b) (v w : ℝ) (S : Set ℝ) (hS : MeasurableSet S) [IsFiniteMeasure (laplace w b)] :
    (laplace v b).real S ≤ Real.exp (|v - w| / b) * (laplace w b).real S := by
  have key : laplace v b S ≤ ENNReal.ofReal (Real.exp (|v - w| / b)) * laplace w b S := by
    unfold laplace
    rw [withDensity_apply _ hS, withDensity_apply _ hS, ← lintegral_const_mul' _ _ ENNReal.ofReal_ne_top]
    refine lintegral_mono fun x => ?_
    rw [← ENNReal.ofReal_mul (Real.exp_pos _).le]
    refine ENNReal.ofReal_le_ofReal ?_
    have : Real.exp (-|x - v| / b) ≤ Real.exp (|v - w| / b) * Real.exp (-|x - w| / b) := by
      rw [← Real.exp_add, ← add_div]
      refine Real.exp_le_exp.2 (div_le_div_of_nonneg_right ?_ hb.le)
      have := abs_sub_le x v w
      linarith
    have h2 := mul_le_mul_of_nonneg_left this (show (0:ℝ) ≤ 0.5 / b by positivity)
    linarith
  have h2 := ENNReal.toReal_mono (ENNReal.mul_ne_top ENNReal.ofReal_ne_top (measure_ne_top _ _)) key
  rwa [ENNReal.toReal_mul, ENNReal.toReal_ofReal (Real.exp_pos _).le] at h2

/-- The loss of subsampled Laplace noise is bounded on both sides. -/
lemma laplace_mix {b q v : ℝ} (hb : 0 < b) (q0 : 0 < q) (q1 : q ≤ 1) :
    Indist (mixShift (laplace 0 b) q v) (laplace 0 b) (Real.log (1 - q + q * Real.exp (|v| / b))) 0 ∧
    Indist (laplace 0 b) (mixShift (laplace 0 b) q v) (-Real.log (1 - q + q * Real.exp (-(|v| / b)))) 0 := by
  have I : ∀ w, IsProbabilityMeasure (laplace w b) := fun w => laplace_prob w hb
  have hpos : ∀ e : ℝ, 0 < 1 - q + q * Real.exp e := fun e => by
    have := mul_pos q0 (Real.exp_pos e); linarith
  refine ⟨fun S hS => ?_, fun S hS => ?_⟩
  · rw [mixShift_real' _ q0.le q1, laplace_shift, Real.exp_log (hpos _)]
    have := laplace_indist hb v 0 S hS
    rw [sub_zero] at this
    have := mul_le_mul_of_nonneg_left this q0.le
    nlinarith
  · rw [mixShift_real' _ q0.le q1, laplace_shift, Real.exp_neg, Real.exp_log (hpos _), add_zero, inv_mul_eq_div, le_div_iff₀ (hpos _)]
    have := laplace_indist hb 0 v S hS
    rw [zero_sub, abs_neg] at this
    have h1 : Real.exp (-(|v| / b)) * (laplace 0 b).real S ≤ (laplace v b).real S := by
      rw [Real.exp_neg, inv_mul_eq_div, div_le_iff₀ (Real.exp_pos _)]
      linarith
    have := mul_le_mul_of_nonneg_left h1 q0.le
    nlinarith

lemma laplaceBounds_cover {b s q : ℝ} {adj : Adj} {m : AdditiveNoise ℝ} (hm : mkLaplace b s q adj = .ok m) :
    ∃ l u : ℝ, laplaceBounds b m = .ok ((l : EReal), (u : EReal)) ∧ l ≤ u ∧
      Indist (lower (laplace 0 b) s q adj) (upper (laplace 0 b) s q adj) (-l) 0 ∧
      Indist (upper (laplace 0 b) s q adj) (lower (laplace 0 b) s q adj) u 0 := by
  obtain ⟨l, u, h1, hlu⟩ := laplaceBounds_ok hm
  refine ⟨l, u, h1, hlu, ?_⟩
  obtain ⟨hf, e1, e2, e3, hs, hb⟩ := laplace_faithful hm
  have q0 := hf.q0
  have q1 := hf.q1
  rw [e2] at q0 q1
  unfold laplaceBounds at h1
  rw [e1, e2, e3] at h1
  simp only [] at h1
  by_cases hq : q = 1
  · rw [if_pos hq, Except.ok.injEq, Prod.mk.injEq, EReal.coe_eq_coe_iff, EReal.coe_eq_coe_iff] at h1
    obtain ⟨rfl, rfl⟩ := h1
    subst hq
    cases adj
    · obtain ⟨g1, g2⟩ := laplace_mix (v := s) hb q0 q1
      simp only [sub_self, zero_add, one_mul, Real.log_exp, abs_of_pos hs, neg_neg] at g1 g2
      simp only [neg_neg]
      exact ⟨g1, g2⟩
    · obtain ⟨g1, g2⟩ := laplace_mix (v := -s) hb q0 q1
      simp only [sub_self, zero_add, one_mul, Real.log_exp, abs_neg, abs_of_pos hs, neg_neg] at g1 g2
      simp only [neg_neg]
      exact ⟨g2, g1⟩
  · rw [if_neg hq] at h1
    cases adj
    · simp only [Except.ok.injEq, Prod.mk.injEq, EReal.coe_eq_coe_iff] at h1
      obtain ⟨rfl, rfl⟩ := h1
      obtain ⟨g1, g2⟩ := laplace_mix (v := s) hb q0 q1
      rw [abs_of_pos hs] at g1 g2
      rw [neg_neg]
      exact ⟨g1, g2⟩
    · simp only [Except.ok.injEq, Prod.mk.injEq, EReal.coe_eq_coe_iff] at h1
      obtain ⟨rfl, rfl⟩ := h1
      obtain ⟨g1, g2⟩ := laplace_mix (v := -s) hb q0 q1
      rw [abs_neg, abs_of_pos hs] at g1 g2
      exact ⟨g2, g1⟩

/-- Both PMFs of a PLD have a property that holds for the PMF of each direction. -/
lemma subsampled_both {single : Adj → Option (Except Err Pmf)} {q : ℝ} {p : Pld} {C : Adj → Pmf → Prop}
    (hp : subsampledPld single q = some (.ok p)) (hs : ∀ adj pmf, single adj = some (.ok pmf) → C adj pmf)
    (h1 : q = 1 → ∀ pmf, C .remove pmf → C .add pmf) : C .remove p.remove ∧ C .add p.add := by
  classical
  unfold subsampledPld at hp
  cases k1 : single .remove with
  | none => rw [k1] at hp; simp at hp
  | some r =>
    cases r with
    | error e => rw [k1] at hp; simp at hp
    | ok r =>
      rw [k1] at hp
      simp only [] at hp
      have g := hs _ _ k1
      by_cases hq : q = 1
      · rw [if_pos hq] at hp
        simp only [Option.some.injEq, Except.ok.injEq] at hp
        subst hp
        exact ⟨g, h1 hq _ g⟩
      · rw [if_neg hq] at hp
        cases h2 : single .add with
        | none => rw [h2] at hp; simp at hp
        | some a =>
          cases a with
          | error e => rw [h2] at hp; simp at hp
          | ok a =>
            rw [h2] at hp
            simp only [Option.some.injEq, Except.ok.injEq] at hp
            subst hp
            exact ⟨g, hs _ _ h2⟩

section
variable {X : Type} [AddCommGroup X] [MeasurableSpace X] [MeasurableAdd X]
/-- Without sampling the two directions have the same curve. -/
lemma curve_add_remove (μ : Measure X) (s : X) {h : ℝ → ℝ} (hh : HsCurve (upper μ s 1 .add) (lower μ s 1 .add) h) :
    HsCurve (upper μ s 1 .remove) (lower μ s 1 .remove) h := fun e =>
  ⟨remove_of_add μ s (hh e).1, fun _ hd => (hh e).2 (add_of_remove μ s hd)⟩
end

/-- The deltas of the PLD of subsampled Laplace noise, with connect-the-dots. -/
theorem fromLaplace_polygon {fuel : ℕ} {b s disc q : ℝ} {p : Pld} (hp : fromLaplace fuel b s true disc q true = some (.ok p))
    (hd : 0 < disc) (hg : ∀ adj, GridOk disc q adj) {h : Adj → ℝ → ℝ}
    (hh : ∀ adj, HsCurve (upper (laplace 0 b) s q adj) (lower (laplace 0 b) s q adj) (h adj)) :
    (∀ ε : ℝ, p.remove.getDeltaForEpsilon ε = gridPolygon disc (h .remove) ε) ∧ ∀ ε : ℝ, p.add.getDeltaForEpsilon ε = gridPolygon disc (h .add) ε := by
  refine subsampled_both (C := fun adj pmf => ∀ ε : ℝ, pmf.getDeltaForEpsilon ε = gridPolygon disc (h adj) ε) hp ?_ ?_
  · intro adj pmf k
    cases hm : mkLaplace b s q adj with
    | error e => rw [hm] at k; simp at k
    | ok m =>
      rw [hm] at k
      obtain ⟨l, u, h1, hlu, hl, hu⟩ := laplaceBounds_cover hm
      simp only [] at k
      unfold createContinuous at k
      rw [if_pos ⟨rfl, rfl⟩, Option.some.injEq, h1] at k
      obtain ⟨hf, e1, e2, e3, -, -⟩ := laplace_faithful hm
      refine dotsContinuous_polygon hf hd (by rw [e2, e3]; exact hg adj) hlu k ?_ ?_ hl hu (hh adj)
      · rw [e1, e2, e3, ← laplace_law]
      · rw [e1, e2, e3, ← laplace_law]
  · rintro rfl pmf k ε
    rw [k ε, (curve_add_remove _ _ (hh .add)).unique (hh .remove)]

end Verif.Mech
