import Verif.Proofs.PolygonNoise
import Verif.Spec.PldEvents

/-!
# Curves of PLDs built with connect-the-dots from Gaussian noise
-/

namespace Verif.Spec
open MeasureTheory Verif.PldPmf

section
variable {Ω : Type*} [MeasurableSpace Ω] {P Q : Measure Ω} [IsProbabilityMeasure P] [IsProbabilityMeasure Q] {h : ℝ → ℝ} {disc : ℝ}

omit [IsProbabilityMeasure Q] in
/-- The curve lies below the line through its value at `L` and the value `1` for no likelihood. -/
lemma HsCurve.le_line (hh : HsCurve P Q h) {a L : ℝ} (haL : a ≤ L) : h a ≤ 1 - Real.exp a / Real.exp L * (1 - h L) := by
  refine (hh a).2 fun S hS => ?_
  have h1 := (hh L).1 S hS
  have h2 : P.real S ≤ 1 := measureReal_le_one
  have hL := Real.exp_pos L
  obtain ⟨r, hr⟩ : ∃ r, r = Real.exp a / Real.exp L := ⟨_, rfl⟩
  have r0 : 0 ≤ r := by rw [hr]; positivity
  have r1 : r ≤ 1 := by rw [hr, div_le_one hL]; exact Real.exp_le_exp.2 haL
  have e : Real.exp a = r * Real.exp L := by rw [hr]; field_simp
  rw [← hr, e]
  nlinarith [mul_le_mul_of_nonneg_left h1 r0, mul_le_mul_of_nonneg_left h2 (sub_nonneg.2 r1)]

/-- A bound on the curve from a bound in the other direction. -/
lemma HsCurve.le_of_swap (hh : HsCurve P Q h) {L τ : ℝ} (hl : Indist Q P (-L) τ) : h L ≤ 1 - Real.exp L + Real.exp L * τ := by
  refine (hh L).2 fun S hS => ?_
  have h1 := hl Sᶜ hS.compl
  rw [probReal_compl_eq_one_sub hS, probReal_compl_eq_one_sub hS, Real.exp_neg] at h1
  have hL := Real.exp_pos L
  have := mul_le_mul_of_nonneg_left h1 hL.le
  rw [mul_add, ← mul_assoc, mul_inv_cancel₀ hL.ne', one_mul] at this
  linarith

/-- From exact dots over a range that misses little of the loss, the reported curve is close to the polygon. -/
theorem dots_near_polygon (hh : HsCurve P Q h) (hd : 0 < disc) {lo hi : ℤ} (hlu : lo ≤ hi) {m : Pmf}
    (hm : connectDots disc (PldCommon.pyRange lo (hi + 1)) ((PldCommon.pyRange lo (hi + 1)).map fun k : ℤ => h (k * disc)) = .ok m)
    {τ : ℝ} (h0 : (lo : ℝ) * disc ≤ 0) (hl : Indist Q P (-(lo * disc)) τ) (hu : Indist P Q (hi * disc) τ) (ε : ℝ) :
    gridPolygon disc h ε ≤ m.getDeltaForEpsilon ε ∧ m.getDeltaForEpsilon ε ≤ gridPolygon disc h ε + τ := by
  obtain ⟨h1, h2, h3⟩ := dots_curve hh hd hlu hm ε
  have hpoly := le_gridPolygon hd ε hh
  have hnn : 0 ≤ h ε := by simpa using (hh ε).1 ∅ MeasurableSet.empty
  have hτ : 0 ≤ τ := by simpa using hu ∅ MeasurableSet.empty
  obtain ⟨t, t0, t1, -, hx, he⟩ := cell_weight hd ε
  rcases lt_or_ge ε (lo * disc) with g | g
  · rw [h2 g.le]
    have hk : ⌊ε / disc⌋ + 1 ≤ lo := by
      have : ⌊ε / disc⌋ < lo := Int.floor_lt.2 (by rwa [div_lt_iff₀ hd])
      omega
    have hk' : (⌊ε / disc⌋ : ℝ) * disc + disc ≤ lo * disc := by
      have : (⌊ε / disc⌋ : ℝ) + 1 ≤ lo := by exact_mod_cast hk
      nlinarith
    have hL := Real.exp_pos (lo * disc)
    constructor
    · rw [he]
      have a1 := mul_le_mul_of_nonneg_left (hh.le_line (a := (⌊ε / disc⌋ : ℝ) * disc) (L := lo * disc) (by linarith)) (sub_nonneg.2 t1)
      have a2 := mul_le_mul_of_nonneg_left (hh.le_line hk') t0
      have : Real.exp ε / Real.exp (lo * disc) * (1 - h (lo * disc)) =
          (1 - t) * (Real.exp ((⌊ε / disc⌋ : ℝ) * disc) / Real.exp (lo * disc) * (1 - h (lo * disc))) +
          t * (Real.exp ((⌊ε / disc⌋ : ℝ) * disc + disc) / Real.exp (lo * disc) * (1 - h (lo * disc))) := by
        rw [hx]; field_simp
      linarith
    · have b1 := hh.le_of_swap hl
      have b2 := hh.one_sub_exp_le (e := ε)
      have b3 : Real.exp ε * (1 - τ) ≤ Real.exp ε / Real.exp (lo * disc) * (1 - h (lo * disc)) := by
        rw [div_mul_eq_mul_div, mul_div_assoc]
        refine mul_le_mul_of_nonneg_left ?_ (Real.exp_pos ε).le
        rw [le_div_iff₀ hL]
        linarith
      have b4 : Real.exp ε ≤ 1 := by
        rw [← Real.exp_zero]; exact Real.exp_le_exp.2 (by linarith)
      have b5 := mul_le_mul_of_nonneg_right b4 hτ
      linarith
  · rcases lt_or_ge ε (hi * disc) with g' | g'
    · rw [h1 g g']
      exact ⟨le_rfl, by linarith⟩
    · rw [h3 g']
      have hk : hi ≤ ⌊ε / disc⌋ := Int.le_floor.2 (by rwa [le_div_iff₀ hd])
      have hk' : (hi : ℝ) * disc ≤ (⌊ε / disc⌋ : ℝ) * disc := mul_le_mul_of_nonneg_right (by exact_mod_cast hk) hd.le
      constructor
      · rw [he]
        have a1 := mul_le_mul_of_nonneg_left (hh.anti hk') (sub_nonneg.2 t1)
        have a2 := mul_le_mul_of_nonneg_left (hh.anti (a := hi * disc) (b := (⌊ε / disc⌋ : ℝ) * disc + disc) (by linarith)) t0
        linarith
      · have := (hh (hi * disc)).2 hu
        linarith

end
end Verif.Spec

namespace Verif.Mech
open Verif.Spec Verif.Pld Verif.PldPmf MeasureTheory ProbabilityTheory

/-- The mass that the truncation of Gaussian noise leaves out. -/
lemma gauss_tail_sym (σ x : ℝ) : (gaussianReal 0 (Real.toNNReal (σ ^ 2))).real (Set.Ici (-x)) =
    (gaussianReal 0 (Real.toNNReal (σ ^ 2))).real (Set.Iic x) := by
  have h : (gaussianReal 0 (Real.toNNReal (σ ^ 2))).map (fun x => -x) = gaussianReal 0 (Real.toNNReal (σ ^ 2)) := by
    rw [gaussianReal_map_neg, neg_zero]
  conv_lhs => rw [← h]
  rw [measureReal_def, Measure.map_apply measurable_neg measurableSet_Ici, ← measureReal_def]
  congr 1
  ext y
  simp

lemma mixShift_le {μ : Measure ℝ} [IsProbabilityMeasure μ] {q d τ : ℝ} {S : Set ℝ} (hS : MeasurableSet S) (q0 : 0 ≤ q) (q1 : q ≤ 1)
    (h1 : μ.real S ≤ τ) (h2 : μ.real ((fun x => x + d) ⁻¹' S) ≤ τ) : (mixShift μ q d).real S ≤ τ := by
  rw [mixShift_real' _ q0 q1, measureReal_def (μ.map _), Measure.map_apply (measurable_add_const d) hS, ← measureReal_def]
  nlinarith

lemma gaussianBounds_near {σ s lb q : ℝ} {adj : Adj} {m : AdditiveNoise ℝ} (hm : mkGaussian σ s lb q adj = .ok m)
    {ppf : ℝ → ℝ} (hx0 : ppf (0.5 * Real.exp lb) ≤ 0) {τ : ℝ}
    (hτ : (gaussianReal 0 (Real.toNNReal (σ ^ 2))).real (Set.Iic (ppf (0.5 * Real.exp lb))) = τ) :
    ∃ l u : ℝ, gaussianBounds ppf lb true m = .ok ((l : EReal), (u : EReal)) ∧ l ≤ u ∧ l ≤ 0 ∧
      Indist (lower (gaussianReal 0 (Real.toNNReal (σ ^ 2))) s q adj) (upper (gaussianReal 0 (Real.toNNReal (σ ^ 2))) s q adj) (-l) τ ∧
      Indist (upper (gaussianReal 0 (Real.toNNReal (σ ^ 2))) s q adj) (lower (gaussianReal 0 (Real.toNNReal (σ ^ 2))) s q adj) u τ := by
  obtain ⟨hto, hloss⟩ := mkGaussian_eq hm
  obtain ⟨hf, e1, e2, e3, hs, hσ⟩ := gaussian_faithful hm
  have q0 := hf.q0
  have q1 := hf.q1
  rw [e2] at q0 q1
  have hp := hf.lossPair
  rw [← gaussian_law hσ, e1, e2, e3] at hp
  have pP := hp.probP
  have pQ := hp.probQ
  obtain ⟨x, hx⟩ : ∃ x, x = ppf (0.5 * Real.exp lb) := ⟨_, rfl⟩
  rw [← hx] at hx0 hτ
  obtain ⟨lo, hlo⟩ : ∃ lo : ℝ, lo = (match adj with | .add => x | .remove => x - s) := ⟨_, rfl⟩
  obtain ⟨up, hup⟩ : ∃ up : ℝ, up = (match adj with | .add => -x + s | .remove => -x) := ⟨_, rfl⟩
  have hlu : lo ≤ up := by rw [hlo, hup]; cases adj <;> simp only [] <;> linarith
  obtain ⟨u, hu, -⟩ := loss_real hf (hloss lo)
  obtain ⟨l, hl, k1, k2, k3⟩ := loss_real hf (hloss up)
  have hb : gaussianBounds ppf lb true m = .ok ((l : EReal), (u : EReal)) := by
    unfold gaussianBounds gaussianTail
    rw [e3, e1, ← hx]
    simp only [if_true]
    subst hlo hup
    cases adj <;> exact bind_ok.2 ⟨_, bind_ok.2 ⟨_, hl, rfl⟩, bind_ok.2 ⟨_, hu, bind_ok.2 ⟨_, hl, rfl⟩⟩⟩
  have hneg : gaussianLossNo σ s adj up ≤ 0 := by
    have hσ2 : 0 < σ ^ 2 := by positivity
    rw [hup]
    unfold gaussianLossNo
    cases adj
    · simp only []
      refine div_nonpos_of_nonpos_of_nonneg ?_ hσ2.le
      exact mul_nonpos_of_nonneg_of_nonpos hs.le (by linarith)
    · simp only []
      refine div_nonpos_of_nonpos_of_nonneg ?_ hσ2.le
      exact mul_nonpos_of_nonneg_of_nonpos hs.le (by linarith)
  have hl0 : l ≤ 0 := by
    rw [e2, e3] at *
    by_cases hq : q = 1
    · rw [k1 hq]; exact hneg
    · cases adj
      · rw [k2 hq rfl, neg_nonpos]
        refine Real.log_nonneg ?_
        have := Real.one_le_exp (neg_nonneg.2 hneg)
        nlinarith
      · rw [k3 hq rfl]
        have h1 := Real.exp_le_one_iff.2 hneg
        have h2 := mul_pos q0 (Real.exp_pos (gaussianLossNo σ s .remove up))
        exact Real.log_nonpos (by linarith) (by nlinarith)
  refine ⟨l, u, hb, EReal.coe_le_coe_iff.1 (hp.anti hu hl (by rw [hto]; exact hlu)), hl0, ?_, ?_⟩
  · -- outputs above `up` are rare on the second data set
    have htail : (lower (gaussianReal 0 (Real.toNNReal (σ ^ 2))) s q adj).real (Set.Ici up) ≤ τ := by
      rw [hup]
      cases adj
      · refine mixShift_le measurableSet_Ici q0.le q1 ?_ ?_
        · rw [← hτ, ← gauss_tail_sym]
          exact measureReal_mono (Set.Ici_subset_Ici.2 (by linarith))
        · rw [← hτ, ← gauss_tail_sym]
          refine measureReal_mono ?_
          intro y hy
          simp only [Set.mem_preimage, Set.mem_Ici] at hy ⊢
          linarith
      · rw [← hτ, ← gauss_tail_sym]
        exact le_rfl
    intro S hS
    have h1 := hp.lower (Set.Iio up) l (fun y hy L hL => hp.anti hL hl (by rw [hto]; exact le_of_lt hy)) (S ∩ Set.Iio up)
      (hS.inter measurableSet_Iio) Set.inter_subset_right
    have h2 : (lower (gaussianReal 0 (Real.toNNReal (σ ^ 2))) s q adj).real S ≤
        (lower (gaussianReal 0 (Real.toNNReal (σ ^ 2))) s q adj).real (S ∩ Set.Iio up) +
        (lower (gaussianReal 0 (Real.toNNReal (σ ^ 2))) s q adj).real (Set.Ici up) := by
      refine (measureReal_mono ?_).trans (measureReal_union_le _ _)
      intro y hy
      rcases lt_or_ge y up with g | g
      · exact .inl ⟨hy, g⟩
      · exact .inr g
    have h3 : (upper (gaussianReal 0 (Real.toNNReal (σ ^ 2))) s q adj).real (S ∩ Set.Iio up) ≤
        (upper (gaussianReal 0 (Real.toNNReal (σ ^ 2))) s q adj).real S := measureReal_mono Set.inter_subset_left
    rw [Real.exp_neg, inv_mul_eq_div]
    have h4 : (lower (gaussianReal 0 (Real.toNNReal (σ ^ 2))) s q adj).real (S ∩ Set.Iio up) ≤
        (upper (gaussianReal 0 (Real.toNNReal (σ ^ 2))) s q adj).real S / Real.exp l := by
      rw [le_div_iff₀ (Real.exp_pos l)]
      linarith
    linarith
  · have htail : (upper (gaussianReal 0 (Real.toNNReal (σ ^ 2))) s q adj).real (Set.Iic lo) ≤ τ := by
      rw [hlo]
      cases adj
      · exact hτ.le
      · refine mixShift_le measurableSet_Iic q0.le q1 ?_ ?_
        · rw [← hτ]
          exact measureReal_mono (Set.Iic_subset_Iic.2 (by linarith))
        · rw [← hτ]
          refine measureReal_mono ?_
          intro y hy
          simp only [Set.mem_preimage, Set.mem_Iic] at hy ⊢
          linarith
    intro S hS
    have h1 := hp.upper (Set.Ioi lo) u (fun y hy L hL => hp.anti hu hL (by rw [hto]; exact le_of_lt hy)) (S ∩ Set.Ioi lo)
      (hS.inter measurableSet_Ioi) Set.inter_subset_right
    have h2 : (upper (gaussianReal 0 (Real.toNNReal (σ ^ 2))) s q adj).real S ≤
        (upper (gaussianReal 0 (Real.toNNReal (σ ^ 2))) s q adj).real (S ∩ Set.Ioi lo) +
        (upper (gaussianReal 0 (Real.toNNReal (σ ^ 2))) s q adj).real (Set.Iic lo) := by
      refine (measureReal_mono ?_).trans (measureReal_union_le _ _)
      intro y hy
      rcases lt_or_ge lo y with g | g
      · exact .inl ⟨hy, g⟩
      · exact .inr g
    have h3 : (lower (gaussianReal 0 (Real.toNNReal (σ ^ 2))) s q adj).real (S ∩ Set.Ioi lo) ≤
        (lower (gaussianReal 0 (Real.toNNReal (σ ^ 2))) s q adj).real S := measureReal_mono Set.inter_subset_left
    have h4 := mul_le_mul_of_nonneg_left h3 (Real.exp_pos u).le
    linarith

/-- The deltas of the PLD of subsampled Gaussian noise, with connect-the-dots. -/
theorem fromGaussian_polygon {fuel : ℕ} {ppf : ℝ → ℝ} {σ s disc lb q : ℝ} {p : Pld}
    (hp : fromGaussian fuel ppf σ s true disc lb q true = some (.ok p)) (hd : 0 < disc) (hg : ∀ adj, GridOk disc q adj)
    (hx0 : ppf (0.5 * Real.exp lb) ≤ 0) {τ : ℝ}
    (hτ : (gaussianReal 0 (Real.toNNReal (σ ^ 2))).real (Set.Iic (ppf (0.5 * Real.exp lb))) = τ) {h : Adj → ℝ → ℝ}
    (hh : ∀ adj, HsCurve (upper (gaussianReal 0 (Real.toNNReal (σ ^ 2))) s q adj) (lower (gaussianReal 0 (Real.toNNReal (σ ^ 2))) s q adj) (h adj)) :
    (∀ ε : ℝ, gridPolygon disc (h .remove) ε ≤ p.remove.getDeltaForEpsilon ε ∧
      p.remove.getDeltaForEpsilon ε ≤ gridPolygon disc (h .remove) ε + τ) ∧
    ∀ ε : ℝ, gridPolygon disc (h .add) ε ≤ p.add.getDeltaForEpsilon ε ∧ p.add.getDeltaForEpsilon ε ≤ gridPolygon disc (h .add) ε + τ := by
  refine subsampled_both (C := fun adj pmf => ∀ ε : ℝ, gridPolygon disc (h adj) ε ≤ pmf.getDeltaForEpsilon ε ∧
    pmf.getDeltaForEpsilon ε ≤ gridPolygon disc (h adj) ε + τ) hp ?_ ?_
  · intro adj pmf k
    cases hm : mkGaussian σ s lb q adj with
    | error e => rw [hm] at k; simp at k
    | ok m =>
      rw [hm] at k
      obtain ⟨l, u, h1, hlu, hl0, hl, hu⟩ := gaussianBounds_near hm hx0 hτ
      simp only [] at k
      unfold createContinuous at k
      rw [if_pos ⟨rfl, rfl⟩, Option.some.injEq, h1] at k
      obtain ⟨hf, e1, e2, e3, -, hσ⟩ := gaussian_faithful hm
      obtain ⟨hle, hc⟩ := dotsContinuous_exact hf hd (by rw [e2, e3]; exact hg adj) hlu k (by rw [e1, e2, e3, ← gaussian_law hσ])
        (by rw [e1, e2, e3, ← gaussian_law hσ]) (hh adj)
      have pP := upper_prob hf
      have pQ := lower_prob hf
      rw [e1, e2, e3, ← gaussian_law hσ] at pP pQ
      have a1 := Int.floor_le (l / disc)
      rw [le_div_iff₀ hd] at a1
      have a2 := Int.le_ceil (u / disc)
      rw [div_le_iff₀ hd] at a2
      exact dots_near_polygon (hh adj) hd hle hc (by linarith) (indist_weaken hl (by linarith)) (indist_weaken hu a2)
  · rintro rfl pmf k ε
    have := k ε
    rwa [← (curve_add_remove _ _ (hh .add)).unique (hh .remove)] at this

end Verif.Mech
