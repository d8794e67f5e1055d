import Verif.Spec.Polygon
import Verif.Props.ConnectDots

/-!
# Exact curves on a grid
-/

namespace Verif.Spec
open MeasureTheory Verif.PldPmf

section curve
variable {Ω : Type*} [MeasurableSpace Ω] {P Q : Measure Ω} {h : ℝ → ℝ}

lemma HsCurve.unique {h' : ℝ → ℝ} (hh : HsCurve P Q h) (hh' : HsCurve P Q h') : h = h' := by
  funext e
  exact (hh e).unique (hh' e)

/-- The curve falls. -/
lemma HsCurve.anti (hh : HsCurve P Q h) {a b : ℝ} (hab : a ≤ b) : h b ≤ h a := by
  refine (hh b).2 fun S hS => ((hh a).1 S hS).trans ?_
  have := mul_le_mul_of_nonneg_right (Real.exp_le_exp.2 hab) (measureReal_nonneg (μ := Q) (s := S))
  linarith

/-- The curve is convex in `e^eps`. -/
lemma HsCurve.convex (hh : HsCurve P Q h) {a b x t : ℝ} (t0 : 0 ≤ t) (t1 : t ≤ 1)
    (hx : Real.exp x = (1 - t) * Real.exp a + t * Real.exp b) : h x ≤ (1 - t) * h a + t * h b := by
  refine (hh x).2 fun S hS => ?_
  have h1 := mul_le_mul_of_nonneg_left ((hh a).1 S hS) (sub_nonneg.2 t1)
  have h2 := mul_le_mul_of_nonneg_left ((hh b).1 S hS) t0
  rw [hx]
  nlinarith

lemma HsCurve.one_sub_exp_le [IsProbabilityMeasure P] [IsProbabilityMeasure Q] (hh : HsCurve P Q h) (e : ℝ) : 1 - Real.exp e ≤ h e := by
  have := (hh e).1 Set.univ MeasurableSet.univ
  simp at this
  linarith

/-- Below every loss the curve is `1 - e^eps`. -/
lemma HsCurve.eq_left [IsProbabilityMeasure P] [IsProbabilityMeasure Q] (hh : HsCurve P Q h) {e l : ℝ} (hl : Indist Q P (-l) 0) (he : e ≤ l) :
    h e = 1 - Real.exp e := by
  refine le_antisymm ((hh e).2 fun S hS => ?_) (hh.one_sub_exp_le e)
  have h1 := hl Sᶜ hS.compl
  rw [probReal_compl_eq_one_sub hS, probReal_compl_eq_one_sub hS] at h1
  have h2 : Real.exp e * (1 - Q.real S) ≤ Real.exp l * (1 - Q.real S) :=
    mul_le_mul_of_nonneg_right (Real.exp_le_exp.2 he) (by have := measureReal_le_one (μ := Q) (s := S); linarith)
  have h3 := mul_le_mul_of_nonneg_left h1 (Real.exp_pos l).le
  have h4 : Real.exp l * Real.exp (-l) = 1 := by rw [← Real.exp_add]; simp
  have h5 : Real.exp l * (Real.exp (-l) * (1 - P.real S) + 0) = 1 - P.real S := by rw [add_zero, ← mul_assoc, h4, one_mul]
  rw [h5] at h3
  linarith

/-- Above every loss the curve is zero. -/
lemma HsCurve.eq_right (hh : HsCurve P Q h) {e u : ℝ} (hu : Indist P Q u 0) (he : u ≤ e) : h e = 0 := by
  refine le_antisymm ((hh e).2 fun S hS => (hu S hS).trans ?_) ?_
  · have := mul_le_mul_of_nonneg_right (Real.exp_le_exp.2 he) (measureReal_nonneg (μ := Q) (s := S))
    linarith
  · have := (hh e).1 ∅ MeasurableSet.empty
    simpa using this

end curve

section cell
variable {disc : ℝ} (hd : 0 < disc) (ε : ℝ)
include hd

lemma cell_le : (⌊ε / disc⌋ : ℝ) * disc ≤ ε := by
  have := Int.floor_le (ε / disc)
  rwa [le_div_iff₀ hd] at this

lemma lt_cell : ε < (⌊ε / disc⌋ : ℝ) * disc + disc := by
  have := Int.lt_floor_add_one (ε / disc)
  rw [div_lt_iff₀ hd] at this
  linarith

/-- The weight of the right end of the cell. -/
lemma cell_weight : ∃ t : ℝ, 0 ≤ t ∧ t ≤ 1 ∧
    t = (Real.exp ε - Real.exp ((⌊ε / disc⌋ : ℝ) * disc)) / (Real.exp ((⌊ε / disc⌋ : ℝ) * disc + disc) - Real.exp ((⌊ε / disc⌋ : ℝ) * disc)) ∧
    Real.exp ε = (1 - t) * Real.exp ((⌊ε / disc⌋ : ℝ) * disc) + t * Real.exp ((⌊ε / disc⌋ : ℝ) * disc + disc) ∧
    ∀ h, gridPolygon disc h ε = (1 - t) * h ((⌊ε / disc⌋ : ℝ) * disc) + t * h ((⌊ε / disc⌋ : ℝ) * disc + disc) := by
  have h1 := Real.exp_le_exp.2 (cell_le hd ε)
  have h2 := Real.exp_lt_exp.2 (lt_cell hd ε)
  have h3 : 0 < Real.exp ((⌊ε / disc⌋ : ℝ) * disc + disc) - Real.exp ((⌊ε / disc⌋ : ℝ) * disc) := by linarith
  refine ⟨_, div_nonneg (by linarith) h3.le, ?_, rfl, ?_, ?_⟩
  · rw [div_le_one h3]; linarith
  · generalize Real.exp ((⌊ε / disc⌋ : ℝ) * disc) = x at *
    generalize Real.exp ((⌊ε / disc⌋ : ℝ) * disc + disc) = y at *
    have := h3.ne'
    field_simp
    ring
  · intro h
    unfold gridPolygon
    ring

lemma gridPolygon_mono {h h' : ℝ → ℝ} (hh : ∀ e, h e ≤ h' e) : gridPolygon disc h ε ≤ gridPolygon disc h' ε := by
  obtain ⟨t, t0, t1, -, -, he⟩ := cell_weight hd ε
  rw [he, he]
  have := mul_le_mul_of_nonneg_left (hh ((⌊ε / disc⌋ : ℝ) * disc)) (sub_nonneg.2 t1)
  have := mul_le_mul_of_nonneg_left (hh ((⌊ε / disc⌋ : ℝ) * disc + disc)) t0
  linarith

lemma le_gridPolygon {Ω : Type*} [MeasurableSpace Ω] {P Q : Measure Ω} {h : ℝ → ℝ} (hh : HsCurve P Q h) : h ε ≤ gridPolygon disc h ε := by
  obtain ⟨t, t0, t1, -, hx, he⟩ := cell_weight hd ε
  rw [he]
  exact hh.convex t0 t1 hx

lemma gridPolygon_le {Ω : Type*} [MeasurableSpace Ω] {P Q : Measure Ω} {h : ℝ → ℝ} (hh : HsCurve P Q h) :
    gridPolygon disc h ε ≤ h (ε - disc) := by
  obtain ⟨t, t0, t1, -, -, he⟩ := cell_weight hd ε
  rw [he]
  have h1 := hh.anti (a := ε - disc) (b := (⌊ε / disc⌋ : ℝ) * disc) (by have := lt_cell hd ε; linarith)
  have h2 := hh.anti (a := (⌊ε / disc⌋ : ℝ) * disc) (b := (⌊ε / disc⌋ : ℝ) * disc + disc) (by linarith)
  nlinarith

/-- A finer grid gives a lower polygon. -/
lemma gridPolygon_refine {Ω : Type*} [MeasurableSpace Ω] {P Q : Measure Ω} {h : ℝ → ℝ} (hh : HsCurve P Q h) {n : ℕ} (hn : 0 < n) :
    gridPolygon (disc / n) h ε ≤ gridPolygon disc h ε := by
  have hn' : (0 : ℝ) < n := by exact_mod_cast hn
  have hd' : 0 < disc / n := div_pos hd hn'
  have hA := cell_le hd ε
  have hB := lt_cell hd ε
  have hdiv : ε / (disc / n) = n * (ε / disc) := by field_simp
  have ha : (⌊ε / disc⌋ : ℝ) * disc ≤ (⌊ε / (disc / n)⌋ : ℝ) * (disc / n) := by
    have h1 : (n : ℤ) * ⌊ε / disc⌋ ≤ ⌊ε / (disc / n)⌋ := by
      rw [Int.le_floor, hdiv]
      push_cast
      exact mul_le_mul_of_nonneg_left (Int.floor_le _) hn'.le
    have h2 : (n : ℝ) * ⌊ε / disc⌋ ≤ ⌊ε / (disc / n)⌋ := by exact_mod_cast h1
    have h3 := mul_le_mul_of_nonneg_right h2 hd'.le
    have h4 : (n : ℝ) * ⌊ε / disc⌋ * (disc / n) = ⌊ε / disc⌋ * disc := by field_simp
    linarith
  have hb : (⌊ε / (disc / n)⌋ : ℝ) * (disc / n) + disc / n ≤ (⌊ε / disc⌋ : ℝ) * disc + disc := by
    have h1 : ⌊ε / (disc / n)⌋ < (n : ℤ) * (⌊ε / disc⌋ + 1) := by
      rw [Int.floor_lt, hdiv]
      push_cast
      exact mul_lt_mul_of_pos_left (Int.lt_floor_add_one _) hn'
    have h2 : (⌊ε / (disc / n)⌋ : ℝ) + 1 ≤ n * (⌊ε / disc⌋ + 1) := by exact_mod_cast h1
    have h3 := mul_le_mul_of_nonneg_right h2 hd'.le
    have h4 : (n : ℝ) * (⌊ε / disc⌋ + 1) * (disc / n) = (⌊ε / disc⌋ + 1) * disc := by field_simp
    nlinarith
  obtain ⟨t, t0, t1, -, hx, he⟩ := cell_weight hd' ε
  rw [he]
  generalize (⌊ε / (disc / n)⌋ : ℝ) * (disc / n) = a at *
  unfold gridPolygon
  generalize (⌊ε / disc⌋ : ℝ) * disc = A at *
  have hAB : Real.exp A < Real.exp (A + disc) := Real.exp_lt_exp.2 (by linarith)
  have key : ∀ y, A ≤ y → y ≤ A + disc → h y ≤ h A + (Real.exp y - Real.exp A) / (Real.exp (A + disc) - Real.exp A) * (h (A + disc) - h A) := by
    intro y h1 h2
    have h3 := Real.exp_le_exp.2 h1
    have h4 := Real.exp_le_exp.2 h2
    have h5 : 0 < Real.exp (A + disc) - Real.exp A := by linarith
    have := hh.convex (a := A) (b := A + disc) (x := y) (t := (Real.exp y - Real.exp A) / (Real.exp (A + disc) - Real.exp A))
      (div_nonneg (by linarith) h5.le) (by rw [div_le_one h5]; linarith) (by
        have := h5.ne'
        field_simp
        ring)
    linarith
  have k1 := mul_le_mul_of_nonneg_left (key a ha (by linarith)) (sub_nonneg.2 t1)
  have k2 := mul_le_mul_of_nonneg_left (key (a + disc / n) (by linarith) hb) t0
  refine (add_le_add k1 k2).trans (le_of_eq ?_)
  rw [hx]
  ring

end cell

/-! ### Connect-the-dots on all multiples -/

section dots
variable {Ω : Type*} [MeasurableSpace Ω] {P Q : Measure Ω} [IsProbabilityMeasure P] [IsProbabilityMeasure Q] {h : ℝ → ℝ} {disc : ℝ}

lemma pyRange_split {lo k hi : ℤ} (h1 : lo ≤ k) (h2 : k ≤ hi) :
    PldCommon.pyRange lo hi = PldCommon.pyRange lo k ++ PldCommon.pyRange k hi := by
  unfold PldCommon.pyRange
  have : (hi - lo).toNat = (k - lo).toNat + (hi - k).toNat := by omega
  rw [this, List.range_add, List.map_append, List.map_map]
  congr 1
  refine List.map_congr_left fun i _ => ?_
  simp only [Function.comp]
  push_cast
  omega

lemma pyRange_cons {k hi : ℤ} (h2 : k < hi) : PldCommon.pyRange k hi = k :: PldCommon.pyRange (k + 1) hi := by
  rw [pyRange_split (k := k + 1) (by omega) (by omega)]
  congr 1
  unfold PldCommon.pyRange
  rw [show (k + 1 - k).toNat = 1 by omega]
  simp

lemma zip_map_self (l : List ℤ) (g : ℤ → ℝ) : l.zip (l.map g) = l.map fun k => (k, g k) := by
  induction l with
  | nil => rfl
  | cons a l ih => simp [ih]

/-- The reported curve, from exact deltas at all multiples from `lo` to `hi`. -/
theorem dots_curve (hh : HsCurve P Q h) (hd : 0 < disc) {lo hi : ℤ} (hlu : lo ≤ hi) {m : Pmf}
    (hm : connectDots disc (PldCommon.pyRange lo (hi + 1)) ((PldCommon.pyRange lo (hi + 1)).map fun k : ℤ => h (k * disc)) = .ok m) (ε : ℝ) :
    ((lo : ℝ) * disc ≤ ε → ε < hi * disc → m.getDeltaForEpsilon ε = gridPolygon disc h ε) ∧
    (ε ≤ lo * disc → m.getDeltaForEpsilon ε = 1 - Real.exp ε / Real.exp (lo * disc) * (1 - h (lo * disc))) ∧
    ((hi : ℝ) * disc ≤ ε → m.getDeltaForEpsilon ε = h (hi * disc)) := by
  obtain ⟨h1, h2, h3⟩ := Props.C20_interpolates disc hd _ _ m hm P Q (by
    intro x hx
    rw [zip_map_self, List.mem_map] at hx
    obtain ⟨k, -, rfl⟩ := hx
    exact hh _) ε
  rw [zip_map_self] at h1 h2 h3
  refine ⟨?_, ?_, ?_⟩
  · intro g1 g2
    have k1 : lo ≤ ⌊ε / disc⌋ := by rw [Int.le_floor, le_div_iff₀ hd]; exact g1
    have k2 : ⌊ε / disc⌋ < hi := by rw [Int.floor_lt, div_lt_iff₀ hd]; exact g2
    obtain ⟨t, t0, t1, -, hx, he⟩ := cell_weight hd ε
    rw [he]
    have := h1 ((PldCommon.pyRange lo ⌊ε / disc⌋).map fun k : ℤ => (k, h (k * disc))) ((PldCommon.pyRange (⌊ε / disc⌋ + 1 + 1) (hi + 1)).map fun k : ℤ => (k, h (k * disc)))
      (⌊ε / disc⌋, h (⌊ε / disc⌋ * disc)) (⌊ε / disc⌋ + 1, h ((⌊ε / disc⌋ + 1 : ℤ) * disc)) (by
        rw [pyRange_split (k := ⌊ε / disc⌋) k1 (by omega), pyRange_cons (k := ⌊ε / disc⌋) (by omega), pyRange_cons (k := ⌊ε / disc⌋ + 1) (by omega)]
        simp) t t0 t1 (by
          rw [hx]
          push_cast
          rw [add_mul, one_mul])
    rw [this]
    push_cast
    rw [add_mul, one_mul]
  · intro g
    have := h2 (lo, h (lo * disc)) ((PldCommon.pyRange (lo + 1) (hi + 1)).map fun k : ℤ => (k, h (k * disc))) (by
      rw [pyRange_cons (k := lo) (by omega)]; rfl) (Real.exp ε / Real.exp (lo * disc)) (by
        rw [div_le_one (Real.exp_pos _)]; exact Real.exp_le_exp.2 g) (by
        have := (Real.exp_pos (lo * disc)).ne'
        simp only []
        field_simp)
    rw [this]
    simp only []
    ring
  · intro g
    have := h3 ((PldCommon.pyRange lo hi).map fun k : ℤ => (k, h (k * disc))) (hi, h (hi * disc)) (by
      rw [pyRange_split (k := hi) hlu (by omega), pyRange_cons (k := hi) (by omega)]
      simp [PldCommon.pyRange]) g
    rw [this]

/-- The reported curve is the polygon, if the losses lie between the first and the last dot. -/
theorem dots_polygon (hh : HsCurve P Q h) (hd : 0 < disc) {lo hi : ℤ} (hlu : lo ≤ hi) {m : Pmf}
    (hm : connectDots disc (PldCommon.pyRange lo (hi + 1)) ((PldCommon.pyRange lo (hi + 1)).map fun k : ℤ => h (k * disc)) = .ok m)
    (hl : Indist Q P (-(lo * disc)) 0) (hu : Indist P Q (hi * disc) 0) (ε : ℝ) : m.getDeltaForEpsilon ε = gridPolygon disc h ε := by
  obtain ⟨h1, h2, h3⟩ := dots_curve hh hd hlu hm ε
  obtain ⟨t, t0, t1, -, hx, he⟩ := cell_weight hd ε
  have hpos := Real.exp_pos (lo * disc)
  rcases lt_or_ge ε (lo * disc) with g | g
  · rw [h2 g.le, he, hh.eq_left hl le_rfl, hh.eq_left hl ((cell_le hd ε).trans g.le), hh.eq_left hl, ]
    · rw [← sub_eq_zero]
      have : Real.exp ε / Real.exp (lo * disc) * (1 - (1 - Real.exp (lo * disc))) = Real.exp ε := by field_simp; ring
      rw [this, hx]
      ring
    · have : ⌊ε / disc⌋ < lo := by rw [Int.floor_lt, div_lt_iff₀ hd]; exact g
      have : (⌊ε / disc⌋ : ℝ) + 1 ≤ lo := by exact_mod_cast this
      nlinarith
  · rcases lt_or_ge ε (hi * disc) with g' | g'
    · exact h1 g g'
    · have : hi ≤ ⌊ε / disc⌋ := by rw [Int.le_floor, le_div_iff₀ hd]; exact g'
      have : (hi : ℝ) ≤ ⌊ε / disc⌋ := by exact_mod_cast this
      have : (hi : ℝ) * disc ≤ ⌊ε / disc⌋ * disc := mul_le_mul_of_nonneg_right this hd.le
      rw [h3 g', he, hh.eq_right hu le_rfl, hh.eq_right hu this, hh.eq_right hu (by linarith)]
      simp

end dots
end Verif.Spec
