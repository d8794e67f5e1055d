import Verif.Proofs.AdaptiveComposition
import Verif.Proofs.PldPmfSelf

/-! # Stored PMFs and privacy loss laws -/

namespace Verif.Spec
open MeasureTheory ProbabilityTheory Verif.Pld

lemma expect_le {pts : List (ℤ × ℝ)} (hp : ∀ x ∈ pts, 0 ≤ x.2) {φ ψ : ℤ → ℝ} (h : ∀ k, φ k ≤ ψ k) : expect pts φ ≤ expect pts ψ := by
  unfold expect
  apply List.sum_le_sum
  intro x hx
  exact mul_le_mul_of_nonneg_left (h _) (hp x hx)

/-- A PMF above a law has a larger delta everywhere. -/
lemma AtLeast.hs_le {inf disc : ℝ} {pts : List (ℤ × ℝ)} {L : LossLaw} (h : AtLeast inf disc pts L) (e : ℝ) :
    L.hs e ≤ hockeyStick inf disc pts e :=
  h _ (fun _ _ hxy => hinge_mono _ hxy) (fun _ => hinge_nonneg _ _) (fun _ => hinge_le_one _ _)

lemma integrable_mono (μ : Measure ℝ) [IsFiniteMeasure μ] {φ : ℝ → ℝ} (hm : Monotone φ) (h0 : ∀ x, 0 ≤ φ x) (h1 : ∀ x, φ x ≤ 1) :
    Integrable φ μ := integrable_unit hm.measurable h0 h1

lemma conv_test (A B : LossLaw) {φ : ℝ → ℝ} (hm : Monotone φ) (h0 : ∀ x, 0 ≤ φ x) (h1 : ∀ x, φ x ≤ 1) :
    (A.conv B).inf + ∫ z, φ z ∂(A.conv B).μ = A.inf + ∫ x, (B.inf + ∫ y, φ (x + y) ∂B.μ) ∂A.μ := by
  have hn : ∀ x, ‖φ x‖ ≤ 1 := fun x => by rw [Real.norm_eq_abs, abs_of_nonneg (h0 x)]; exact h1 x
  have m2 : Measurable fun z : ℝ × ℝ => φ (z.1 + z.2) := hm.measurable.comp (measurable_fst.add measurable_snd)
  have hi : Integrable (fun z : ℝ × ℝ => φ (z.1 + z.2)) (A.μ.prod B.μ) :=
    Integrable.of_bound m2.aestronglyMeasurable 1 (ae_of_all _ fun z => hn _)
  have e1 : ∫ z, φ z ∂(A.conv B).μ = ∫ x, ∫ y, φ (x + y) ∂B.μ ∂A.μ := by
    show ∫ z, φ z ∂(A.μ.conv B.μ) = _
    rw [Measure.conv, integral_map (by fun_prop) hm.measurable.aestronglyMeasurable, integral_prod _ hi]
  rw [e1, integral_add (integrable_const _) hi.integral_prod_left]
  have a : A.μ.real Set.univ = 1 - A.inf := by linarith [A.mass]
  simp only [LossLaw.conv, integral_const, smul_eq_mul, a]
  ring

/-- Convolution preserves being above. -/
lemma AtLeast.conv {i1 i2 disc : ℝ} {p1 p2 : List (ℤ × ℝ)} {A B : LossLaw} (hA : AtLeast i1 disc p1 A)
    (hB : AtLeast i2 disc p2 B) (hi : i2 ≤ 1) (hp1 : ∀ x ∈ p1, 0 ≤ x.2) (hp2 : ∀ x ∈ p2, 0 ≤ x.2) (hd : 0 ≤ disc) {φ : ℝ → ℝ}
    (hm : Monotone φ) (h0 : ∀ x, 0 ≤ φ x) (h1 : ∀ x, φ x ≤ 1) :
    (A.conv B).inf + ∫ z, φ z ∂(A.conv B).μ ≤
      i1 + i2 - i1 * i2 + expect p1 fun k => expect p2 fun j => φ ((k + j : ℤ) * disc) := by
  rw [conv_test A B hm h0 h1]
  -- value of the second part after a loss `x`, cut at one
  set Ψ : ℝ → ℝ := fun x => expect p2 fun j => φ (x + j * disc) with hΨ
  have hΨm : Monotone Ψ := fun x y hxy => expect_le hp2 fun j => hm (by linarith)
  have hΨ0 : ∀ x, 0 ≤ Ψ x := fun x => expect_nonneg hp2 fun _ _ => h0 _
  -- second law below
  have s2 : ∀ x, B.inf + ∫ y, φ (x + y) ∂B.μ ≤ min (i2 + Ψ x) 1 := by
    intro x
    refine le_min ?_ ?_
    · exact hB (fun y => φ (x + y)) (fun a b hab => hm (by linarith)) (fun y => h0 _) (fun y => h1 _)
    · have : ∫ y, φ (x + y) ∂B.μ ≤ ∫ _, (1 : ℝ) ∂B.μ :=
        integral_mono (integrable_mono _ (fun a b hab => hm (by linarith)) (fun y => h0 _) (fun y => h1 _))
          (integrable_const _) fun y => h1 _
      have h3 : ∫ _, (1 : ℝ) ∂B.μ = B.μ.real Set.univ := by simp
      linarith [B.mass]
  have hmm : Monotone fun x => B.inf + ∫ y, φ (x + y) ∂B.μ := by
    intro a b hab
    refine add_le_add le_rfl (integral_mono (integrable_mono _ ?_ (fun y => h0 _) (fun y => h1 _))
      (integrable_mono _ ?_ (fun y => h0 _) (fun y => h1 _)) fun y => hm (by linarith))
    · exact fun _ _ h => hm (by linarith)
    · exact fun _ _ h => hm (by linarith)
  have h3 : ∫ x, (B.inf + ∫ y, φ (x + y) ∂B.μ) ∂A.μ ≤ ∫ x, min (i2 + Ψ x) 1 ∂A.μ := by
    refine integral_mono ?_ ?_ s2
    · refine integrable_mono _ hmm (fun x => ?_) fun x => (s2 x).trans (min_le_right _ _)
      exact add_nonneg B.inf_nonneg (integral_nonneg fun y => h0 _)
    · have hb : ∀ x, B.inf + ∫ y, φ (x + y) ∂B.μ ≤ min (i2 + Ψ x) 1 := s2
      refine integrable_mono _ (fun a b hab => min_le_min (by have := hΨm hab; linarith) le_rfl) (fun x => ?_) fun x => min_le_right _ _
      exact le_trans (add_nonneg B.inf_nonneg (integral_nonneg fun y => h0 _)) (hb x)
  -- first law below
  have key : A.inf + ∫ x, min (i2 + Ψ x) 1 ∂A.μ ≤ i1 + i2 - i1 * i2 + expect p1 fun k => min (Ψ (k * disc)) (1 - i2) := by
    have e : ∀ x, min (i2 + Ψ x) 1 = i2 + min (Ψ x) (1 - i2) := by
      intro x
      rcases le_total (Ψ x) (1 - i2) with h | h
      · rw [min_eq_left h, min_eq_left (by linarith)]
      · rw [min_eq_right h, min_eq_right (by linarith)]; ring
    rcases hi.eq_or_lt with rfl | hi
    · have z : ∀ x, min (Ψ x) (1 - 1) = 0 := fun x => by rw [sub_self]; exact min_eq_right (hΨ0 x)
      simp only [z, e]
      have e0 : expect p1 (fun _ => (0 : ℝ)) = 0 := by simp [expect]
      rw [e0]
      simp
      linarith [A.mass]
    · have hpos : 0 < 1 - i2 := by linarith
      have := hA (fun x => min (Ψ x) (1 - i2) / (1 - i2))
        (fun a b hab => div_le_div_of_nonneg_right (min_le_min (hΨm hab) le_rfl) hpos.le)
        (fun x => div_nonneg (le_min (hΨ0 x) hpos.le) hpos.le)
        (fun x => (div_le_one hpos).2 (min_le_right _ _))
      have e2 : ∫ x, min (i2 + Ψ x) 1 ∂A.μ = i2 * A.μ.real Set.univ + (1 - i2) * ∫ x, min (Ψ x) (1 - i2) / (1 - i2) ∂A.μ := by
        rw [← integral_const_mul]
        have i4 : Integrable (fun x => (1 - i2) * (min (Ψ x) (1 - i2) / (1 - i2))) A.μ := by
          refine Integrable.const_mul (integrable_mono _ ?_ ?_ ?_) _
          · exact fun a b hab => div_le_div_of_nonneg_right (min_le_min (hΨm hab) le_rfl) hpos.le
          · exact fun x => div_nonneg (le_min (hΨ0 x) hpos.le) hpos.le
          · exact fun x => (div_le_one hpos).2 (min_le_right _ _)
        have : ∫ x, min (i2 + Ψ x) 1 ∂A.μ = ∫ x, (i2 + (1 - i2) * (min (Ψ x) (1 - i2) / (1 - i2))) ∂A.μ := by
          refine integral_congr_ae (ae_of_all _ fun x => ?_)
          simp only [e x]; field_simp
        rw [this, integral_add (integrable_const _) i4, integral_const, smul_eq_mul, mul_comm i2]
      have e3 : (expect p1 fun k => min (Ψ (k * disc)) (1 - i2)) =
          (1 - i2) * expect p1 fun k => min (Ψ (k * disc)) (1 - i2) / (1 - i2) := by
        unfold expect
        rw [← List.sum_map_mul_left]
        congr 1
        apply List.map_congr_left
        intro x _
        field_simp
      rw [e2, e3]
      have hmass := A.mass
      have : A.μ.real Set.univ = 1 - A.inf := by linarith
      rw [this]
      nlinarith [mul_le_mul_of_nonneg_left (hA (fun x => min (Ψ x) (1 - i2) / (1 - i2))
        (fun a b hab => div_le_div_of_nonneg_right (min_le_min (hΨm hab) le_rfl) hpos.le)
        (fun x => div_nonneg (le_min (hΨ0 x) hpos.le) hpos.le)
        (fun x => (div_le_one hpos).2 (min_le_right _ _))) hpos.le]
  have h4 : (expect p1 fun k => min (Ψ (k * disc)) (1 - i2)) ≤ expect p1 fun k => expect p2 fun j => φ ((k + j : ℤ) * disc) := by
    refine expect_le hp1 fun k => (min_le_left _ _).trans (le_of_eq ?_)
    simp only [hΨ]
    congr 1; ext j; push_cast; congr 1; ring
  linarith

lemma conv_comm (A B : LossLaw) : A.conv B = B.conv A := by
  unfold LossLaw.conv
  congr 1
  · ring
  · exact Measure.conv_comm _ _

lemma expect_swap (p1 p2 : List (ℤ × ℝ)) (f : ℤ → ℤ → ℝ) :
    (expect p1 fun k => expect p2 fun j => f k j) = expect p2 fun j => expect p1 fun k => f k j := by
  unfold expect
  induction p1 with
  | nil => simp
  | cons a l ih =>
    simp only [List.map_cons, List.sum_cons]
    rw [ih, ← List.sum_map_mul_left, ← List.sum_map_add]
    congr 1
    apply List.map_congr_left
    intro x _
    ring

/-- As `AtLeast.conv`, if at least one of the infinity masses is at most one. -/
lemma AtLeast.conv' {i1 i2 disc : ℝ} {p1 p2 : List (ℤ × ℝ)} {A B : LossLaw} (hA : AtLeast i1 disc p1 A)
    (hB : AtLeast i2 disc p2 B) (hi : i1 ≤ 1 ∨ i2 ≤ 1) (hp1 : ∀ x ∈ p1, 0 ≤ x.2) (hp2 : ∀ x ∈ p2, 0 ≤ x.2) (hd : 0 ≤ disc)
    {φ : ℝ → ℝ} (hm : Monotone φ) (h0 : ∀ x, 0 ≤ φ x) (h1 : ∀ x, φ x ≤ 1) :
    (A.conv B).inf + ∫ z, φ z ∂(A.conv B).μ ≤
      i1 + i2 - i1 * i2 + expect p1 fun k => expect p2 fun j => φ ((k + j : ℤ) * disc) := by
  rcases hi with hi | hi
  · rw [conv_comm, expect_swap p1 p2]
    have := AtLeast.conv hB hA hi hp2 hp1 hd hm h0 h1
    simp only [add_comm] at this ⊢
    rw [mul_comm i1 i2]
    have e : i2 + i1 - i2 * i1 = i1 + i2 - i2 * i1 := by ring
    simpa [add_comm, e] using this
  · exact AtLeast.conv hA hB hi hp1 hp2 hd hm h0 h1

/-- Composition of stored PMFs (any representation, with or without pessimistic truncation). -/
lemma AtLeast.compose {a b c : Pmf} {t : ℝ} {A B : LossLaw} (h : PldPmf.composePmfs a b t = .ok c) (ha : a.WF) (hb : b.WF)
    (hna : a.NonNeg) (hnb : b.NonNeg) (hpess : a.pessimistic = true) (hi : a.infinityMass ≤ 1 ∨ b.infinityMass ≤ 1)
    (hA : AtLeast a.infinityMass a.disc a.points A) (hB : AtLeast b.infinityMass b.disc b.points B) :
    AtLeast c.infinityMass c.disc c.points (A.conv B) := by
  have hs := composePmfs_spec h ha hb
  have hd : 0 < a.disc := by cases a with
    | dense d => exact ha
    | sparse s => exact ha.1
  intro φ hm h0 h1
  rw [hs.disc'] at hB
  refine (AtLeast.conv' hA hB hi hna.2 hnb.2 hd.le hm h0 h1).trans ?_
  rw [hs.disc]
  have := (hs.up hna hnb hpess (fun k => φ (k * a.disc)) (fun x y hxy => hm (by
    have : (x : ℝ) ≤ y := by exact_mod_cast hxy
    nlinarith)) (fun _ => h0 _) (fun _ => h1 _)).1
  exact this

/-- `n` independent copies -/
noncomputable def LossLaw.pow (L : LossLaw) : ℕ → LossLaw
  | 0 => LossLaw.zero
  | n + 1 => L.conv (L.pow n)

lemma pow_eq_convAll (L : LossLaw) (n : ℕ) : L.pow n = LossLaw.convAll (List.replicate n L) := by
  induction n with
  | zero => rfl
  | succ n ih => rw [LossLaw.pow, ih, List.replicate_succ]; rfl

/-- the points of the `n`-fold sum -/
noncomputable def nfoldPts (pts : List (ℤ × ℝ)) : ℕ → List (ℤ × ℝ)
  | 0 => [(0, 1)]
  | n + 1 => pts.flatMap fun x => (nfoldPts pts n).map fun y => (x.1 + y.1, x.2 * y.2)

lemma expect_flatMap (pts q : List (ℤ × ℝ)) (φ : ℤ → ℝ) :
    expect (pts.flatMap fun x => q.map fun y => (x.1 + y.1, x.2 * y.2)) φ = expect pts fun k => expect q fun j => φ (k + j) := by
  induction pts with
  | nil => simp [expect]
  | cons a l ih =>
    rw [List.flatMap_cons, expect_append, ih, expect_cons]
    congr 1
    unfold expect
    rw [List.map_map, ← List.sum_map_mul_left]
    congr 1
    apply List.map_congr_left
    intro x _
    simp; ring

lemma expect_nfoldPts (pts : List (ℤ × ℝ)) (n : ℕ) (φ : ℤ → ℝ) : expect (nfoldPts pts n) φ = nfold pts n φ := by
  induction n generalizing φ with
  | zero => simp [nfoldPts, nfold, expect]
  | succ n ih =>
    rw [nfoldPts, expect_flatMap, nfold]
    congr 1; ext k; exact ih _

lemma nfoldPts_nonneg {pts : List (ℤ × ℝ)} (hp : ∀ x ∈ pts, 0 ≤ x.2) (n : ℕ) : ∀ x ∈ nfoldPts pts n, 0 ≤ x.2 := by
  induction n with
  | zero => simp [nfoldPts]
  | succ n ih =>
    intro x hx
    obtain ⟨y, hy, hx⟩ := List.mem_flatMap.1 hx
    obtain ⟨z, hz, rfl⟩ := List.mem_map.1 hx
    exact mul_nonneg (hp y hy) (ih z hz)

lemma AtLeast.nfold {i disc : ℝ} {pts : List (ℤ × ℝ)} {A : LossLaw} (hA : AtLeast i disc pts A) (hi : i ≤ 1)
    (hp : ∀ x ∈ pts, 0 ≤ x.2) (hd : 0 ≤ disc) (n : ℕ) : AtLeast (1 - (1 - i) ^ n) disc (nfoldPts pts n) (A.pow n) := by
  induction n with
  | zero =>
    intro φ _ _ _
    simp [LossLaw.pow, LossLaw.zero, nfoldPts, expect]
  | succ n ih =>
    intro φ hm h0 h1
    have h1n : 1 - (1 - i) ^ n ≤ 1 := by
      have : 0 ≤ (1 - i) ^ n := pow_nonneg (by linarith) n
      linarith
    have := AtLeast.conv hA ih h1n hp (nfoldPts_nonneg hp n) hd hm h0 h1
    rw [LossLaw.pow, nfoldPts, expect_flatMap]
    refine this.trans (le_of_eq ?_)
    rw [pow_succ]; ring

/-- `self_compose` of a stored PMF, with or without truncation. -/
lemma AtLeast.selfCompose {m c : Pmf} {n : ℕ} {t : ℝ} {A : LossLaw} (hs : SelfComposeSpec m c n t) (hw : m.WF) (hn : m.NonNeg)
    (hpess : m.pessimistic = true) (ht : 0 ≤ t) (hi : m.infinityMass ≤ 1) (hA : AtLeast m.infinityMass m.disc m.points A) :
    AtLeast c.infinityMass c.disc c.points (A.pow n) := by
  have hd : 0 < m.disc := by cases m with
    | dense d => exact hw
    | sparse s => exact hw.1
  intro φ hm h0 h1
  refine (AtLeast.nfold hA hi hn.2 hd.le n φ hm h0 h1).trans ?_
  rw [expect_nfoldPts, hs.disc]
  exact (hs.up hn hpess ht (fun k => φ (k * m.disc)) (fun x y hxy => hm (by
    have : (x : ℝ) ≤ y := by exact_mod_cast hxy
    nlinarith)) (fun _ => h0 _) (fun _ => h1 _)).1

/-! ### Laws of stored PMFs of mass one -/

/-- the measure of the points -/
noncomputable def ptsMeasure (disc : ℝ) (pts : List (ℤ × ℝ)) : Measure ℝ :=
  (pts.map fun x => ENNReal.ofReal x.2 • Measure.dirac ((x.1 : ℝ) * disc)).sum

lemma ptsMeasure_spec (disc : ℝ) (pts : List (ℤ × ℝ)) (hp : ∀ x ∈ pts, 0 ≤ x.2) :
    IsFiniteMeasure (ptsMeasure disc pts) ∧ ∀ φ : ℝ → ℝ, Measurable φ → Integrable φ (ptsMeasure disc pts) ∧
      ∫ x, φ x ∂(ptsMeasure disc pts) = expect pts fun k => φ (k * disc) := by
  induction pts with
  | nil =>
    refine ⟨by unfold ptsMeasure; simp; infer_instance, fun φ _ => ?_⟩
    simp [ptsMeasure, expect]
  | cons a l ih =>
    obtain ⟨f, h⟩ := ih fun x hx => hp x (by simp [hx])
    have e : ptsMeasure disc (a :: l) = ENNReal.ofReal a.2 • Measure.dirac ((a.1 : ℝ) * disc) + ptsMeasure disc l := by
      simp [ptsMeasure]
    haveI : IsFiniteMeasure (ENNReal.ofReal a.2 • Measure.dirac ((a.1 : ℝ) * disc)) :=
      Measure.smul_finite _ ENNReal.ofReal_ne_top
    rw [e]
    refine ⟨inferInstance, fun φ hφ => ?_⟩
    have i1 : Integrable φ (ENNReal.ofReal a.2 • Measure.dirac ((a.1 : ℝ) * disc)) :=
      (integrable_dirac' hφ.stronglyMeasurable (by simp)).smul_measure ENNReal.ofReal_ne_top
    refine ⟨i1.add_measure (h φ hφ).1, ?_⟩
    rw [integral_add_measure i1 (h φ hφ).1, (h φ hφ).2, expect_cons, integral_smul_measure, integral_dirac' _ _ hφ.stronglyMeasurable,
      ENNReal.toReal_ofReal (hp a (by simp))]
    rfl

/-- A non-negative PMF of mass one is the law it says. -/
lemma exists_law (inf disc : ℝ) (pts : List (ℤ × ℝ)) (h0 : 0 ≤ inf) (hp : ∀ x ∈ pts, 0 ≤ x.2)
    (hm : inf + expect pts (fun _ => 1) = 1) :
    ∃ L : LossLaw, AtLeast inf disc pts L ∧ ∀ e : ℝ, L.hs e = hockeyStick inf disc pts e := by
  obtain ⟨f, h⟩ := ptsMeasure_spec disc pts hp
  refine ⟨⟨inf, ptsMeasure disc pts, f, h0, ?_⟩, ?_, ?_⟩
  · have := (h (fun _ => 1) measurable_const).2
    simp only [integral_const, smul_eq_mul, mul_one] at this
    rw [this]; exact hm
  · intro φ hmo _ _
    simp only
    rw [(h φ hmo.measurable).2]
  · intro e
    unfold LossLaw.hs lossHs hockeyStick
    simp only
    rw [(h _ (measurable_hinge _)).2]

/-- Where the mass, summed from the top, reaches one. -/
lemma exists_split (inf : ℝ) (hi : inf ≤ 1) (pts : List (ℤ × ℝ)) (hne : pts ≠ []) (hm : 1 ≤ inf + expect pts (fun _ => 1)) :
    ∃ pre a post, pts = pre ++ a :: post ∧ inf + expect post (fun _ => 1) ≤ 1 ∧ 1 ≤ inf + a.2 + expect post (fun _ => 1) := by
  induction pts with
  | nil => exact absurd rfl hne
  | cons a l ih =>
    rw [expect_cons, mul_one] at hm
    by_cases h : inf + expect l (fun _ => 1) ≤ 1
    · exact ⟨[], a, l, rfl, h, by linarith⟩
    · push Not at h
      obtain ⟨pre, b, post, e, h1, h2⟩ := ih (by rintro rfl; simp [expect] at h; linarith) h.le
      exact ⟨a :: pre, b, post, by rw [e]; rfl, h1, h2⟩

/-- A non-negative PMF of mass at least one is above a law that is above every mechanism that the PMF is above, also up to an error. The
excess mass is taken away from the lowest losses. -/
lemma exists_law_trim {inf disc : ℝ} {pts : List (ℤ × ℝ)} (hd : 0 < disc) (h0 : 0 ≤ inf) (hi : inf ≤ 1) (hp : ∀ x ∈ pts, 0 ≤ x.2)
    (hI : pts.Pairwise fun a b => a.1 < b.1) (hm : 1 ≤ inf + expect pts (fun _ => 1)) :
    ∃ L : LossLaw, AtLeast inf disc pts L ∧ ∀ p q τ : ℝ, p ≤ 1 + τ →
      (∀ e : ℝ, p ≤ Real.exp e * q + (hockeyStick inf disc pts e + τ)) → ∀ e : ℝ, p ≤ Real.exp e * q + (L.hs e + τ) := by
  by_cases hne : pts = []
  · subst hne
    have : inf = 1 := le_antisymm hi (by simpa [expect] using hm)
    obtain ⟨L, h1, h2⟩ := exists_law inf disc [] h0 (by simp) (by simp [expect, this])
    exact ⟨L, h1, fun p q τ _ h e => by rw [h2]; exact h e⟩
  obtain ⟨pre, a, post, rfl, s1, s2⟩ := exists_split inf hi pts hne hm
  set w := 1 - inf - expect post (fun _ => 1) with hw
  have hpost : ∀ x ∈ post, 0 ≤ x.2 := fun x hx => hp x (by simp [hx])
  obtain ⟨hI1, hI2, hI3⟩ := List.pairwise_append.1 hI
  have hkey : ∀ x ∈ post, a.1 < x.1 := fun x hx => (List.pairwise_cons.1 hI2).1 x hx
  have hpre : ∀ x ∈ pre, x.1 < a.1 := fun x hx => hI3 x hx a (by simp)
  have hw0 : 0 ≤ w := by rw [hw]; linarith
  have hwa : w ≤ a.2 := by rw [hw]; linarith
  obtain ⟨L, h1, h2⟩ := exists_law inf disc ((a.1, w) :: post) h0
    (fun x hx => by
      rcases List.mem_cons.1 hx with rfl | hx
      · exact hw0
      · exact hpost x hx)
    (by rw [expect_cons, mul_one, hw]; ring)
  have eapp : ∀ φ : ℤ → ℝ, expect (pre ++ a :: post) φ = expect pre φ + (a.2 * φ a.1 + expect post φ) := fun φ => by
    rw [← expect_cons]; simp [expect]
  refine ⟨L, fun φ hmo hφ0 hφ1 => (h1 φ hmo hφ0 hφ1).trans ?_, fun p q τ hp1 hpq e => ?_⟩
  · rw [eapp, expect_cons]
    have := expect_nonneg (a := pre) (φ := fun k : ℤ => φ (k * disc)) (fun x hx => hp x (by simp [hx])) (fun _ _ => hφ0 _)
    have := mul_le_mul_of_nonneg_right hwa (hφ0 (a.1 * disc))
    linarith
  · rw [h2]
    have high : ∀ e : ℝ, a.1 * disc ≤ e → hockeyStick inf disc ((a.1, w) :: post) e = hockeyStick inf disc (pre ++ a :: post) e := by
      intro e he
      have hz : ∀ k : ℤ, k ≤ a.1 → hinge (e : EReal) (k * disc) = 0 := fun k hk => by
        rw [hinge_coe]
        refine max_eq_left ?_
        have : (k : ℝ) * disc ≤ a.1 * disc := mul_le_mul_of_nonneg_right (by exact_mod_cast hk) hd.le
        have := Real.one_le_exp (show 0 ≤ e - k * disc by linarith)
        linarith
      have z : expect pre (fun k : ℤ => hinge (e : EReal) (k * disc)) = 0 := by
        unfold expect
        refine List.sum_eq_zero fun x hx => ?_
        obtain ⟨y, hy, rfl⟩ := List.mem_map.1 hx
        simp only []
        rw [hz _ (hpre y hy).le, mul_zero]
      unfold hockeyStick
      rw [eapp, expect_cons, z, hz _ le_rfl]
      ring
    have low : ∀ e : ℝ, e ≤ a.1 * disc → hockeyStick inf disc ((a.1, w) :: post) e =
        1 - Real.exp e * expect ((a.1, w) :: post) (fun k : ℤ => Real.exp (-(k * disc))) := by
      intro e he
      have hz : ∀ k : ℤ, a.1 ≤ k → hinge (e : EReal) (k * disc) = 1 - Real.exp e * Real.exp (-(k * disc)) := fun k hk => by
        rw [hinge_coe, ← Real.exp_add, ← sub_eq_add_neg]
        refine max_eq_right ?_
        have : (a.1 : ℝ) * disc ≤ k * disc := mul_le_mul_of_nonneg_right (by exact_mod_cast hk) hd.le
        have := Real.exp_le_one_iff.2 (show e - k * disc ≤ 0 by linarith)
        linarith
      have z : ∀ l : List (ℤ × ℝ), (∀ x ∈ l, a.1 ≤ x.1) → expect l (fun k : ℤ => hinge (e : EReal) (k * disc)) =
          expect l (fun _ => 1) - Real.exp e * expect l (fun k : ℤ => Real.exp (-(k * disc))) := by
        intro l hl
        induction l with
        | nil => simp [expect]
        | cons b l ih =>
          rw [expect_cons, expect_cons, expect_cons, ih fun x hx => hl x (by simp [hx]), hz _ (hl b (by simp))]
          ring
      unfold hockeyStick
      rw [z _ (fun x hx => by
        rcases List.mem_cons.1 hx with rfl | hx
        · exact le_rfl
        · exact (hkey x hx).le)]
      rw [expect_cons (φ := fun _ => 1), mul_one, hw]
      ring
    rcases le_total (a.1 * disc : ℝ) e with he | he
    · rw [high e he]; exact hpq e
    · have k1 := hpq (a.1 * disc)
      rw [← high _ le_rfl, low _ le_rfl] at k1
      rw [low e he]
      set B := expect ((a.1, w) :: post) (fun k : ℤ => Real.exp (-(k * disc)))
      have hx : Real.exp e ≤ Real.exp (a.1 * disc) := Real.exp_le_exp.2 he
      have hx0 := Real.exp_pos e
      have hy0 := Real.exp_pos (a.1 * disc : ℝ)
      set x := Real.exp e
      set y := Real.exp (a.1 * disc : ℝ)
      have t1 : (1 - x / y) * (p - τ) ≤ (1 - x / y) * 1 :=
        mul_le_mul_of_nonneg_left (by linarith) (by rw [sub_nonneg, div_le_one hy0]; exact hx)
      have t2 : x / y * (p - τ) ≤ x / y * (y * q + (1 - y * B)) := mul_le_mul_of_nonneg_left (by linarith) (div_nonneg hx0.le hy0.le)
      have t3 : x / y * (y * q + (1 - y * B)) = x * q + x / y - x * B := by field_simp; ring
      rw [t3] at t2
      linarith

/-- Hence a PMF of mass one whose curve is valid for a pair covers it. -/
lemma covers_of_curve {m : Pmf} (hn : m.NonNeg) (hm : totalMass m = 1) {Ω : Type*} [MeasurableSpace Ω] {P Q : Measure Ω}
    (h : ∀ e : ℝ, Indist P Q e (m.hs e)) : m.Covers P Q := by
  obtain ⟨L, h1, h2⟩ := exists_law m.infinityMass m.disc m.points hn.1 hn.2 hm
  exact ⟨L, h1, fun e => by rw [h2]; exact h e⟩

/-! ### Lists of mechanisms -/

lemma zero_dominates {Ω : Type*} [MeasurableSpace Ω] (P : Measure Ω) [IsProbabilityMeasure P] : LossLaw.zero.Dominates P P := by
  intro e S _
  have hs : LossLaw.zero.hs e = max 0 (1 - Real.exp e) := by
    unfold LossLaw.hs lossHs LossLaw.zero
    simp only [zero_add]
    rw [integral_dirac' _ _ (measurable_hinge _).stronglyMeasurable, hinge_coe, sub_zero]
  rw [hs]
  have h0 : 0 ≤ P.real S := measureReal_nonneg
  have h1 : P.real S ≤ 1 := measureReal_le_one
  rcases le_total (Real.exp e) 1 with h | h
  · rw [max_eq_right (by linarith)]; nlinarith
  · rw [max_eq_left (by linarith)]; nlinarith

/-- Adaptive composition of any number of mechanisms. -/
theorem Adaptive.dominates {l : List PairProp} {Ω : Type} [MeasurableSpace Ω] {P Q : Measure Ω} (h : Adaptive l Ω P Q)
    (Ls : List LossLaw) (hL : List.Forall₂ (fun (L : LossLaw) (C : PairProp) => ∀ (Ω : Type) [MeasurableSpace Ω] (P Q : Measure Ω)
      [IsProbabilityMeasure P] [IsProbabilityMeasure Q], C Ω P Q → L.Dominates P Q) Ls l) :
    IsProbabilityMeasure P ∧ IsProbabilityMeasure Q ∧ (LossLaw.convAll Ls).Dominates P Q := by
  induction h generalizing Ls with
  | nil P =>
    cases hL
    exact ⟨inferInstance, inferInstance, zero_dominates P⟩
  | cons P Q κ η hC hl ih =>
    cases hL with
    | cons h1 h2 =>
      exact ⟨inferInstance, inferInstance, (h1 _ P Q hC).adaptive fun x => (ih x _ h2).2.2⟩

/-- The same for laws that dominate up to an error. -/
theorem Adaptive.near {l : List PairProp} {Ω : Type} [MeasurableSpace Ω] {P Q : Measure Ω} (h : Adaptive l Ω P Q)
    (Ls : List (LossLaw × ℝ)) (h0 : ∀ x ∈ Ls, 0 ≤ x.2) (hL : List.Forall₂ (fun (L : LossLaw × ℝ) (C : PairProp) => ∀ (Ω : Type)
      [MeasurableSpace Ω] (P Q : Measure Ω) [IsProbabilityMeasure P] [IsProbabilityMeasure Q], C Ω P Q →
        CurveValid P Q fun e => L.1.hs e + L.2) Ls l) :
    IsProbabilityMeasure P ∧ IsProbabilityMeasure Q ∧
      CurveValid P Q fun e => (LossLaw.convAll (Ls.map Prod.fst)).hs e + (Ls.map Prod.snd).sum := by
  induction h generalizing Ls with
  | nil P =>
    cases hL
    exact ⟨inferInstance, inferInstance, by
      simp only [LossLaw.convAll, List.map_nil, List.sum_nil, add_zero]
      exact zero_dominates P⟩
  | cons P Q κ η hC hl ih =>
    cases hL with
    | @cons a _ Ls' _ h1 h2 =>
      have h0' : ∀ x ∈ Ls', 0 ≤ x.2 := fun x hx => h0 x (List.mem_cons_of_mem _ hx)
      refine ⟨inferInstance, inferInstance, ?_⟩
      simp only [List.map_cons, List.sum_cons, LossLaw.convAll]
      exact CurveValid.adaptive (h0 a (by simp)) (List.sum_nonneg fun x hx => by
        obtain ⟨y, hy, rfl⟩ := List.mem_map.1 hx
        exact h0' y hy) (h1 _ P Q hC) fun x => (ih x _ h0' h2).2.2

/-- Post-processing by any (randomised) map. -/
lemma Indist.postprocess {Ω Ω' : Type*} [MeasurableSpace Ω] [MeasurableSpace Ω'] {P Q : Measure Ω} [IsProbabilityMeasure P]
    [IsProbabilityMeasure Q] {e d : ℝ} (h : Indist P Q e d) (κ : Kernel Ω Ω') [IsMarkovKernel κ] :
    Indist (P.bind κ) (Q.bind κ) e d := by
  classical
  have hv : CurveValid P Q fun e' => if e' = e then d else 1 := by
    intro e' S hS
    by_cases he : e' = e
    · simp only [if_pos he]; rw [he]; exact h S hS
    · simp only [if_neg he]
      have : 0 ≤ Real.exp e' * Q.real S := by positivity
      have : P.real S ≤ 1 := measureReal_le_one
      linarith
  have := adaptive_core P Q κ κ _ LossLaw.zero hv (fun x => zero_dominates (κ x)) e (by
    apply Integrable.of_bound (C := max |d| 1)
    · refine Measurable.aestronglyMeasurable ?_
      have : (fun y : ℝ => if e - y = e then d else (1 : ℝ)) = fun y => if y = 0 then d else 1 := by
        ext y; simp [sub_eq_self]
      rw [this]
      exact Measurable.ite (measurableSet_singleton 0) measurable_const measurable_const
    · refine ae_of_all _ fun y => ?_
      split_ifs <;> simp)
  have hv0 : LossLaw.zero.inf + ∫ y, (if e - y = e then d else (1 : ℝ)) ∂LossLaw.zero.μ = d := by
    simp only [LossLaw.zero, zero_add]
    have : (fun y : ℝ => if e - y = e then d else (1 : ℝ)) = fun y => if y = 0 then d else 1 := by
      ext y; simp [sub_eq_self]
    have hm : Measurable fun y : ℝ => if y = 0 then d else (1 : ℝ) :=
      Measurable.ite (measurableSet_singleton 0) measurable_const measurable_const
    rw [this, integral_dirac' _ _ hm.stronglyMeasurable]
    simp
  rw [hv0] at this
  intro S hS
  have h2 := this (Prod.snd ⁻¹' S) (measurable_snd hS)
  have e1 : ∀ M : Measure Ω, IsProbabilityMeasure M → (M ⊗ₘ κ).real (Prod.snd ⁻¹' S) = (M.bind κ).real S := by
    intro M _
    rw [measureReal_def, measureReal_def, Measure.compProd_apply (measurable_snd hS), Measure.bind_apply hS (Kernel.aemeasurable κ)]
    rfl
  rwa [e1 P inferInstance, e1 Q inferInstance] at h2

end Verif.Spec
