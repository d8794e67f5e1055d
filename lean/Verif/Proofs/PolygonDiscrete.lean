import Verif.Proofs.PolygonNoise

/-!
# Curves of PLDs built with connect-the-dots from noise on the integers

For discrete noise the dots are only at the multiples of the interval around the losses that occur. Between two dots that are not
neighbours no loss occurs and the exact curve is linear in `e^eps`, so that the polygon through the dots is the polygon through the exact
curve at all multiples.
-/

namespace Verif.Spec
open MeasureTheory PldPmf Pld

section
variable {Ω : Type*} [MeasurableSpace Ω] {P Q : Measure Ω} [IsProbabilityMeasure P] {h : ℝ → ℝ} {disc : ℝ}

/-- A point lies left of the list, between two neighbours or right of it. -/
lemma locate (disc ε : ℝ) : ∀ (E : List ℤ), E ≠ [] →
    (∃ (a : ℤ) (post : List ℤ), E = a :: post ∧ ε < a * disc) ∨ (∃ (pre : List ℤ) (a b : ℤ) (post : List ℤ), E = pre ++ a :: b :: post ∧ (a : ℝ) * disc ≤ ε ∧ ε < b * disc) ∨
      ∃ (pre : List ℤ) (a : ℤ), E = pre ++ [a] ∧ (a : ℝ) * disc ≤ ε
  | [], h => absurd rfl h
  | [a], _ => by
    rcases lt_or_ge ε (a * disc) with g | g
    · exact .inl ⟨a, [], rfl, g⟩
    · exact .inr (.inr ⟨[], a, rfl, g⟩)
  | a :: b :: l, _ => by
    rcases lt_or_ge ε (a * disc) with g | g
    · exact .inl ⟨a, b :: l, rfl, g⟩
    · rcases locate disc ε (b :: l) (by simp) with ⟨a', post, e, k⟩ | ⟨pre, a', b', post, e, k⟩ | ⟨pre, a', e, k⟩
      · cases e
        exact .inr (.inl ⟨[], a, b, l, rfl, g, k⟩)
      · exact .inr (.inl ⟨a :: pre, a', b', post, by rw [e]; rfl, k⟩)
      · exact .inr (.inr ⟨a :: pre, a', by rw [e]; rfl, k⟩)

/-- The polygon of a curve that is linear in `e^eps` on the cell. -/
lemma gridPolygon_linear (hd : 0 < disc) {ε α β : ℝ}
    (hl : ∀ e : ℝ, (⌊ε / disc⌋ : ℝ) * disc ≤ e → e ≤ (⌊ε / disc⌋ : ℝ) * disc + disc → h e = α - β * Real.exp e) :
    gridPolygon disc h ε = α - β * Real.exp ε := by
  obtain ⟨t, t0, t1, -, hx, he⟩ := cell_weight hd ε
  rw [he, hl _ le_rfl (by linarith), hl _ (by linarith) le_rfl, hx]
  ring

/-- The reported curve is the polygon through the exact curve at all multiples of the interval, if the exact curve is linear between
dots that are not neighbours and outside of the dots. -/
theorem dots_sparse (hh : HsCurve P Q h) (hd : 0 < disc) {E : List ℤ} (hne : E ≠ []) {m : Pmf}
    (hm : connectDots disc E (E.map fun k : ℤ => h (k * disc)) = .ok m)
    (hmid : ∀ (pre : List ℤ) (a b : ℤ) (post : List ℤ), E = pre ++ a :: b :: post → b = a + 1 ∨
      ∃ α β : ℝ, ∀ e : ℝ, (a : ℝ) * disc ≤ e → e ≤ b * disc → h e = α - β * Real.exp e)
    (hleft : ∀ (a : ℤ) (post : List ℤ), E = a :: post → ∃ β : ℝ, ∀ e : ℝ, e ≤ a * disc → h e = 1 - β * Real.exp e)
    (hright : ∀ (pre : List ℤ) (a : ℤ), E = pre ++ [a] → ∃ α : ℝ, ∀ e : ℝ, (a : ℝ) * disc ≤ e → h e = α) (ε : ℝ) :
    m.getDeltaForEpsilon ε = gridPolygon disc h ε := by
  obtain ⟨h1, h2, h3⟩ := Props.C20_interpolates disc hd _ _ m hm P Q (by
    intro x hx
    rw [zip_map_self, List.mem_map] at hx
    obtain ⟨k, -, rfl⟩ := hx
    exact hh _) ε
  rw [zip_map_self] at h1 h2 h3
  have hA := cell_le hd ε
  have hB := lt_cell hd ε
  rcases locate disc ε E hne with ⟨a, post, e, g⟩ | ⟨pre, a, b, post, e, g1, g2⟩ | ⟨pre, a, e, g⟩
  · obtain ⟨β, hβ⟩ := hleft a post e
    have hk : ⌊ε / disc⌋ + 1 ≤ a := by
      have : ⌊ε / disc⌋ < a := by rw [Int.floor_lt, div_lt_iff₀ hd]; exact g
      omega
    have hk' : (⌊ε / disc⌋ : ℝ) + 1 ≤ a := by exact_mod_cast hk
    rw [gridPolygon_linear hd (α := 1) (β := β) fun x _ hx => hβ x (by nlinarith)]
    have hp := (Real.exp_pos (a * disc)).ne'
    rw [h2 (a, h (a * disc)) (post.map fun k : ℤ => (k, h (k * disc))) (by rw [e]; rfl) (Real.exp ε / Real.exp (a * disc))
      (by rw [div_le_one (Real.exp_pos _)]; exact Real.exp_le_exp.2 g.le) (by simp only []; field_simp)]
    simp only []
    rw [hβ _ le_rfl]
    field_simp
    ring
  · have hlt : Real.exp (a * disc) < Real.exp (b * disc) := Real.exp_lt_exp.2 (by linarith)
    have hk : a ≤ ⌊ε / disc⌋ := by rw [Int.le_floor, le_div_iff₀ hd]; exact g1
    have hk2 : ⌊ε / disc⌋ + 1 ≤ b := by
      have : ⌊ε / disc⌋ < b := by rw [Int.floor_lt, div_lt_iff₀ hd]; exact g2
      omega
    have split := h1 (pre.map fun k : ℤ => (k, h (k * disc))) (post.map fun k : ℤ => (k, h (k * disc))) (a, h (a * disc)) (b, h (b * disc))
      (by rw [e]; simp)
    simp only [] at split
    rcases hmid pre a b post e with rfl | ⟨α, β, hl⟩
    · obtain rfl : a = ⌊ε / disc⌋ := by omega
      obtain ⟨t, t0, t1, -, hx, he⟩ := cell_weight hd ε
      have ee : (((⌊ε / disc⌋ + 1 : ℤ) : ℝ)) * disc = (⌊ε / disc⌋ : ℝ) * disc + disc := by push_cast; ring
      rw [he, split t t0 t1 (by rw [ee]; exact hx), ee]
    · have k1 : (a : ℝ) * disc ≤ (⌊ε / disc⌋ : ℝ) * disc := mul_le_mul_of_nonneg_right (by exact_mod_cast hk) hd.le
      have k2 : (⌊ε / disc⌋ : ℝ) * disc + disc ≤ b * disc := by
        have : (⌊ε / disc⌋ : ℝ) + 1 ≤ b := by exact_mod_cast hk2
        nlinarith
      rw [gridPolygon_linear hd (α := α) (β := β) fun x h1 h2 => hl x (by linarith) (by linarith)]
      have e1 := Real.exp_le_exp.2 g1
      have e2 := Real.exp_lt_exp.2 g2
      have hp : 0 < Real.exp (b * disc) - Real.exp (a * disc) := by linarith
      have hx : Real.exp ε = (1 - (Real.exp ε - Real.exp (a * disc)) / (Real.exp (b * disc) - Real.exp (a * disc))) * Real.exp (a * disc) +
          (Real.exp ε - Real.exp (a * disc)) / (Real.exp (b * disc) - Real.exp (a * disc)) * Real.exp (b * disc) := by
        have hp' := hp.ne'
        generalize Real.exp (b * disc) = B at *
        generalize Real.exp (a * disc) = A at *
        field_simp
        ring
      rw [split _ (div_nonneg (by linarith) hp.le) (by rw [div_le_one hp]; linarith) hx, hl _ le_rfl (by linarith), hl _ (by linarith) le_rfl]
      generalize (Real.exp ε - Real.exp (a * disc)) / (Real.exp (b * disc) - Real.exp (a * disc)) = t at hx
      rw [hx]
      ring
  · obtain ⟨α, hα⟩ := hright pre a e
    have hk : a ≤ ⌊ε / disc⌋ := by rw [Int.le_floor, le_div_iff₀ hd]; exact g
    have k1 : (a : ℝ) * disc ≤ (⌊ε / disc⌋ : ℝ) * disc := mul_le_mul_of_nonneg_right (by exact_mod_cast hk) hd.le
    rw [gridPolygon_linear hd (α := α) (β := 0) fun x h1 _ => by rw [hα x (by linarith)]; ring,
      h3 (pre.map fun k : ℤ => (k, h (k * disc))) (a, h (a * disc)) (by rw [e]; simp) g]
    simp only []
    rw [hα _ le_rfl]
    ring

end
end Verif.Spec

namespace Verif.Mech
open Verif.Spec Verif.Pld Verif.PldPmf MeasureTheory ProbabilityTheory

section
variable {X : Type} [AddCommGroup X] [MeasurableSpace X] [MeasurableAdd X] {m : AdditiveNoise X} {ν : Measure X}
  [ν.IsAddRightInvariant] {f : X → ℝ}

/-- The exact curve where a set separates the densities. -/
lemma curve_cut (hf : Faithful m ν f) {h : ℝ → ℝ}
    (hh : HsCurve (upper (ν.withDensity fun x => ENNReal.ofReal (f x)) m.sensitivity m.samplingProb m.adj)
      (lower (ν.withDensity fun x => ENNReal.ofReal (f x)) m.sensitivity m.samplingProb m.adj) h) {S : Set X} (hS : MeasurableSet S) (ε : ℝ)
    (hc : ∀ x, (x ∈ S → Real.exp ε * lowerDens m f x ≤ upperDens m f x) ∧ (x ∉ S → upperDens m f x ≤ Real.exp ε * lowerDens m f x)) :
    h ε = (upper (ν.withDensity fun x => ENNReal.ofReal (f x)) m.sensitivity m.samplingProb m.adj).real S -
      Real.exp ε * (lower (ν.withDensity fun x => ENNReal.ofReal (f x)) m.sensitivity m.samplingProb m.adj).real S :=
  (hh ε).unique (isHs_of_cut hf ε hS fun x _ => hc x)

omit [MeasurableAdd X] [ν.IsAddRightInvariant] in
lemma upperDens_nonneg' (hf : Faithful m ν f) (x : X) : 0 ≤ upperDens m f x := by
  have q0 := hf.q0
  have q1 := hf.q1
  unfold upperDens
  cases m.adj
  · exact hf.nonneg x
  · exact add_nonneg (mul_nonneg (by linarith) (hf.nonneg _)) (mul_nonneg q0.le (hf.nonneg _))

/-- Between, below and above the losses the exact curve is linear in `e^eps`. -/
lemma curve_linear (hf : Faithful m ν f) {h : ℝ → ℝ}
    (hh : HsCurve (upper (ν.withDensity fun x => ENNReal.ofReal (f x)) m.sensitivity m.samplingProb m.adj)
      (lower (ν.withDensity fun x => ENNReal.ofReal (f x)) m.sensitivity m.samplingProb m.adj) h) :
    (∀ a b : ℝ, (∀ x (l : ℝ), m.privacyLoss x = .ok (l : EReal) → l ≤ a ∨ b ≤ l) →
      ∃ α β : ℝ, ∀ e : ℝ, a ≤ e → e ≤ b → h e = α - β * Real.exp e) ∧
    (∀ a : ℝ, (∀ x (l : ℝ), m.privacyLoss x = .ok (l : EReal) → a ≤ l) → ∃ β : ℝ, ∀ e : ℝ, e ≤ a → h e = 1 - β * Real.exp e) ∧
    ∀ b : ℝ, (∀ x (l : ℝ), m.privacyLoss x = .ok (l : EReal) → l ≤ b) → ∃ α : ℝ, ∀ e : ℝ, b ≤ e → h e = α := by
  have p1 := upper_prob hf
  have p2 := lower_prob hf
  have hL := lowerDens_nonneg hf
  have hU := upperDens_nonneg' hf
  obtain ⟨m1, m2⟩ := measurable_dens hf
  -- every point has density zero on one side or a finite loss
  have cases : ∀ x, lowerDens m f x = 0 ∨ upperDens m f x = 0 ∨
      ∃ l : ℝ, m.privacyLoss x = .ok (l : EReal) ∧ 0 < lowerDens m f x ∧ upperDens m f x = Real.exp l * lowerDens m f x := by
    intro x
    have hr := privacyLoss_isLoss hf x
    cases e : m.privacyLoss x with
    | error => rw [e] at hr; exact .inl hr.2.2
    | ok L =>
      rw [e] at hr
      cases L using EReal.rec with
      | bot => exact .inr (.inl hr.1)
      | top => exact .inl hr.2
      | coe l =>
        obtain ⟨h1, h2, h3⟩ := hr
        refine .inr (.inr ⟨l, rfl, h2, ?_⟩)
        rw [h3, Real.exp_log (div_pos h1 h2)]
        field_simp
  refine ⟨?_, ?_, ?_⟩
  · intro a b hl
    refine ⟨_, _, fun e h1 h2 => (curve_cut hf hh (measurableSet_le (m2.const_mul (Real.exp b)) m1) e fun x => ?_).trans (by rw [mul_comm])⟩
    simp only [Set.mem_ofPred_eq, not_le]
    refine ⟨fun k => (mul_le_mul_of_nonneg_right (Real.exp_le_exp.2 h2) (hL x)).trans k, fun k => ?_⟩
    rcases cases x with c | c | ⟨l, c1, c2, c3⟩
    · rw [c, mul_zero] at k
      exact absurd k (not_lt.2 (hU x))
    · rw [c]; exact mul_nonneg (Real.exp_pos _).le (hL x)
    · rw [c3] at k ⊢
      have : l < b := Real.exp_lt_exp.1 (lt_of_mul_lt_mul_right k c2.le)
      have : l ≤ a := (hl x l c1).resolve_right (by linarith)
      exact mul_le_mul_of_nonneg_right (Real.exp_le_exp.2 (by linarith)) c2.le
  · intro a hl
    have hS : MeasurableSet {x | 0 < upperDens m f x ∨ lowerDens m f x = 0} :=
      (measurableSet_lt measurable_const m1).union (m2 (MeasurableSet.singleton 0))
    have hone : (upper (ν.withDensity fun x => ENNReal.ofReal (f x)) m.sensitivity m.samplingProb m.adj).real
        {x | 0 < upperDens m f x ∨ lowerDens m f x = 0} = 1 := by
      have : (upper (ν.withDensity fun x => ENNReal.ofReal (f x)) m.sensitivity m.samplingProb m.adj)
          {x | 0 < upperDens m f x ∨ lowerDens m f x = 0}ᶜ = 0 := by
        rw [upper_eq hf, withDensity_apply _ hS.compl]
        rw [setLIntegral_congr_fun (g := fun _ => 0) hS.compl, lintegral_zero]
        intro x hx
        simp only [Set.mem_compl_iff, Set.mem_ofPred_eq, not_or, not_lt] at hx
        simp only []
        rw [ENNReal.ofReal_eq_zero]
        exact hx.1
      have h2 := probReal_compl_eq_one_sub (μ := upper (ν.withDensity fun x => ENNReal.ofReal (f x)) m.sensitivity m.samplingProb m.adj) hS
      rw [measureReal_def, this, ENNReal.toReal_zero] at h2
      linarith
    refine ⟨_, fun e h1 => (curve_cut hf hh hS e fun x => ?_).trans (by rw [hone, mul_comm])⟩
    simp only [Set.mem_ofPred_eq, not_or, not_lt]
    refine ⟨fun k => ?_, fun k => k.1.trans (mul_nonneg (Real.exp_pos _).le (hL x))⟩
    rcases cases x with c | c | ⟨l, c1, c2, c3⟩
    · rw [c, mul_zero]; exact hU x
    · rcases k with k | k
      · rw [c] at k; exact absurd k (lt_irrefl _)
      · rw [k, mul_zero]; exact hU x
    · rw [c3]
      exact mul_le_mul_of_nonneg_right (Real.exp_le_exp.2 (h1.trans (hl x l c1))) c2.le
  · intro b hl
    have hS : MeasurableSet {x | lowerDens m f x = 0} := m2 (MeasurableSet.singleton 0)
    have hzero : (lower (ν.withDensity fun x => ENNReal.ofReal (f x)) m.sensitivity m.samplingProb m.adj).real {x | lowerDens m f x = 0} = 0 := by
      have : (lower (ν.withDensity fun x => ENNReal.ofReal (f x)) m.sensitivity m.samplingProb m.adj) {x | lowerDens m f x = 0} = 0 := by
        rw [lower_eq hf, withDensity_apply _ hS]
        rw [setLIntegral_congr_fun (g := fun _ => 0) hS, lintegral_zero]
        intro x hx
        simp only [Set.mem_ofPred_eq] at hx
        simp only []
        rw [hx, ENNReal.ofReal_zero]
      rw [measureReal_def, this, ENNReal.toReal_zero]
    refine ⟨_, fun e h1 => (curve_cut hf hh hS e fun x => ?_).trans (by rw [hzero, mul_zero, sub_zero])⟩
    simp only [Set.mem_ofPred_eq]
    refine ⟨fun k => by rw [k, mul_zero]; exact hU x, fun k => ?_⟩
    rcases cases x with c | c | ⟨l, c1, c2, c3⟩
    · exact absurd c k
    · rw [c]; exact mul_nonneg (Real.exp_pos _).le (hL x)
    · rw [c3]
      exact mul_le_mul_of_nonneg_right (Real.exp_le_exp.2 ((hl x l c1).trans h1)) c2.le

end

/-- The dots: increasing, and around every loss. -/
lemma roundEpsilons_cover {m : AdditiveNoise ℤ} {disc : ℝ} (hd : 0 < disc) : ∀ (xs acc eps : List ℤ), roundEpsilons m disc xs acc = .ok eps →
    acc.Pairwise (· > ·) → xs.Pairwise (fun x y => ∀ L L', m.privacyLoss x = .ok L → m.privacyLoss y = .ok L' → L ≤ L') →
    (acc = [] ∨ ∃ (l' : ℝ) (r : List ℤ), (∀ x ∈ xs, ∀ L, m.privacyLoss x = .ok L → (l' : EReal) ≤ L) ∧ acc = ⌈l' / disc⌉ :: r ∧
      ⌊l' / disc⌋ ∈ acc) →
    (∀ k ∈ acc, k ∈ eps) ∧ eps.Pairwise (· < ·) ∧
      ∀ x ∈ xs, ∃ l : ℝ, m.privacyLoss x = .ok (l : EReal) ∧ ⌊l / disc⌋ ∈ eps ∧ ⌈l / disc⌉ ∈ eps := by
  intro xs
  induction xs with
  | nil =>
    intro acc eps h ha _ _
    rw [roundEpsilons, Except.ok.injEq] at h
    subst h
    exact ⟨fun k hk => List.mem_reverse.2 hk, by rw [List.pairwise_reverse]; exact ha, by simp⟩
  | cons x xs ih =>
    intro acc eps h ha hs hacc
    rw [List.pairwise_cons] at hs
    cases e : m.privacyLoss x with
    | error => rw [roundEpsilons, e] at h; exact absurd h (by simp [bind, Except.bind])
    | ok L =>
      cases L using EReal.rec with
      | bot => rw [roundEpsilons, e] at h; exact absurd h (by intro c; cases c)
      | top => rw [roundEpsilons, e] at h; exact absurd h (by intro c; cases c)
      | coe l =>
        rw [roundEpsilons, e] at h
        change roundEpsilons m disc xs (match (match acc with
            | [] => [⌊l / disc⌋]
            | a :: r => if ⌊l / disc⌋ > a then ⌊l / disc⌋ :: a :: r else a :: r) with
          | [] => []
          | a :: r => if ⌈l / disc⌉ > a then ⌈l / disc⌉ :: a :: r else a :: r) = _ at h
        have hfc : ⌊l / disc⌋ ≤ ⌈l / disc⌉ := Int.floor_le_ceil _
        -- after the first step: the floor is in the list and the head is at most the ceiling
        obtain ⟨a1, r1, e1, p1, f1, c1, s1⟩ : ∃ a1 r1, (match acc with
            | [] => [⌊l / disc⌋]
            | a :: r => if ⌊l / disc⌋ > a then ⌊l / disc⌋ :: a :: r else a :: r) = a1 :: r1 ∧ (a1 :: r1).Pairwise (· > ·) ∧
            ⌊l / disc⌋ ∈ a1 :: r1 ∧ a1 ≤ ⌈l / disc⌉ ∧ ∀ k ∈ acc, k ∈ a1 :: r1 := by
          rcases hacc with rfl | ⟨l', r, hl, rfl, hfl⟩
          · exact ⟨_, _, rfl, by simp, by simp, hfc, by simp⟩
          · have hle : l' ≤ l := by
              have := hl x (by simp) _ e
              exact_mod_cast this
            have hdiv : l' / disc ≤ l / disc := div_le_div_of_nonneg_right hle hd.le
            have hcc : ⌈l' / disc⌉ ≤ ⌈l / disc⌉ := Int.ceil_mono hdiv
            have hff : ⌊l' / disc⌋ ≤ ⌊l / disc⌋ := Int.floor_mono hdiv
            by_cases g : ⌊l / disc⌋ > ⌈l' / disc⌉
            · refine ⟨_, _, if_pos g, ?_, by simp, hfc, fun k hk => by simp only [List.mem_cons] at hk ⊢; tauto⟩
              rw [List.pairwise_cons]
              refine ⟨fun k hk => ?_, ha⟩
              rcases List.mem_cons.1 hk with rfl | hk
              · exact g
              · exact lt_trans ((List.pairwise_cons.1 ha).1 k hk) g
            · refine ⟨_, _, if_neg g, ha, ?_, hcc, fun k hk => hk⟩
              have h3 := Int.ceil_le_floor_add_one (l' / disc)
              rcases eq_or_lt_of_le (not_lt.1 g) with g' | g'
              · rw [g']; simp
              · have : ⌊l / disc⌋ = ⌊l' / disc⌋ := by omega
                rw [this]; exact hfl
        rw [e1] at h
        simp only [] at h
        obtain ⟨r2, e2, p2, f2, s2⟩ : ∃ r2, (if ⌈l / disc⌉ > a1 then ⌈l / disc⌉ :: a1 :: r1 else a1 :: r1) = ⌈l / disc⌉ :: r2 ∧
            (⌈l / disc⌉ :: r2).Pairwise (· > ·) ∧ ⌊l / disc⌋ ∈ ⌈l / disc⌉ :: r2 ∧ ∀ k ∈ a1 :: r1, k ∈ ⌈l / disc⌉ :: r2 := by
          by_cases g : ⌈l / disc⌉ > a1
          · refine ⟨_, if_pos g, ?_, List.mem_cons_of_mem _ f1, fun k hk => List.mem_cons_of_mem _ hk⟩
            rw [List.pairwise_cons]
            refine ⟨fun k hk => ?_, p1⟩
            rcases List.mem_cons.1 hk with rfl | hk
            · exact g
            · exact lt_trans ((List.pairwise_cons.1 p1).1 k hk) g
          · obtain rfl : a1 = ⌈l / disc⌉ := le_antisymm c1 (not_lt.1 g)
            exact ⟨_, if_neg g, p1, f1, fun k hk => hk⟩
        rw [e2] at h
        obtain ⟨k1, k2, k3⟩ := ih _ _ h p2 hs.2 (.inr ⟨l, r2, fun y hy L hL => hs.1 y hy _ _ e hL, rfl, f2⟩)
        refine ⟨fun k hk => k1 k (s2 k (s1 k hk)), k2, fun y hy => ?_⟩
        rcases List.mem_cons.1 hy with rfl | hy
        · exact ⟨l, e, k1 _ f2, k1 _ (by simp)⟩
        · exact k3 y hy

/-- Connect-the-dots for discrete noise gives the polygon through the exact curve at all multiples of the interval, if the range of outputs
shows all finite losses. -/
lemma dotsDiscrete_polygon {m : AdditiveNoise ℤ} {f : ℤ → ℝ} (hf : Faithful m Measure.count f) (hto : m.toReal = Int.castAddHom ℝ) {disc : ℝ}
    (hd : 0 < disc) (hg : GridOk disc m.samplingProb m.adj) {b : ℤ × ℤ} (hlu : b.1 ≤ b.2)
    (hcov : ∀ x (l : ℝ), m.privacyLoss x = .ok (l : EReal) → ∃ y, b.1 ≤ y ∧ y ≤ b.2 ∧ m.privacyLoss y = .ok (l : EReal))
    {pmf : Pmf} (hp : dotsDiscrete m b disc = .ok pmf) {P Q : Measure ℤ}
    (hP : P = upper (Measure.count.withDensity fun x => ENNReal.ofReal (f x)) m.sensitivity m.samplingProb m.adj)
    (hQ : Q = lower (Measure.count.withDensity fun x => ENNReal.ofReal (f x)) m.sensitivity m.samplingProb m.adj)
    {h : ℝ → ℝ} (hh : HsCurve P Q h) (ε : ℝ) : pmf.getDeltaForEpsilon ε = gridPolygon disc h ε := by
  have p1 := upper_prob hf
  have p2 := lower_prob hf
  subst hP hQ
  unfold dotsDiscrete at hp
  rw [bind_ok] at hp
  obtain ⟨E, hE, hp⟩ := hp
  rw [bind_ok] at hp
  obtain ⟨deltas, hdel, hp⟩ := hp
  have mem : ∀ x, x ∈ (PldCommon.pyRange b.1 (b.2 + 1)).reverse ↔ b.1 ≤ x ∧ x ≤ b.2 := by
    intro x
    rw [List.mem_reverse]
    unfold PldCommon.pyRange
    rw [List.mem_map]
    constructor
    · rintro ⟨i, hi, rfl⟩
      rw [List.mem_range] at hi
      constructor <;> omega
    · rintro ⟨h1, h2⟩
      exact ⟨(x - b.1).toNat, by rw [List.mem_range]; omega, by omega⟩
  obtain ⟨-, hinc, hall⟩ := roundEpsilons_cover hd _ _ _ hE List.Pairwise.nil (by
    rw [List.pairwise_reverse]
    unfold PldCommon.pyRange
    rw [List.pairwise_map]
    refine List.Pairwise.imp ?_ (List.pairwise_lt_range (n := (b.2 + 1 - b.1).toNat))
    intro i j hij L L' hL hL'
    refine privacyLoss_antitone hf hL' hL ?_
    rw [hto]
    simp only [Int.coe_castAddHom, Int.cast_le]
    omega) (.inl rfl)
  have cover : ∀ x (l : ℝ), m.privacyLoss x = .ok (l : EReal) → ⌊l / disc⌋ ∈ E ∧ ⌈l / disc⌉ ∈ E := by
    intro x l hl
    obtain ⟨y, y1, y2, hy⟩ := hcov x l hl
    obtain ⟨l', k1, k2⟩ := hall y ((mem y).2 ⟨y1, y2⟩)
    rw [hy, Except.ok.injEq, EReal.coe_eq_coe_iff] at k1
    subst k1
    exact k2
  have hne : E ≠ [] := by
    obtain ⟨l, -, k, -⟩ := hall b.1 ((mem _).2 ⟨le_rfl, hlu⟩)
    exact List.ne_nil_of_mem k
  obtain ⟨hlen, hspec⟩ := getDeltas_spec hdel
  have hval : deltas = E.map fun k : ℤ => h (k * disc) := by
    refine List.ext_getElem (by simp [hlen]) ?_
    intro i h1 h2
    rw [List.getElem_map]
    have hi : i < E.length := by rw [hlen]; exact h1
    have hmem : (E[i], deltas[i]) ∈ E.zip deltas := by
      rw [List.mem_iff_getElem]
      exact ⟨i, by simp [hi, h1], by simp⟩
    obtain ⟨d, g1, g2⟩ := getDelta_isHs hf (E[i] * disc) (by
      rw [Props.edge_eq]
      rcases hg with hg | hg
      · exact .inl hg
      · exact .inr (hg _))
    rw [hspec _ hmem, Except.ok.injEq] at g1
    simp only [] at g1
    rw [g1]
    exact g2.unique (hh _)
  rw [hval] at hp
  obtain ⟨c1, c2, c3⟩ := curve_linear hf hh
  have fl : ∀ l : ℝ, (⌊l / disc⌋ : ℝ) * disc ≤ l ∧ l ≤ (⌈l / disc⌉ : ℝ) * disc := by
    intro l
    have h1 := Int.floor_le (l / disc)
    have h2 := Int.le_ceil (l / disc)
    rw [le_div_iff₀ hd] at h1
    rw [div_le_iff₀ hd] at h2
    exact ⟨h1, h2⟩
  refine dots_sparse hh hd hne hp ?_ ?_ ?_ ε
  · intro pre x y post he
    by_cases hxy : y = x + 1
    · exact .inl hxy
    refine .inr (c1 _ _ fun z l hl => ?_)
    by_contra hc
    push Not at hc
    obtain ⟨k1, k2⟩ := cover z l hl
    rw [he] at hinc k1 k2
    rw [List.pairwise_append, List.pairwise_cons, List.pairwise_cons] at hinc
    obtain ⟨-, ⟨i1, i2, -⟩, i3⟩ := hinc
    have hlt := i1 y (by simp)
    have a1 : x ≤ ⌊l / disc⌋ := by rw [Int.le_floor, le_div_iff₀ hd]; exact hc.1.le
    have a2 : ⌊l / disc⌋ < y := by rw [Int.floor_lt, div_lt_iff₀ hd]; exact hc.2
    have a3 : x < ⌈l / disc⌉ := by rw [Int.lt_ceil, lt_div_iff₀ hd]; exact hc.1
    have a4 : ⌈l / disc⌉ ≤ y := by rw [Int.ceil_le, div_le_iff₀ hd]; exact hc.2.le
    have b1 : ⌊l / disc⌋ = x := by
      rcases List.mem_append.1 k1 with k | k
      · have := i3 _ k x (by simp); omega
      · rcases List.mem_cons.1 k with k | k
        · exact k
        · rcases List.mem_cons.1 k with k | k
          · omega
          · have := i2 _ k; omega
    have b2 : ⌈l / disc⌉ = y := by
      rcases List.mem_append.1 k2 with k | k
      · have := i3 _ k x (by simp); omega
      · rcases List.mem_cons.1 k with k | k
        · omega
        · rcases List.mem_cons.1 k with k | k
          · exact k
          · have := i2 _ k; omega
    have := Int.ceil_le_floor_add_one (l / disc)
    omega
  · intro x post he
    refine c2 _ fun z l hl => ?_
    obtain ⟨k1, -⟩ := cover z l hl
    rw [he] at hinc k1
    have hle : x ≤ ⌊l / disc⌋ := by
      rcases List.mem_cons.1 k1 with k | k
      · omega
      · have := (List.pairwise_cons.1 hinc).1 _ k; omega
    have hle' : (x : ℝ) ≤ ⌊l / disc⌋ := by exact_mod_cast hle
    exact (mul_le_mul_of_nonneg_right hle' hd.le).trans (fl l).1
  · intro pre x he
    refine c3 _ fun z l hl => ?_
    obtain ⟨-, k2⟩ := cover z l hl
    rw [he] at hinc k2
    have hle : ⌈l / disc⌉ ≤ x := by
      rcases List.mem_append.1 k2 with k | k
      · have := (List.pairwise_append.1 hinc).2.2 _ k x (by simp); omega
      · simp only [List.mem_singleton] at k
        omega
    have hle' : (⌈l / disc⌉ : ℝ) ≤ x := by exact_mod_cast hle
    exact (fl l).2.trans (mul_le_mul_of_nonneg_right hle' hd.le)

/-- The deltas of the PLD of subsampled discrete Laplace noise, with connect-the-dots. -/
theorem fromDiscreteLaplace_polygon {a disc q : ℝ} {s : ℤ} {p : Pld} (hp : fromDiscreteLaplace a s true disc q true = some (.ok p))
    (hd : 0 < disc) (hg : ∀ adj, GridOk disc q adj) {h : Adj → ℝ → ℝ}
    (hh : ∀ adj, HsCurve (upper (discreteLaplace a) s q adj) (lower (discreteLaplace a) s q adj) (h adj)) :
    (∀ ε : ℝ, p.remove.getDeltaForEpsilon ε = gridPolygon disc (h .remove) ε) ∧ ∀ ε : ℝ, p.add.getDeltaForEpsilon ε = gridPolygon disc (h .add) ε := by
  refine subsampled_both (C := fun adj pmf => ∀ ε : ℝ, pmf.getDeltaForEpsilon ε = gridPolygon disc (h adj) ε) hp ?_ ?_
  · intro adj pmf k
    rw [Option.some.injEq, bind_ok] at k
    obtain ⟨m, hm, k⟩ := k
    unfold createDiscrete at k
    rw [if_pos ⟨rfl, rfl⟩] at k
    obtain ⟨hto, hloss⟩ := mkDiscreteLaplace_eq hm
    obtain ⟨hf, e1, e2, e3, hs, ha⟩ := discreteLaplace_faithful hm
    refine dotsDiscrete_polygon hf hto hd (by rw [e2, e3]; exact hg adj) ?_ ?_ k ?_ ?_ (hh adj)
    · unfold dLaplaceBounds; rw [e1]; cases m.adj <;> simp only [] <;> omega
    · intro x l hl
      have key : ∃ y, (dLaplaceBounds m).1 ≤ y ∧ y ≤ (dLaplaceBounds m).2 ∧ dLaplaceLossNo a s adj y = dLaplaceLossNo a s adj x := by
        unfold dLaplaceBounds dLaplaceLossNo
        rw [e1, e3]
        cases adj
        · simp only []
          refine ⟨max 0 (min x s), le_max_left _ _, max_le (by omega) (min_le_right _ _), ?_⟩
          congr 2
          rcases le_total x 0 with g | g
          · rw [min_eq_left (by omega), max_eq_left g, abs_of_nonpos (show x - s ≤ 0 by omega), abs_of_nonpos g, abs_of_nonpos (by omega)]
            simp
          · rcases le_total x s with g' | g'
            · rw [min_eq_left g', max_eq_right g]
            · rw [min_eq_right g', max_eq_right (by omega), abs_of_nonneg (show 0 ≤ x - s by omega), abs_of_nonneg g, abs_of_pos hs]
              simp
        · simp only []
          refine ⟨min 0 (max x (-s)), le_min (by omega) (le_max_right _ _), min_le_left _ _, ?_⟩
          congr 2
          rcases le_total 0 x with g | g
          · rw [max_eq_left (by omega), min_eq_left g, abs_of_nonneg (show 0 ≤ x + s by omega), abs_of_nonneg g, abs_of_nonneg (show 0 ≤ 0 + s by omega)]
            simp
          · rcases le_total (-s) x with g' | g'
            · rw [max_eq_left g', min_eq_right g]
            · rw [max_eq_right g', min_eq_right (by omega), abs_of_nonpos (show x + s ≤ 0 by omega), abs_of_nonpos g, abs_neg, abs_of_pos hs]
              simp
      obtain ⟨y, y1, y2, hy⟩ := key
      refine ⟨y, y1, y2, ?_⟩
      rw [← hl]
      unfold AdditiveNoise.privacyLoss
      rw [hloss, hloss, hy]
    · rw [e1, e2, e3]; rfl
    · rw [e1, e2, e3]; rfl
  · rintro rfl pmf k ε
    rw [k ε, (curve_add_remove _ _ (hh .add)).unique (hh .remove)]

/-- The deltas of the PLD of subsampled discrete Gaussian noise, with connect-the-dots. -/
theorem fromDiscreteGaussian_polygon {σ disc q : ℝ} {s : ℤ} {bound : Option ℤ} {p : Pld}
    (hp : fromDiscreteGaussian σ s bound true disc q true = some (.ok p))
    (hd : 0 < disc) (hg : ∀ adj, GridOk disc q adj) {h : Adj → ℝ → ℝ}
    (hh : ∀ adj, HsCurve (upper (discreteGaussian σ (dgBound σ bound)) s q adj) (lower (discreteGaussian σ (dgBound σ bound)) s q adj) (h adj)) :
    (∀ ε : ℝ, p.remove.getDeltaForEpsilon ε = gridPolygon disc (h .remove) ε) ∧ ∀ ε : ℝ, p.add.getDeltaForEpsilon ε = gridPolygon disc (h .add) ε := by
  classical
  refine subsampled_both (C := fun adj pmf => ∀ ε : ℝ, pmf.getDeltaForEpsilon ε = gridPolygon disc (h adj) ε) hp ?_ ?_
  · intro adj pmf k
    rw [Option.some.injEq, bind_ok] at k
    obtain ⟨m, hm, k⟩ := k
    unfold createDiscrete at k
    rw [if_pos ⟨rfl, rfl⟩] at k
    obtain ⟨hto, hloss⟩ := mkDiscreteGaussian_eq hm
    obtain ⟨hf, e1, e2, e3, hs, hσ, hT⟩ := discreteGaussian_faithful hm
    refine dotsDiscrete_polygon hf hto hd (by rw [e2, e3]; exact hg adj) ?_ ?_ k ?_ ?_ (hh adj)
    · unfold dGaussianBounds dGaussianTail; rw [e1]; cases m.adj <;> simp only [] <;> split_ifs <;> omega
    · intro x l hl
      refine ⟨x, ?_, ?_, hl⟩
      all_goals
        have hr := privacyLoss_isLoss hf x
        rw [hl] at hr
        obtain ⟨u0, v0, -⟩ := hr
        have z : ∀ k, 0 < dgF σ (dgBound σ bound) k → -dgBound σ bound ≤ k ∧ k ≤ dgBound σ bound := by
          intro k hk
          unfold dgF at hk
          split_ifs at hk with g
          · exact Finset.mem_Icc.1 g
          · exact absurd hk (lt_irrefl _)
        unfold upperDens at u0
        unfold lowerDens at v0
        unfold dGaussianBounds dGaussianTail
        rw [e1, e3] at u0 v0 ⊢
        cases adj
        · simp only [] at u0 v0 ⊢
          have := z _ u0
          first
            | omega
            | split_ifs with g
              · rw [g] at v0
                simp only [sub_self, zero_mul, zero_add, one_mul] at v0
                have := z _ v0
                omega
              · omega
        · simp only [] at u0 v0 ⊢
          have := z _ v0
          first
            | omega
            | split_ifs with g
              · rw [g] at u0
                simp only [sub_self, zero_mul, zero_add, one_mul] at u0
                have := z _ u0
                omega
              · omega
    · rw [e1, e2, e3]; rfl
    · rw [e1, e2, e3]; rfl
  · rintro rfl pmf k ε
    rw [k ε, (curve_add_remove _ _ (hh .add)).unique (hh .remove)]

end Verif.Mech
