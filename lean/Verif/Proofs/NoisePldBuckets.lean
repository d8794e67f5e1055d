import Verif.Proofs.NoisePldDots

/-!
# Privacy-buckets PMFs of additive noise mechanisms

Both roundings are treated together: `Cmp true a b` is `a ≤ b` (pessimistic: the estimate `b` is an upper bound), `Cmp false a b`
is `b ≤ a`.
-/

namespace Verif.Mech
open Verif.Spec Verif.Pld Verif.PldPmf MeasureTheory

def Cmp (pess : Bool) (a b : ℝ) : Prop := if pess = true then a ≤ b else b ≤ a

lemma Cmp.add {pess : Bool} {a b c d : ℝ} (h1 : Cmp pess a b) (h2 : Cmp pess c d) : Cmp pess (a + c) (b + d) := by
  cases pess
  · exact add_le_add (show b ≤ a from h1) (show d ≤ c from h2)
  · exact add_le_add (show a ≤ b from h1) (show c ≤ d from h2)

lemma Cmp.refl (pess : Bool) (a : ℝ) : Cmp pess a a := by cases pess <;> exact le_refl a

section
variable {X : Type} [MeasurableSpace X] (P Q : Measure X) (ε : ℝ)

/-- Excess of `P` over `e^ε Q` on `A ∩ B`. -/
noncomputable def gain (A B : Set X) : ℝ := P.real (A ∩ B) - Real.exp ε * Q.real (A ∩ B)

/-- The sets used to compare: any set (upper bounds), an optimal one (lower bounds). -/
def Test (pess : Bool) (A : Set X) : Prop :=
  MeasurableSet A ∧ (pess = false → (∀ C, MeasurableSet C → C ⊆ A → Real.exp ε * Q.real C ≤ P.real C) ∧
    ∀ C, MeasurableSet C → C ⊆ Aᶜ → P.real C ≤ Real.exp ε * Q.real C)

variable {P Q ε} [IsFiniteMeasure P] [IsFiniteMeasure Q]

lemma gain_diff {A B B' : Set X} (hA : MeasurableSet A) (hB : MeasurableSet B) (h : B ⊆ B') :
    gain P Q ε A B' = gain P Q ε A B + gain P Q ε A (B' \ B) := by
  have h1 := measureReal_inter_add_sdiff (μ := P) (s := A ∩ B') hB
  have h2 := measureReal_inter_add_sdiff (μ := Q) (s := A ∩ B') hB
  have e1 : A ∩ B' ∩ B = A ∩ B := by rw [Set.inter_assoc, Set.inter_eq_right.2 h]
  have e2 : (A ∩ B') \ B = A ∩ (B' \ B) := by rw [Set.inter_sdiff_assoc]
  rw [e1, e2] at h1 h2
  unfold gain
  rw [← h1, ← h2]
  ring

lemma piece_upper {A B : Set X} (hA : MeasurableSet A) (hB : MeasurableSet B) {v : ℝ}
    (h : ∀ C, MeasurableSet C → C ⊆ B → P.real C ≤ Real.exp v * Q.real C) : gain P Q ε A B ≤ P.real B * hinge ε v := by
  have h1 := h (A ∩ B) (hA.inter hB) Set.inter_subset_right
  have hm : P.real (A ∩ B) ≤ P.real B := measureReal_mono Set.inter_subset_right
  have n1 : 0 ≤ P.real (A ∩ B) := measureReal_nonneg
  rw [hinge_coe]
  have h2 : gain P Q ε A B ≤ P.real (A ∩ B) * (1 - Real.exp (ε - v)) := by
    unfold gain
    have e : Real.exp (ε - v) * P.real (A ∩ B) ≤ Real.exp (ε - v) * (Real.exp v * Q.real (A ∩ B)) :=
      mul_le_mul_of_nonneg_left h1 (Real.exp_pos _).le
    rw [← mul_assoc, ← Real.exp_add, sub_add_cancel] at e
    linarith
  calc _ ≤ _ := h2
    _ ≤ P.real (A ∩ B) * max 0 (1 - Real.exp (ε - v)) := mul_le_mul_of_nonneg_left (le_max_right _ _) n1
    _ ≤ _ := mul_le_mul_of_nonneg_right hm (le_max_left _ _)

lemma gain_ge {A B : Set X} (hA : Test P Q ε false A) (hB : MeasurableSet B) :
    0 ≤ gain P Q ε A B ∧ P.real B - Real.exp ε * Q.real B ≤ gain P Q ε A B := by
  obtain ⟨hm, ht⟩ := hA
  obtain ⟨t1, t2⟩ := ht rfl
  have h1 := t1 (A ∩ B) (hm.inter hB) Set.inter_subset_left
  have h2 := t2 (B \ A) (hB.diff hm) fun x hx => hx.2
  have e1 := measureReal_inter_add_sdiff (μ := P) (s := B) hm
  have e2 := measureReal_inter_add_sdiff (μ := Q) (s := B) hm
  rw [Set.inter_comm] at e1 e2
  unfold gain
  constructor
  · linarith
  · rw [← e1, ← e2]; linarith

lemma piece_lower {A B : Set X} (hA : Test P Q ε false A) (hB : MeasurableSet B) {v : ℝ}
    (h : ∀ C, MeasurableSet C → C ⊆ B → Real.exp v * Q.real C ≤ P.real C) : P.real B * hinge ε v ≤ gain P Q ε A B := by
  obtain ⟨g0, g1⟩ := gain_ge hA hB
  rw [hinge_coe]
  rcases max_cases 0 (1 - Real.exp (ε - v)) with ⟨e, -⟩ | ⟨e, -⟩ <;> rw [e]
  · simpa using g0
  · refine le_trans ?_ g1
    have := mul_le_mul_of_nonneg_left (h B hB subset_rfl) (Real.exp_pos (ε - v)).le
    rw [← mul_assoc, ← Real.exp_add, sub_add_cancel] at this
    linarith

end

/-- What the proofs below use of the object `m` and of the output distributions `P`, `Q`. -/
structure LossPair {X : Type} [AddCommGroup X] [MeasurableSpace X] (m : AdditiveNoise X) (P Q : Measure X) : Prop where
  probP : IsProbabilityMeasure P
  probQ : IsProbabilityMeasure Q
  meas : Measurable m.toReal
  cdf : ∀ x, m.muUpperCdf x = P.real {y | ((m.toReal y : ℝ) : EReal) ≤ x}
  upper : ∀ (B : Set X) (v : ℝ), (∀ y ∈ B, ∀ L, m.privacyLoss y = .ok L → L ≤ v) →
    ∀ C, MeasurableSet C → C ⊆ B → P.real C ≤ Real.exp v * Q.real C
  lower : ∀ (B : Set X) (v : ℝ), (∀ y ∈ B, ∀ L, m.privacyLoss y = .ok L → (v : EReal) ≤ L) →
    ∀ C, MeasurableSet C → C ⊆ B → Real.exp v * Q.real C ≤ P.real C
  anti : ∀ {x x' L L'}, m.privacyLoss x = .ok L → m.privacyLoss x' = .ok L' → m.toReal x ≤ m.toReal x' → L' ≤ L
  opt : ∀ ε, ∃ A, Test P Q ε false A

section
variable {X : Type} [AddCommGroup X] [MeasurableSpace X] [MeasurableAdd X] {m : AdditiveNoise X} {ν : Measure X}
  [ν.IsAddRightInvariant] {f : X → ℝ}

omit [AddCommGroup X] [MeasurableAdd X] [ν.IsAddRightInvariant] in
lemma withDensity_le {p r : X → ℝ} (hp : Measurable p) (hr : Measurable r) (hr0 : ∀ x, 0 ≤ r x) {c : ℝ} (hc : 0 ≤ c)
    [IsFiniteMeasure (ν.withDensity fun x => ENNReal.ofReal (r x))] {C : Set X} (hC : MeasurableSet C) (h : ∀ x ∈ C, p x ≤ c * r x) :
    (ν.withDensity fun x => ENNReal.ofReal (p x)).real C ≤ c * (ν.withDensity fun x => ENNReal.ofReal (r x)).real C := by
  have : (ν.withDensity fun x => ENNReal.ofReal (p x)) C ≤ ENNReal.ofReal c * (ν.withDensity fun x => ENNReal.ofReal (r x)) C := by
    rw [withDensity_apply _ hC, withDensity_apply _ hC, ← lintegral_const_mul _ hr.ennreal_ofReal]
    refine setLIntegral_mono (hr.ennreal_ofReal.const_mul _) fun x hx => ?_
    rw [← ENNReal.ofReal_mul hc]
    exact ENNReal.ofReal_le_ofReal (h x hx)
  have := ENNReal.toReal_mono (ENNReal.mul_ne_top ENNReal.ofReal_ne_top (measure_ne_top _ C)) this
  rwa [ENNReal.toReal_mul, ENNReal.toReal_ofReal hc] at this

omit [AddCommGroup X] [MeasurableAdd X] [ν.IsAddRightInvariant] in
lemma withDensity_ge {p r : X → ℝ} (hp : Measurable p) (hr : Measurable r) {c : ℝ} (hc : 0 ≤ c)
    [IsFiniteMeasure (ν.withDensity fun x => ENNReal.ofReal (p x))] {C : Set X} (hC : MeasurableSet C) (h : ∀ x ∈ C, c * r x ≤ p x) :
    c * (ν.withDensity fun x => ENNReal.ofReal (r x)).real C ≤ (ν.withDensity fun x => ENNReal.ofReal (p x)).real C := by
  have : ENNReal.ofReal c * (ν.withDensity fun x => ENNReal.ofReal (r x)) C ≤ (ν.withDensity fun x => ENNReal.ofReal (p x)) C := by
    rw [withDensity_apply _ hC, withDensity_apply _ hC, ← lintegral_const_mul _ hr.ennreal_ofReal]
    refine setLIntegral_mono hp.ennreal_ofReal fun x hx => ?_
    rw [← ENNReal.ofReal_mul hc]
    exact ENNReal.ofReal_le_ofReal (h x hx)
  have := ENNReal.toReal_mono (measure_ne_top _ C) this
  rwa [ENNReal.toReal_mul, ENNReal.toReal_ofReal hc] at this

/-- The densities in terms of the loss. -/
lemma logRatio_le {p r v : ℝ} {res : Except Err EReal} (h : IsLogRatio p r res) (hv : ∀ L, res = .ok L → L ≤ (v : EReal)) :
    p ≤ Real.exp v * r := by
  cases res with
  | error e => obtain ⟨-, h1, h2⟩ := h; rw [h1, h2]; simp
  | ok L =>
    have hv := hv L rfl
    cases L using EReal.rec with
    | bot => rw [h.1]; exact mul_nonneg (Real.exp_pos _).le h.2.le
    | top => exact absurd hv (by simp)
    | coe l =>
      obtain ⟨h1, h2, h3⟩ := h
      have h4 : l ≤ v := EReal.coe_le_coe_iff.1 hv
      rw [h3] at h4
      have := Real.exp_le_exp.2 h4
      rwa [Real.exp_log (div_pos h1 h2), div_le_iff₀ h2] at this

lemma logRatio_ge {p r v : ℝ} {res : Except Err EReal} (h : IsLogRatio p r res) (hv : ∀ L, res = .ok L → (v : EReal) ≤ L) :
    Real.exp v * r ≤ p := by
  cases res with
  | error e => obtain ⟨-, h1, h2⟩ := h; rw [h1, h2]; simp
  | ok L => exact (isLogRatio_le h v).1 (hv L rfl)

lemma Faithful.lossPair (h : Faithful m ν f) :
    LossPair m (upper (ν.withDensity fun x => ENNReal.ofReal (f x)) m.sensitivity m.samplingProb m.adj)
      (lower (ν.withDensity fun x => ENNReal.ofReal (f x)) m.sensitivity m.samplingProb m.adj) := by
  have p1 := upper_prob h
  have p2 := lower_prob h
  refine ⟨p1, p2, h.inj, muUpperCdf_eq h, ?_, ?_, fun a b c => privacyLoss_antitone h a b c, ?_⟩
  all_goals rw [upper_eq h] at p1 ⊢; rw [lower_eq h] at p2 ⊢
  · intro B v hB C hC hCB
    exact withDensity_le (measurable_dens h).1 (measurable_dens h).2 (lowerDens_nonneg h) (Real.exp_pos v).le hC fun y hy =>
      logRatio_le (privacyLoss_isLoss h y) (hB y (hCB hy))
  · intro B v hB C hC hCB
    exact withDensity_ge (measurable_dens h).1 (measurable_dens h).2 (Real.exp_pos v).le hC fun y hy =>
      logRatio_ge (privacyLoss_isLoss h y) (hB y (hCB hy))
  · intro ε
    refine ⟨{y | Real.exp ε * lowerDens m f y ≤ upperDens m f y},
      measurableSet_le ((measurable_dens h).2.const_mul _) (measurable_dens h).1, fun _ => ⟨?_, ?_⟩⟩
    · intro C hC hCA
      exact withDensity_ge (measurable_dens h).1 (measurable_dens h).2 (Real.exp_pos ε).le hC fun y hy => hCA hy
    · intro C hC hCA
      exact withDensity_le (measurable_dens h).1 (measurable_dens h).2 (lowerDens_nonneg h) (Real.exp_pos ε).le hC fun y hy =>
        (not_le.1 (show ¬ (Real.exp ε * lowerDens m f y ≤ upperDens m f y) from hCA hy)).le

end

section
variable {X : Type} [AddCommGroup X] [MeasurableSpace X] {m : AdditiveNoise X} {P Q : Measure X} {ε : ℝ} {pess : Bool}

/-- The losses of the outputs in `B` are at most (pessimistic) or at least `v`. -/
def Bounds (pess : Bool) (m : AdditiveNoise X) (B : Set X) (v : ℝ) : Prop :=
  ∀ y ∈ B, ∀ L, m.privacyLoss y = .ok L → if pess = true then L ≤ (v : EReal) else (v : EReal) ≤ L

lemma LossPair.piece (h : LossPair m P Q) {A B : Set X} (hA : Test P Q ε pess A) (hB : MeasurableSet B) {v : ℝ} (hb : Bounds pess m B v) :
    Cmp pess (gain P Q ε A B) (P.real B * hinge ε v) := by
  have := h.probP
  have := h.probQ
  cases pess
  · exact piece_lower hA hB (h.lower B v fun y hy L hL => hb y hy L hL)
  · exact piece_upper hA.1 hB (h.upper B v fun y hy L hL => hb y hy L hL)

/-- Mass at infinite loss. -/
lemma LossPair.piece_top (h : LossPair m P Q) {A B : Set X} (hA : Test P Q ε pess A) (hB : MeasurableSet B)
    (hb : pess = false → ∀ y ∈ B, ∀ L, m.privacyLoss y = .ok L → L = ⊤) : Cmp pess (gain P Q ε A B) (P.real B) := by
  have := h.probP
  have := h.probQ
  cases pess
  · refine le_trans ?_ (gain_ge hA hB).2
    have hQ : Q.real B = 0 := by
      by_contra hne
      have hpos : 0 < Q.real B := lt_of_le_of_ne measureReal_nonneg (Ne.symm hne)
      have := h.lower B (Real.log (2 / Q.real B)) (fun y hy L hL => by rw [hb rfl y hy L hL]; exact le_top) B hB subset_rfl
      rw [Real.exp_log (by positivity), div_mul_cancel₀ _ hne] at this
      have h1 : P.real B ≤ 1 := measureReal_le_one
      linarith
    rw [hQ]; simp
  · show gain P Q ε A B ≤ P.real B
    unfold gain
    have h1 : P.real (A ∩ B) ≤ P.real B := measureReal_mono Set.inter_subset_right
    have h2 : 0 ≤ Real.exp ε * Q.real (A ∩ B) := mul_nonneg (Real.exp_pos _).le measureReal_nonneg
    linarith

/-- An estimate of the privacy loss distribution of `(P, Q)` by a PMF. -/
structure Approx (pess : Bool) (pmf : Pmf) (disc : ℝ) (P Q : Measure X) : Prop where
  wf : pmf.WF
  nonneg : pmf.NonNeg
  disc : pmf.disc = disc
  flag : pmf.pessimistic = pess
  mass : totalMass pmf ≤ 1
  massP : pess = true → totalMass pmf = 1
  bound : ∀ (ε : ℝ) A, Test P Q ε pess A → Cmp pess (gain P Q ε A Set.univ) (pmf.getDeltaForEpsilon ε)

lemma Approx.good {pmf : Pmf} {disc : ℝ} (h : Approx true pmf disc P Q) : Good pmf disc P Q := by
  refine ⟨h.wf, h.nonneg, h.disc, h.flag, h.massP rfl, ?_⟩
  intro ε S hS
  have : gain P Q ε S Set.univ ≤ pmf.getDeltaForEpsilon ε := h.bound ε S ⟨hS, fun h => absurd h (by simp)⟩
  unfold gain at this
  rw [Set.inter_univ] at this
  linarith

/-- An optimistic estimate is below every valid delta. -/
lemma Approx.optimistic {pmf : Pmf} {disc : ℝ} (h : Approx false pmf disc P Q) (hl : LossPair m P Q) {ε δ : ℝ} (hi : Indist P Q ε δ) :
    pmf.getDeltaForEpsilon ε ≤ δ := by
  obtain ⟨A, hA⟩ := hl.opt ε
  have h1 : pmf.getDeltaForEpsilon ε ≤ gain P Q ε A Set.univ := h.bound ε A hA
  have h2 := hi A hA.1
  unfold gain at h1
  rw [Set.inter_univ] at h1
  linarith

/-- Outputs at most `x`. -/
def below (m : AdditiveNoise X) (x : EReal) : Set X := {y | ((m.toReal y : ℝ) : EReal) ≤ x}

lemma LossPair.below_meas (h : LossPair m P Q) (x : EReal) : MeasurableSet (below m x) :=
  measurableSet_le (measurable_coe_real_ereal.comp h.meas) measurable_const

omit [MeasurableSpace X] in
lemma below_mono {x x' : EReal} (hx : x ≤ x') : below m x ⊆ below m x' := fun _ hy => le_trans hy hx

lemma LossPair.between (h : LossPair m P Q) {x x' : EReal} (hx : x ≤ x') :
    P.real (below m x' \ below m x) = m.muUpperCdf x' - m.muUpperCdf x := by
  have := h.probP
  rw [measureReal_sdiff (below_mono hx) (h.below_meas x), h.cdf, h.cdf]
  rfl

lemma LossPair.cdf_mono (h : LossPair m P Q) {x x' : EReal} (hx : x ≤ x') : m.muUpperCdf x ≤ m.muUpperCdf x' := by
  have := h.between hx
  have h2 : 0 ≤ P.real (below m x' \ below m x) := measureReal_nonneg
  linarith

/-- What is needed of the tails: outputs at most `a` or above `b`. -/
def TailOk (pess : Bool) (m : AdditiveNoise X) (P Q : Measure X) (masses : List (EReal × ℝ)) (disc : ℝ) (a b : EReal) : Prop :=
  ∃ d w, roundTail pess disc masses [] = .ok d ∧ d.keys.Nodup ∧ (∀ x ∈ d, 0 ≤ x.2) ∧ 0 ≤ infinityMassOf masses ∧
    infinityMassOf masses + finiteMass d = m.muUpperCdf a + w ∧ w ≤ 1 - m.muUpperCdf b ∧ (pess = true → w = 1 - m.muUpperCdf b) ∧
    ∀ ε A, Test P Q ε pess A → Cmp pess (gain P Q ε A (below m a) + gain P Q ε A (below m b)ᶜ)
      (hockeyStick (infinityMassOf masses) disc d ε)

/-- The PMF built from the tails and a dictionary for the middle part. -/
lemma LossPair.approx (h : LossPair m P Q) {d d' : PyDict} {inf disc w : ℝ} (hd : 0 < disc) {a b : EReal} (hab : a ≤ b)
    (hw1 : inf + finiteMass d = m.muUpperCdf a + w) (hw2 : w ≤ 1 - m.muUpperCdf b) (hw3 : pess = true → w = 1 - m.muUpperCdf b)
    (hinf : 0 ≤ inf)
    (htail : ∀ ε A, Test P Q ε pess A → Cmp pess (gain P Q ε A (below m a) + gain P Q ε A (below m b)ᶜ) (hockeyStick inf disc d ε))
    (hn : d'.keys.Nodup) (h0 : ∀ x ∈ d', 0 ≤ x.2) (hm : finiteMass d' = finiteMass d + (m.muUpperCdf b - m.muUpperCdf a))
    (hg : ∀ (ε : ℝ) A, Test P Q ε pess A → Cmp pess (gain P Q ε A (below m b) - gain P Q ε A (below m a))
      (expect d' (fun k => hinge ε (k * disc)) - expect d (fun k => hinge ε (k * disc)))) :
    ∃ pmf, createPmf d' disc inf pess = .ok pmf ∧ Approx pess pmf disc P Q := by
  have := h.probP
  have := h.probQ
  obtain ⟨pmf, k1, k2, k3, k4, k5, k6, k7, -⟩ := createPmf_ok (inf := inf) (pess := pess) hn hd
  have hmass : totalMass pmf = m.muUpperCdf b + w := by
    unfold totalMass
    have : finiteMass pmf.points = finiteMass d' := k6 _
    rw [k4, this, hm]; linarith
  refine ⟨pmf, k1, k2, k7 hinf h0, k3, k5, by rw [hmass]; linarith, fun hp => by rw [hmass, hw3 hp]; ring, ?_⟩
  intro ε A hA
  rw [Pmf.getDelta_eq_hs _ k2]
  unfold Pmf.hs hockeyStick
  rw [k3, k4, k6]
  have e := (htail ε A hA).add (hg ε A hA)
  have e1 : gain P Q ε A Set.univ = gain P Q ε A (below m b) + gain P Q ε A (below m b)ᶜ := by
    rw [gain_diff hA.1 (h.below_meas b) (Set.subset_univ _), ← Set.compl_eq_univ_sdiff]
  have e2 : gain P Q ε A Set.univ = gain P Q ε A (below m a) + gain P Q ε A (below m b)ᶜ + (gain P Q ε A (below m b) - gain P Q ε A (below m a)) := by
    rw [e1]; ring
  have e3 : inf + expect d' (fun k => hinge ε (k * disc)) = hockeyStick inf disc d ε +
      (expect d' (fun k => hinge ε (k * disc)) - expect d (fun k => hinge ε (k * disc))) := by
    unfold hockeyStick; ring
  rw [e2, e3]
  exact e

end

/-! ### Discrete noise -/

section discrete
variable {m : AdditiveNoise ℤ} {P Q : Measure ℤ} {pess : Bool} {disc : ℝ}

lemma pyRange_cons (lo : ℤ) (n : ℕ) : PldCommon.pyRange lo (lo + (n + 1 : ℕ)) = lo :: PldCommon.pyRange (lo + 1) (lo + 1 + n) := by
  have e1 : (lo + ((n + 1 : ℕ) : ℤ) - lo).toNat = n + 1 := by push_cast; omega
  have e2 : (lo + 1 + (n : ℤ) - (lo + 1)).toNat = n := by omega
  unfold PldCommon.pyRange
  rw [e1, e2, List.range_succ_eq_map, List.map_cons, List.map_map]
  simp only [Nat.cast_zero, add_zero, List.cons.injEq, true_and]
  refine List.map_congr_left fun i _ => ?_
  simp only [Function.comp, Nat.succ_eq_add_one]
  push_cast
  ring

lemma pyRange_nil (lo : ℤ) : PldCommon.pyRange lo (lo + (0 : ℕ)) = [] := by
  unfold PldCommon.pyRange
  simp

lemma roundDiv_bounds (hd : 0 < disc) {L : EReal} {r : ℤ} (h : roundDiv pess L disc = .ok r) :
    if pess = true then L ≤ (((r : ℝ) * disc : ℝ) : EReal) else ((((r : ℝ) * disc : ℝ)) : EReal) ≤ L := by
  unfold roundDiv at h
  cases L using EReal.rec with
  | bot =>
    cases pess
    · exact absurd (show (Except.error Err.overflowError : Except Err ℤ) = .ok r from h) (by simp)
    · exact absurd (show (Except.error Err.overflowError : Except Err ℤ) = .ok r from h) (by simp)
  | top =>
    cases pess
    · exact absurd (show (Except.error Err.overflowError : Except Err ℤ) = .ok r from h) (by simp)
    · exact absurd (show (Except.error Err.overflowError : Except Err ℤ) = .ok r from h) (by simp)
  | coe l =>
    cases pess
    · cases (Except.ok.inj (show Except.ok ⌊l / disc⌋ = Except.ok r from h))
      exact EReal.coe_le_coe_iff.2 ((le_div_iff₀ hd).1 (Int.floor_le _))
    · cases (Except.ok.inj (show Except.ok ⌈l / disc⌉ = Except.ok r from h))
      exact EReal.coe_le_coe_iff.2 ((div_le_iff₀ hd).1 (Int.le_ceil _))

lemma roundDiv_real (pess : Bool) (l disc : ℝ) : roundDiv pess (l : EReal) disc = .ok (roundFn pess (l / disc)) := by
  cases pess <;> rfl

variable (hto : m.toReal = Int.castAddHom ℝ)

include hto in
lemma single_eq (x : ℤ) : below m (((x : ℤ) : ℝ) : EReal) \ below m (((x - 1 : ℤ) : ℝ) : EReal) = {x} := by
  ext y
  unfold below
  rw [hto]
  simp only [Set.mem_sdiff, Set.mem_ofPred_eq, Set.mem_singleton_iff, EReal.coe_le_coe_iff, Int.coe_castAddHom, Int.cast_le]
  omega

include hto in
lemma addMasses_sound (h : LossPair m P Q) (hd : 0 < disc) : ∀ (n : ℕ) (lo : ℤ) (d d' : PyDict),
    addMasses m pess disc (PldCommon.pyRange lo (lo + n)) d = .ok d' → d.keys.Nodup → (∀ x ∈ d, 0 ≤ x.2) →
    d'.keys.Nodup ∧ (∀ x ∈ d', 0 ≤ x.2) ∧
    finiteMass d' = finiteMass d + (m.muUpperCdf (((lo + n - 1 : ℤ) : ℝ) : EReal) - m.muUpperCdf (((lo - 1 : ℤ) : ℝ) : EReal)) ∧
    ∀ (ε : ℝ) A, Test P Q ε pess A → Cmp pess (gain P Q ε A (below m (((lo + n - 1 : ℤ) : ℝ) : EReal)) -
      gain P Q ε A (below m (((lo - 1 : ℤ) : ℝ) : EReal)))
      (expect d' (fun k => hinge ε (k * disc)) - expect d (fun k => hinge ε (k * disc))) := by
  have := h.probP
  have := h.probQ
  intro n
  induction n with
  | zero =>
    intro lo d d' hr hn h0
    rw [pyRange_nil] at hr
    cases (Except.ok.inj (show Except.ok d = Except.ok d' from hr))
    refine ⟨hn, h0, ?_, ?_⟩
    · simp
    · intro ε A _
      simp only [Nat.cast_zero, add_zero, sub_self]
      exact Cmp.refl _ _
  | succ n ih =>
    intro lo d d' hr hn h0
    rw [pyRange_cons, addMasses, bind_ok] at hr
    obtain ⟨L, hL, hr⟩ := hr
    rw [bind_ok] at hr
    obtain ⟨r, hrd, hr⟩ := hr
    have hle : ((((lo - 1 : ℤ) : ℝ)) : EReal) ≤ (((lo : ℤ) : ℝ) : EReal) := by
      rw [EReal.coe_le_coe_iff, Int.cast_le]; omega
    have hbt := h.between hle
    have hnn : 0 ≤ m.muUpperCdf (((lo : ℤ) : ℝ) : EReal) - m.muUpperCdf (((lo - 1 : ℤ) : ℝ) : EReal) := by
      rw [← hbt]; exact measureReal_nonneg
    obtain ⟨g1, g2, g3, g4⟩ := ih (lo + 1) _ d' hr (PyDict.nodup_add hn _ _) (PyDict.add_nonneg h0 _ hnn)
    have e1 : lo + 1 + (n : ℤ) - 1 = lo + ((n + 1 : ℕ) : ℤ) - 1 := by push_cast; ring
    have e2 : lo + 1 - 1 = lo := by ring
    rw [e1, e2] at g3
    refine ⟨g1, g2, ?_, ?_⟩
    · rw [g3]
      unfold finiteMass
      rw [PyDict.expect_addK]
      ring
    · intro ε A hA
      have k := g4 ε A hA
      rw [e1, e2, PyDict.expect_addK] at k
      have hp := h.piece hA (B := {lo}) (v := r * disc) (measurableSet_singleton lo) (by
        intro y hy L' hL'
        rw [Set.mem_singleton_iff.1 hy, hL] at hL'
        cases hL'
        exact roundDiv_bounds hd hrd)
      rw [← single_eq hto lo, hbt] at hp
      have hgd := gain_diff (P := P) (Q := Q) (ε := ε) hA.1 (h.below_meas (((lo - 1 : ℤ) : ℝ) : EReal)) (below_mono (m := m) hle)
      have := hp.add k
      rw [show gain P Q ε A (below m (((lo + ((n + 1 : ℕ) : ℤ) - 1 : ℤ) : ℝ) : EReal)) - gain P Q ε A (below m (((lo - 1 : ℤ) : ℝ) : EReal)) =
        gain P Q ε A (below m (((lo : ℤ) : ℝ) : EReal) \ below m (((lo - 1 : ℤ) : ℝ) : EReal)) +
        (gain P Q ε A (below m (((lo + ((n + 1 : ℕ) : ℤ) - 1 : ℤ) : ℝ) : EReal)) - gain P Q ε A (below m (((lo : ℤ) : ℝ) : EReal))) by
          rw [hgd]; ring]
      convert this using 1
      ring

include hto in
lemma bucketsDiscrete_approx (h : LossPair m P Q) (hd : 0 < disc) {t : Tail ℤ} (hlu : t.lowerX ≤ t.upperX + 1)
    (ht : TailOk pess m P Q t.masses disc (((t.lowerX - 1 : ℤ) : ℝ) : EReal) (((t.upperX : ℤ) : ℝ) : EReal)) {pmf : Pmf}
    (hp : bucketsDiscrete m t pess disc = .ok pmf) : Approx pess pmf disc P Q := by
  obtain ⟨d, w, t1, t2, t3, t4, t5, t6, t7, t8⟩ := ht
  unfold bucketsDiscrete at hp
  rw [t1] at hp
  rw [bind_ok] at hp
  obtain ⟨d0, hd0, hp⟩ := hp
  cases hd0
  rw [bind_ok] at hp
  obtain ⟨d', hd', hp⟩ := hp
  obtain ⟨n, hn⟩ : ∃ n : ℕ, t.upperX + 1 = t.lowerX + n := ⟨(t.upperX + 1 - t.lowerX).toNat, by omega⟩
  rw [hn] at hd'
  obtain ⟨g1, g2, g3, g4⟩ := addMasses_sound hto h hd n _ _ _ hd' t2 t3
  have e : t.lowerX + n - 1 = t.upperX := by omega
  rw [e] at g3 g4
  obtain ⟨pmf', k1, k2⟩ := h.approx hd (by rw [EReal.coe_le_coe_iff, Int.cast_le]; omega) t5 t6 t7 t4 t8 g1 g2 g3 g4
  rw [hp] at k1
  cases k1
  exact k2

lemma addMasses_accept : ∀ (xs : List ℤ) (d : PyDict), (∀ x ∈ xs, ∃ l : ℝ, m.privacyLoss x = .ok (l : EReal)) →
    ∃ d', addMasses m pess disc xs d = .ok d' := by
  intro xs
  induction xs with
  | nil => intro d _; exact ⟨d, rfl⟩
  | cons x xs ih =>
    intro d hl
    obtain ⟨l, hx⟩ := hl x (by simp)
    rw [addMasses, hx]
    show ∃ d', (roundDiv pess (l : EReal) disc >>= fun r => addMasses m pess disc xs _) = _
    rw [roundDiv_real]
    exact ih _ fun x hx => hl x (by simp [hx])

include hto in
lemma bucketsDiscrete_accept (h : LossPair m P Q) (hd : 0 < disc) {t : Tail ℤ} (hlu : t.lowerX ≤ t.upperX + 1)
    (ht : TailOk pess m P Q t.masses disc (((t.lowerX - 1 : ℤ) : ℝ) : EReal) (((t.upperX : ℤ) : ℝ) : EReal))
    (hl : ∀ x, t.lowerX ≤ x → x ≤ t.upperX → ∃ l : ℝ, m.privacyLoss x = .ok (l : EReal)) :
    ∃ pmf, bucketsDiscrete m t pess disc = .ok pmf := by
  obtain ⟨d, w, t1, t2, t3, t4, t5, t6, t7, t8⟩ := ht
  obtain ⟨d', hd'⟩ := addMasses_accept (m := m) (pess := pess) (disc := disc) (PldCommon.pyRange t.lowerX (t.upperX + 1)) d (by
    intro x hx
    unfold PldCommon.pyRange at hx
    obtain ⟨i, hi, rfl⟩ := List.mem_map.1 hx
    rw [List.mem_range] at hi
    exact hl _ (by omega) (by omega))
  obtain ⟨n, hn⟩ : ∃ n : ℕ, t.upperX + 1 = t.lowerX + n := ⟨(t.upperX + 1 - t.lowerX).toNat, by omega⟩
  have hd2 := hd'
  rw [hn] at hd2
  obtain ⟨g1, -⟩ := addMasses_sound hto h hd n _ _ _ hd2 t2 t3
  obtain ⟨pmf, k1, -⟩ := createPmf_ok (inf := infinityMassOf t.masses) (pess := pess) g1 hd
  refine ⟨pmf, ?_⟩
  unfold bucketsDiscrete
  rw [t1]
  show (addMasses m pess disc (PldCommon.pyRange t.lowerX (t.upperX + 1)) d >>= fun d => createPmf d disc (infinityMassOf t.masses) pess) = _
  rw [hd']
  exact k1

end discrete

/-! ### Continuous noise -/

section continuous
variable {m : AdditiveNoise ℝ} {P Q : Measure ℝ} {pess : Bool} {disc : ℝ}

/-- The buckets appended by the loop: consecutive intervals up to `u`, whose losses are in the interval given by the key. -/
def Chain (m : AdditiveNoise ℝ) (disc : ℝ) (u : EReal) : EReal → List (EReal × ℤ) → Prop
  | x, [] => x = u
  | x, (x', r) :: l => x ≤ x' ∧
    (∀ y ∈ below m x' \ below m x, ∀ L, m.privacyLoss y = .ok L → ((disc * r : ℝ) : EReal) ≤ L ∧ L < ((disc * (r + 1) : ℝ) : EReal)) ∧
    Chain m disc u x' l

lemma Chain.le {u : EReal} : ∀ {l : List (EReal × ℤ)} {x : EReal}, Chain m disc u x l → x ≤ u := by
  intro l
  induction l with
  | nil => intro x h; exact le_of_eq h
  | cons a l ih => intro x h; exact h.1.trans (ih h.2.2)

lemma roundFn_half (pess : Bool) (r : ℤ) : roundFn pess ((r : ℝ) + 0.5) = if pess = true then r + 1 else r := by
  cases pess
  · show ⌊(r : ℝ) + 0.5⌋ = r
    rw [Int.floor_eq_iff]
    constructor <;> linarith
  · show ⌈(r : ℝ) + 0.5⌉ = r + 1
    rw [Int.ceil_eq_iff]
    push_cast
    constructor <;> linarith

lemma addBuckets_sound (h : LossPair m P Q) {u : EReal} : ∀ (l : List (EReal × ℤ)) (x : EReal) (d : PyDict),
    Chain m disc u x l → d.keys.Nodup → (∀ x ∈ d, 0 ≤ x.2) →
    (addBuckets m.muUpperCdf pess x l d).keys.Nodup ∧ (∀ y ∈ addBuckets m.muUpperCdf pess x l d, 0 ≤ y.2) ∧
    finiteMass (addBuckets m.muUpperCdf pess x l d) = finiteMass d + (m.muUpperCdf u - m.muUpperCdf x) ∧
    ∀ (ε : ℝ) A, Test P Q ε pess A → Cmp pess (gain P Q ε A (below m u) - gain P Q ε A (below m x))
      (expect (addBuckets m.muUpperCdf pess x l d) (fun k => hinge ε (k * disc)) - expect d (fun k => hinge ε (k * disc))) := by
  have := h.probP
  have := h.probQ
  intro l
  induction l with
  | nil =>
    intro x d hc hn h0
    have hc : x = u := hc
    subst hc
    refine ⟨hn, h0, ?_, ?_⟩
    · simp [addBuckets]
    · intro ε A _
      simp only [addBuckets, sub_self]
      exact Cmp.refl _ _
  | cons a l ih =>
    obtain ⟨x', r⟩ := a
    intro x d hc hn h0
    obtain ⟨c1, c2, c3⟩ := hc
    have hbt := h.between c1
    have hnn : 0 ≤ m.muUpperCdf x' - m.muUpperCdf x := by rw [← hbt]; exact measureReal_nonneg
    obtain ⟨g1, g2, g3, g4⟩ := ih x' (d.add (roundFn pess ((r : ℝ) + 0.5)) (m.muUpperCdf x' - m.muUpperCdf x)) c3
      (PyDict.nodup_add hn _ _) (PyDict.add_nonneg h0 _ hnn)
    refine ⟨g1, g2, ?_, ?_⟩
    · rw [addBuckets, g3]
      unfold finiteMass
      rw [PyDict.expect_addK]
      ring
    · intro ε A hA
      have k := g4 ε A hA
      rw [PyDict.expect_addK] at k
      have hp := h.piece hA (B := below m x' \ below m x) (v := roundFn pess ((r : ℝ) + 0.5) * disc)
        ((h.below_meas x').diff (h.below_meas x)) (by
        intro y hy L hL
        obtain ⟨b1, b2⟩ := c2 y hy L hL
        rw [roundFn_half, mul_comm]
        cases pess
        · exact b1
        · simpa using b2.le)
      rw [hbt] at hp
      have hgd := gain_diff (P := P) (Q := Q) (ε := ε) hA.1 (h.below_meas x) (below_mono (m := m) c1)
      have := hp.add k
      rw [show gain P Q ε A (below m u) - gain P Q ε A (below m x) =
        gain P Q ε A (below m x' \ below m x) + (gain P Q ε A (below m u) - gain P Q ε A (below m x')) by rw [hgd]; ring]
      rw [addBuckets]
      convert this using 1
      ring

/-- All that the loop needs to know about the loss and its inverse. -/
structure LoopOk (m : AdditiveNoise ℝ) (disc : ℝ) : Prop where
  idReal : m.toReal = AddMonoidHom.id ℝ
  fin : ∀ y, ∃ l : ℝ, m.privacyLoss y = .ok (l : EReal)
  inv : ∀ (k : ℤ) x, m.inversePrivacyLoss (disc * k) = .ok x →
    ∀ (y : ℝ) L, m.privacyLoss y = .ok L → (((disc * k : ℝ) : EReal) ≤ L ↔ (y : EReal) ≤ x)
  noerr : ∀ (k : ℤ) y1 y2 L1 L2, m.privacyLoss y1 = .ok L1 → m.privacyLoss y2 = .ok L2 → L1 ≤ ((disc * k : ℝ) : EReal) →
    ((disc * k : ℝ) : EReal) ≤ L2 → ∃ x, m.inversePrivacyLoss (disc * k) = .ok x

lemma LoopOk.mem_below (ho : LoopOk m disc) (y : ℝ) (x : EReal) : y ∈ below m x ↔ (y : EReal) ≤ x := by
  unfold below
  rw [ho.idReal]
  rfl

/-- One step of the loop. -/
lemma loop_step (ho : LoopOk m disc) (hd : 0 < disc) (h : LossPair m P Q) {u : ℝ} {Lu : EReal} (hu : m.privacyLoss u = .ok Lu)
    {x : EReal} {rd : ℤ} (i1 : ∀ (y : ℝ) L, m.privacyLoss y = .ok L → (y : EReal) ≤ x → ((disc * rd : ℝ) : EReal) ≤ L)
    (hlt : ¬ ((disc * rd : ℝ) : EReal) ≤ Lu) {x' : EReal} (hx' : m.inversePrivacyLoss (disc * rd) = .ok x') :
    x ≤ x' ∧ x' < u ∧ (∀ (y : ℝ) L, m.privacyLoss y = .ok L → (y : EReal) ≤ x' → ((disc * rd : ℝ) : EReal) ≤ L) ∧
      ∀ (y : ℝ) L, m.privacyLoss y = .ok L → x' < (y : EReal) → L < ((disc * rd : ℝ) : EReal) := by
  have hinv := ho.inv rd x' hx'
  refine ⟨?_, ?_, fun y L hL hy => (hinv y L hL).2 hy, fun y L hL hy => ?_⟩
  · by_contra hc
    obtain ⟨y, y1, y2⟩ := EReal.lt_iff_exists_real_btwn.1 (not_le.1 hc)
    obtain ⟨l, hl⟩ := ho.fin y
    exact absurd ((hinv y _ hl).1 (i1 y _ hl y2.le)) (not_le.2 y1)
  · by_contra hc
    exact hlt ((hinv u _ hu).2 (not_lt.1 hc))
  · by_contra hc
    exact absurd ((hinv y L hL).1 (not_lt.1 hc)) (not_le.2 hy)

lemma loop_sound (ho : LoopOk m disc) (hd : 0 < disc) (h : LossPair m P Q) {u : ℝ} {Lu : EReal} (hu : m.privacyLoss u = .ok Lu) :
    ∀ (fuel : ℕ) (x : EReal) (rd : ℤ) (l : List (EReal × ℤ)),
    bucketLoop m.inversePrivacyLoss disc u Lu fuel x rd = some (.ok l) → x ≤ u →
    (∀ (y : ℝ) L, m.privacyLoss y = .ok L → (y : EReal) ≤ x → ((disc * rd : ℝ) : EReal) ≤ L) →
    (∀ (y : ℝ) L, m.privacyLoss y = .ok L → x < (y : EReal) → L < ((disc * (rd + 1) : ℝ) : EReal)) → Chain m disc u x l := by
  intro fuel
  induction fuel with
  | zero =>
    intro x rd l hl hx i1 i2
    unfold bucketLoop at hl
    by_cases hc : x < (u : EReal)
    · rw [if_pos hc] at hl; simp at hl
    · rw [if_neg hc] at hl
      simp only [Option.some.injEq, Except.ok.injEq] at hl
      subst hl
      exact le_antisymm hx (not_lt.1 hc)
  | succ fuel ih =>
    intro x rd l hl hx i1 i2
    unfold bucketLoop at hl
    by_cases hc : x < (u : EReal)
    swap
    · rw [if_neg hc] at hl
      simp only [Option.some.injEq, Except.ok.injEq] at hl
      subst hl
      exact le_antisymm hx (not_lt.1 hc)
    rw [if_pos hc] at hl
    simp only [] at hl
    by_cases hle : ((disc * rd : ℝ) : EReal) ≤ Lu
    · rw [if_pos hle] at hl
      simp only [] at hl
      have hstop : bucketLoop m.inversePrivacyLoss disc u Lu fuel u (rd - 1) = some (.ok []) := by
        unfold bucketLoop
        rw [if_neg (lt_irrefl _)]
      rw [hstop] at hl
      simp only [Option.map_some, Except.map, Option.some.injEq, Except.ok.injEq] at hl
      subst hl
      refine ⟨hx, ?_, rfl⟩
      intro y hy L hL
      have hy1 := (ho.mem_below y _).1 hy.1
      have hy2 : x < (y : EReal) := not_le.1 fun hn => hy.2 ((ho.mem_below y _).2 hn)
      refine ⟨hle.trans (h.anti hL hu ?_), i2 y L hL hy2⟩
      rw [ho.idReal]
      exact EReal.coe_le_coe_iff.1 hy1
    · rw [if_neg hle] at hl
      cases hx' : m.inversePrivacyLoss (disc * rd) with
      | error e => rw [hx'] at hl; simp at hl
      | ok x' =>
        rw [hx'] at hl
        simp only [] at hl
        obtain ⟨s1, s2, s3, s4⟩ := loop_step ho hd h hu i1 hle hx'
        cases hrec : bucketLoop m.inversePrivacyLoss disc u Lu fuel x' (rd - 1) with
        | none => rw [hrec] at hl; simp at hl
        | some res =>
          cases res with
          | error e => rw [hrec] at hl; simp [Except.map] at hl
          | ok l' =>
            rw [hrec] at hl
            simp only [Option.map_some, Except.map, Option.some.injEq, Except.ok.injEq] at hl
            subst hl
            refine ⟨s1, ?_, ih x' (rd - 1) l' hrec s2.le ?_ ?_⟩
            · intro y hy L hL
              have hy1 := (ho.mem_below y _).1 hy.1
              have hy2 : x < (y : EReal) := not_le.1 fun hn => hy.2 ((ho.mem_below y _).2 hn)
              exact ⟨s3 y L hL hy1, i2 y L hL hy2⟩
            · intro y L hL hy
              refine le_trans (EReal.coe_le_coe_iff.2 ?_) (s3 y L hL hy)
              push_cast
              nlinarith
            · intro y L hL hy
              convert s4 y L hL hy using 2
              push_cast
              ring

lemma loop_accept (ho : LoopOk m disc) (hd : 0 < disc) (h : LossPair m P Q) {u lo : ℝ} {Lu : EReal} (hu : m.privacyLoss u = .ok Lu) :
    ∀ (n k : ℕ) (x : EReal) (rd : ℤ), ((disc * (rd - n) : ℝ) : EReal) ≤ Lu → (lo : EReal) ≤ x →
    (∀ (y : ℝ) L, m.privacyLoss y = .ok L → (y : EReal) ≤ x → ((disc * rd : ℝ) : EReal) ≤ L) →
    ∃ l, bucketLoop m.inversePrivacyLoss disc u Lu (n + k + 1) x rd = some (.ok l) := by
  intro n
  induction n with
  | zero =>
    intro k x rd hn hlo i1
    unfold bucketLoop
    by_cases hc : x < (u : EReal)
    swap
    · exact ⟨[], by rw [if_neg hc]⟩
    have hle : ((disc * rd : ℝ) : EReal) ≤ Lu := by simpa using hn
    have hstop : bucketLoop m.inversePrivacyLoss disc u Lu (0 + k) u (rd - 1) = some (.ok []) := by
      unfold bucketLoop
      rw [if_neg (lt_irrefl _)]
    refine ⟨[((u : EReal), rd)], ?_⟩
    rw [if_pos hc]
    simp only []
    rw [if_pos hle]
    simp only []
    rw [hstop]
    rfl
  | succ n ih =>
    intro k x rd hn hlo i1
    unfold bucketLoop
    by_cases hc : x < (u : EReal)
    swap
    · exact ⟨[], by rw [if_neg hc]⟩
    rw [if_pos hc]
    simp only []
    by_cases hle : ((disc * rd : ℝ) : EReal) ≤ Lu
    · have hstop : bucketLoop m.inversePrivacyLoss disc u Lu (n + 1 + k) u (rd - 1) = some (.ok []) := by
        unfold bucketLoop
        rw [if_neg (lt_irrefl _)]
      refine ⟨[((u : EReal), rd)], ?_⟩
      rw [if_pos hle]
      simp only []
      rw [hstop]
      rfl
    · rw [if_neg hle]
      obtain ⟨l0, hl0⟩ := ho.fin lo
      obtain ⟨x', hx'⟩ := ho.noerr rd u lo Lu l0 hu hl0 (not_le.1 hle).le (i1 lo _ hl0 hlo)
      obtain ⟨s1, s2, s3, s4⟩ := loop_step ho hd h hu i1 hle hx'
      obtain ⟨l, hl⟩ := ih k x' (rd - 1) (by convert hn using 2; push_cast; ring) (hlo.trans s1) (by
        intro y L hL hy
        refine le_trans (EReal.coe_le_coe_iff.2 ?_) (s3 y L hL hy)
        push_cast
        nlinarith)
      rw [hx']
      simp only []
      rw [show n + 1 + k = n + k + 1 by ring, hl]
      exact ⟨_, rfl⟩

lemma start_inv (ho : LoopOk m disc) (hd : 0 < disc) (h : LossPair m P Q) {lo l : ℝ} (hl : m.privacyLoss lo = .ok (l : EReal)) :
    (∀ (y : ℝ) L, m.privacyLoss y = .ok L → (y : EReal) ≤ (lo : EReal) → ((disc * ⌊l / disc⌋ : ℝ) : EReal) ≤ L) ∧
    (∀ (y : ℝ) L, m.privacyLoss y = .ok L → (lo : EReal) < (y : EReal) → L < ((disc * (⌊l / disc⌋ + 1) : ℝ) : EReal)) := by
  constructor
  · intro y L hL hy
    have h1 : (l : EReal) ≤ L := h.anti hL hl (by rw [ho.idReal]; exact EReal.coe_le_coe_iff.1 hy)
    refine le_trans (EReal.coe_le_coe_iff.2 ?_) h1
    have := (le_div_iff₀ hd).1 (Int.floor_le (l / disc))
    linarith
  · intro y L hL hy
    have h1 : L ≤ (l : EReal) := h.anti hl hL (by rw [ho.idReal]; exact (EReal.coe_lt_coe_iff.1 hy).le)
    refine lt_of_le_of_lt h1 (EReal.coe_lt_coe_iff.2 ?_)
    have := (div_lt_iff₀ hd).1 (Int.lt_floor_add_one (l / disc))
    linarith

lemma bucketsContinuous_eq (ho : LoopOk m disc) {t : Tail ℝ} {d : PyDict} (hd : roundTail pess disc t.masses [] = .ok d) {l lu : ℝ}
    (hl : m.privacyLoss t.lowerX = .ok (l : EReal)) (hu : m.privacyLoss t.upperX = .ok (lu : EReal)) (fuel : ℕ) :
    bucketsContinuous fuel m t pess disc =
      (bucketLoop m.inversePrivacyLoss disc (t.upperX : EReal) lu fuel (t.lowerX : EReal) ⌊l / disc⌋).map fun r => r >>= fun l =>
        createPmf (addBuckets m.muUpperCdf pess (t.lowerX : EReal) l d) disc (infinityMassOf t.masses) pess := by
  unfold bucketsContinuous
  rw [hd, hl, hu]
  rfl

lemma bucketsContinuous_approx (ho : LoopOk m disc) (h : LossPair m P Q) (hd : 0 < disc) {t : Tail ℝ} (hlu : t.lowerX ≤ t.upperX)
    (ht : TailOk pess m P Q t.masses disc (t.lowerX : EReal) (t.upperX : EReal)) {fuel : ℕ} {pmf : Pmf}
    (hp : bucketsContinuous fuel m t pess disc = some (.ok pmf)) : Approx pess pmf disc P Q := by
  obtain ⟨d, w, t1, t2, t3, t4, t5, t6, t7, t8⟩ := ht
  obtain ⟨l, hl⟩ := ho.fin t.lowerX
  obtain ⟨lu, hu⟩ := ho.fin t.upperX
  rw [bucketsContinuous_eq ho t1 hl hu] at hp
  cases hloop : bucketLoop m.inversePrivacyLoss disc (t.upperX : EReal) lu fuel (t.lowerX : EReal) ⌊l / disc⌋ with
  | none => rw [hloop] at hp; simp at hp
  | some res =>
    rw [hloop, Option.map_some, Option.some.injEq, bind_ok] at hp
    obtain ⟨ls, rfl, hp⟩ := hp
    have hle : (t.lowerX : EReal) ≤ (t.upperX : EReal) := EReal.coe_le_coe_iff.2 hlu
    obtain ⟨i1, i2⟩ := start_inv ho hd h hl
    have hc := loop_sound ho hd h hu fuel _ _ _ hloop hle i1 i2
    obtain ⟨g1, g2, g3, g4⟩ := addBuckets_sound (pess := pess) h ls _ d hc t2 t3
    obtain ⟨pmf', k1, k2⟩ := h.approx hd hle t5 t6 t7 t4 t8 g1 g2 g3 g4
    rw [hp] at k1
    cases k1
    exact k2

lemma bucketsContinuous_accept (ho : LoopOk m disc) (h : LossPair m P Q) (hd : 0 < disc) {t : Tail ℝ} (hlu : t.lowerX ≤ t.upperX)
    (ht : TailOk pess m P Q t.masses disc (t.lowerX : EReal) (t.upperX : EReal)) :
    ∃ N, ∀ fuel, N < fuel → ∃ pmf, bucketsContinuous fuel m t pess disc = some (.ok pmf) := by
  obtain ⟨d, w, t1, t2, t3, t4, t5, t6, t7, t8⟩ := ht
  obtain ⟨l, hl⟩ := ho.fin t.lowerX
  obtain ⟨lu, hu⟩ := ho.fin t.upperX
  obtain ⟨i1, i2⟩ := start_inv ho hd h hl
  have hle : (t.lowerX : EReal) ≤ (t.upperX : EReal) := EReal.coe_le_coe_iff.2 hlu
  refine ⟨(⌊l / disc⌋ - ⌊lu / disc⌋).toNat, fun fuel hfuel => ?_⟩
  obtain ⟨k, rfl⟩ : ∃ k, fuel = (⌊l / disc⌋ - ⌊lu / disc⌋).toNat + k + 1 := ⟨fuel - 1 - (⌊l / disc⌋ - ⌊lu / disc⌋).toNat, by omega⟩
  obtain ⟨ls, hls⟩ := loop_accept ho hd h (lo := t.lowerX) hu (⌊l / disc⌋ - ⌊lu / disc⌋).toNat k (t.lowerX : EReal) ⌊l / disc⌋ (by
    refine EReal.coe_le_coe_iff.2 ?_
    have h1 : (((⌊l / disc⌋ - ⌊lu / disc⌋ : ℤ)) : ℝ) ≤ (((⌊l / disc⌋ - ⌊lu / disc⌋).toNat : ℕ) : ℝ) := by
      exact_mod_cast Int.self_le_toNat _
    push_cast at h1
    have h2 := (le_div_iff₀ hd).1 (Int.floor_le (lu / disc))
    nlinarith) le_rfl i1
  have hc := loop_sound ho hd h hu _ _ _ _ hls hle i1 i2
  obtain ⟨g1, g2, g3, g4⟩ := addBuckets_sound (pess := pess) h ls _ d hc t2 t3
  obtain ⟨pmf, k1, k2⟩ := h.approx hd hle t5 t6 t7 t4 t8 g1 g2 g3 g4
  refine ⟨pmf, ?_⟩
  rw [bucketsContinuous_eq ho t1 hl hu, hls]
  exact congrArg some k1

end continuous

end Verif.Mech
