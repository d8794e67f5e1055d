import Verif.Proofs.ConnectDotsGap

/-!
# C20: connect-the-dots

`eps.zip deltas` are the dots: a dot `(k, d)` says "delta `d` at epsilon `k * disc`".
-/

namespace Verif.Props
open Verif Verif.Spec Verif.PldPmf MeasureTheory

/-- **C20 (arguments).** The constructor succeeds exactly on non-empty lists of equal length, with strictly increasing
epsilons and non-increasing deltas in [0,1]; otherwise it raises `ValueError`. The result is pessimistic, has non-negative
masses and the requested interval. -/
theorem C20_accepts (disc : ℝ) (hd : 0 < disc) (eps : List ℤ) (deltas : List ℝ) :
    (eps.length = deltas.length ∧ eps ≠ [] ∧ eps.Pairwise (· < ·) ∧ (∀ d ∈ deltas, 0 ≤ d ∧ d ≤ 1) ∧ deltas.Pairwise (· ≥ ·) →
      ∃ m, connectDots disc eps deltas = .ok m ∧ m.WF ∧ m.NonNeg ∧ m.disc = disc ∧ m.pessimistic = true) ∧
    (¬ (eps.length = deltas.length ∧ eps ≠ [] ∧ eps.Pairwise (· < ·) ∧ (∀ d ∈ deltas, 0 ≤ d ∧ d ≤ 1) ∧
      deltas.Pairwise (· ≥ ·)) → connectDots disc eps deltas = .error .valueError) := by
  obtain ⟨h1, h2⟩ := connectDots_ok_iff hd eps deltas
  constructor
  · rintro ⟨a, b, c, d, e⟩
    obtain ⟨m, g, g1, g2, g3, g4, g5, _⟩ := h1 ⟨a, b, c, d, e⟩
    exact ⟨m, g, g1, g5, g2, g4⟩
  · intro h
    exact h2 fun k => h ⟨k.len, k.ne, k.incr, k.range, k.anti⟩

lemma dots_ok {disc : ℝ} (hd : 0 < disc) {eps : List ℤ} {deltas : List ℝ} {m : Pmf}
    (hm : connectDots disc eps deltas = .ok m) : DotsOk eps deltas ∧ m.WF ∧ m.disc = disc ∧
      m.infinityMass = lastD (eps.zip deltas) ∧
      (∀ φ, expect m.points φ = expect ((raw disc 0 1 (eps.zip deltas)).map fun x => (x.1, max 0 x.2)) φ) := by
  obtain ⟨h1, h2⟩ := connectDots_ok_iff hd eps deltas
  have hok : DotsOk eps deltas := by
    by_contra hc; rw [h2 hc] at hm; simp at hm
  obtain ⟨m', g, g1, g2, g3, g4, g5, g6⟩ := h1 hok
  rw [hm] at g; cases g
  exact ⟨hok, g1, g2, g3, g6⟩

lemma rawHs_le_delta {disc : ℝ} (hd : 0 < disc) {eps : List ℤ} {deltas : List ℝ} {m : Pmf}
    (hm : connectDots disc eps deltas = .ok m) (ε : ℝ) :
    rawHs disc 0 1 (eps.zip deltas) ε ≤ m.getDeltaForEpsilon ε := by
  obtain ⟨hok, g1, g2, g3, g6⟩ := dots_ok hd hm
  rw [Pmf.getDelta_eq_hs _ g1]
  unfold Pmf.hs hockeyStick rawHs
  rw [g6, g3, g2]
  refine add_le_add le_rfl ?_
  generalize raw disc 0 1 (eps.zip deltas) = R
  induction R with
  | nil => simp [expect]
  | cons a R ih =>
    obtain ⟨k, v⟩ := a
    rw [List.map_cons, expect_cons, expect_cons]
    exact add_le_add (mul_le_mul_of_nonneg_right (le_max_right _ _) (hinge_nonneg _ _)) ih

/-- The masses are not clipped if the deltas are exact. -/
lemma points_of_exact {disc : ℝ} (hd : 0 < disc) {eps : List ℤ} {deltas : List ℝ} {m : Pmf}
    (hm : connectDots disc eps deltas = .ok m) {Ω : Type*} [MeasurableSpace Ω] (P Q : Measure Ω)
    [IsProbabilityMeasure P] (hdots : ∀ x ∈ eps.zip deltas, IsHs P Q (x.1 * disc) x.2) (φ : ℤ → ℝ) :
    expect m.points φ = expect (raw disc 0 1 (eps.zip deltas)) φ := by
  obtain ⟨hok, g1, g2, g3, g6⟩ := dots_ok hd hm
  rw [g6]
  have hn := raw_nonneg hd P Q 0 1 (fun S _ => by simpa using measureReal_le_one) (eps.zip deltas) (incr_zip hok.incr _)
    (fun a _ => Real.exp_pos _) hdots (fun a ha => (hok.range _ (List.of_mem_zip ha).2).2)
  congr 1
  conv_rhs => rw [← List.map_id (raw disc 0 1 (eps.zip deltas))]
  apply List.map_congr_left
  intro x hx
  rw [max_eq_right (hn x hx)]; rfl

lemma delta_of_exact {disc : ℝ} (hd : 0 < disc) {eps : List ℤ} {deltas : List ℝ} {m : Pmf}
    (hm : connectDots disc eps deltas = .ok m) {Ω : Type*} [MeasurableSpace Ω] (P Q : Measure Ω)
    [IsProbabilityMeasure P] (hdots : ∀ x ∈ eps.zip deltas, IsHs P Q (x.1 * disc) x.2) (ε : ℝ) :
    m.getDeltaForEpsilon ε = rawHs disc 0 1 (eps.zip deltas) ε := by
  obtain ⟨hok, g1, g2, g3, g6⟩ := dots_ok hd hm
  rw [Pmf.getDelta_eq_hs _ g1]
  unfold Pmf.hs hockeyStick rawHs
  rw [points_of_exact hd hm P Q hdots, g3, g2]

/-- **C20 (upper bound).** Whatever the dots (any number, any spacing, convex or not): every pair of probability measures,
on any measurable space, whose hockey-stick divergence is at most the given delta at every dot, has at *every* epsilon a
divergence at most the one the PMF reports. -/
theorem C20_dominates (disc : ℝ) (hd : 0 < disc) (eps : List ℤ) (deltas : List ℝ) (m : Pmf)
    (hm : connectDots disc eps deltas = .ok m) {Ω : Type*} [MeasurableSpace Ω] (P Q : Measure Ω)
    [IsProbabilityMeasure P] (hdots : ∀ x ∈ eps.zip deltas, Indist P Q (x.1 * disc) x.2) (ε : ℝ) :
    Indist P Q ε (m.getDeltaForEpsilon ε) := by
  obtain ⟨hok, _⟩ := dots_ok hd hm
  intro S hS
  have hne : eps.zip deltas ≠ [] := by
    intro h
    have := congrArg List.length h
    rw [List.length_zip, hok.len, min_self] at this
    exact hok.ne (List.length_eq_zero_iff.1 (hok.len.trans this))
  have := rawHs_dominates hd (measureReal_nonneg (μ := Q) (s := S)) 0 1 (by simpa using measureReal_le_one (μ := P) (s := S)) (eps.zip deltas) hne
    (incr_zip hok.incr _) (fun a _ => Real.exp_pos _) (fun a ha => hdots a ha S hS) ε (Real.exp_pos _).le
  exact this.trans (by linarith [rawHs_le_delta hd hm ε])

/-- values at the dots of the unclipped curve -/
lemma rawHs_dot {h : ℝ} (hh : 0 < h) (x0 d0 : ℝ) (D : List (ℤ × ℝ)) (hI : Incr D) (hx : ∀ a ∈ D, x0 < Real.exp (a.1 * h))
    (a : ℤ × ℝ) (ha : a ∈ D) : rawHs h x0 d0 D (a.1 * h) = a.2 := by
  induction D generalizing x0 d0 with
  | nil => simp at ha
  | cons b l ih =>
    obtain ⟨e, d⟩ := b
    rcases List.mem_cons.1 ha with rfl | ha
    · rw [rawHs_below hh x0 d0 e d l (hx (e, d) (by simp)) hI _ le_rfl, div_self (Real.exp_ne_zero _)]; simp
    · have h1 : e < a.1 := List.rel_of_pairwise_cons hI ha
      have h2 : (e : ℝ) * h ≤ a.1 * h := by
        have : (e : ℝ) ≤ a.1 := by exact_mod_cast h1.le
        nlinarith
      cases l with
      | nil => simp at ha
      | cons b l =>
        rw [rawHs_above _ _ _ _ _ _ _ h2]
        refine ih _ _ hI.of_cons ?_ ha
        intro c hc
        apply Real.exp_lt_exp.2
        have h1 : e < c.1 := List.rel_of_pairwise_cons hI hc
        have : (e : ℝ) < c.1 := by exact_mod_cast h1
        nlinarith

/-- **C20 (at the dots).** The reported delta is never below the given one. -/
theorem C20_at_least_dots (disc : ℝ) (hd : 0 < disc) (eps : List ℤ) (deltas : List ℝ) (m : Pmf)
    (hm : connectDots disc eps deltas = .ok m) :
    ∀ x ∈ eps.zip deltas, x.2 ≤ m.getDeltaForEpsilon ((x.1 * disc : ℝ) : EReal) := by
  intro x hx
  obtain ⟨hok, _⟩ := dots_ok hd hm
  rw [← rawHs_dot hd 0 1 (eps.zip deltas) (incr_zip hok.incr _) (fun a _ => Real.exp_pos _) x hx]
  exact rawHs_le_delta hd hm _

/-- **C20 (exact).** If the deltas are the exact hockey-stick divergences of some pair of distributions, the PMF has total
mass one and reports exactly the given delta at every dot. -/
theorem C20_exact_at_dots (disc : ℝ) (hd : 0 < disc) (eps : List ℤ) (deltas : List ℝ) (m : Pmf)
    (hm : connectDots disc eps deltas = .ok m) {Ω : Type*} [MeasurableSpace Ω] (P Q : Measure Ω)
    [IsProbabilityMeasure P] (hdots : ∀ x ∈ eps.zip deltas, IsHs P Q (x.1 * disc) x.2) :
    totalMass m = 1 ∧ ∀ x ∈ eps.zip deltas, m.getDeltaForEpsilon ((x.1 * disc : ℝ) : EReal) = x.2 := by
  obtain ⟨hok, g1, g2, g3, g6⟩ := dots_ok hd hm
  constructor
  · unfold totalMass finiteMass
    rw [points_of_exact hd hm P Q hdots, g3]
    have hI := incr_zip hok.incr deltas
    have hne : eps.zip deltas ≠ [] := by
      intro h
      have := congrArg List.length h
      rw [List.length_zip, hok.len, min_self] at this
      exact hok.ne (List.length_eq_zero_iff.1 (hok.len.trans this))
    revert hI hne
    generalize eps.zip deltas = D
    intro hI hne
    obtain ⟨⟨e, d⟩, l, rfl⟩ := List.exists_cons_of_ne_nil hne
    rw [(raw_mass hd 0 1 e d l (Real.exp_pos _) hI).1]
    simp
  · intro x hx
    rw [delta_of_exact hd hm P Q hdots]
    exact rawHs_dot hd 0 1 (eps.zip deltas) (incr_zip hok.incr _) (fun a _ => Real.exp_pos _) x hx

/-- between the dots of the unclipped curve -/
lemma rawHs_between {h : ℝ} (hh : 0 < h) (x0 d0 : ℝ) (D : List (ℤ × ℝ)) (hI : Incr D) (hx : ∀ a ∈ D, x0 < Real.exp (a.1 * h))
    (pre post : List (ℤ × ℝ)) (a b : ℤ × ℝ) (hD : D = pre ++ a :: b :: post) (ε : ℝ) (h1 : a.1 * h ≤ ε) (h2 : ε ≤ b.1 * h) :
    rawHs h x0 d0 D ε =
      b.2 + (a.2 - b.2) / (1 - Real.exp (a.1 * h) / Real.exp (b.1 * h)) * (1 - Real.exp ε / Real.exp (b.1 * h)) := by
  induction pre generalizing x0 d0 D with
  | nil =>
    subst hD
    obtain ⟨e, d⟩ := a
    obtain ⟨e', d'⟩ := b
    rw [List.nil_append] at hI ⊢
    have hlt : e < e' := List.rel_of_pairwise_cons hI (a' := (e', d')) (by simp)
    rw [rawHs_above _ _ _ _ _ _ _ h1, rawHs_below hh _ _ _ _ _ _ hI.of_cons _ h2]
    apply Real.exp_lt_exp.2
    have : (e : ℝ) < e' := by exact_mod_cast hlt
    nlinarith
  | cons c pre ih =>
    obtain ⟨e, d⟩ := c
    subst hD
    rw [List.cons_append] at hI ⊢
    have hlt : e < a.1 := List.rel_of_pairwise_cons hI (a' := a) (by simp)
    have h3 : (e : ℝ) * h ≤ ε := by
      have : (e : ℝ) ≤ a.1 := by exact_mod_cast hlt.le
      nlinarith
    obtain ⟨c', l', hl⟩ : ∃ c' l', pre ++ a :: b :: post = c' :: l' := by
      cases pre with
      | nil => exact ⟨_, _, rfl⟩
      | cons c' pre => exact ⟨_, _, rfl⟩
    have := ih (Real.exp (e * h)) d _ hI.of_cons (by
      intro c hc
      apply Real.exp_lt_exp.2
      have h1 : e < c.1 := List.rel_of_pairwise_cons hI hc
      have : (e : ℝ) < c.1 := by exact_mod_cast h1
      nlinarith) rfl
    rw [hl] at this ⊢
    rw [rawHs_above _ _ _ _ _ _ _ h3, this]

/-- **C20 (interpolation).** With exact deltas the reported curve is, as a function of `e^eps`, the polygon through the
dots: linear between neighbouring dots, linear from `(0, 1)` to the first dot, constant after the last one. -/
theorem C20_interpolates (disc : ℝ) (hd : 0 < disc) (eps : List ℤ) (deltas : List ℝ) (m : Pmf)
    (hm : connectDots disc eps deltas = .ok m) {Ω : Type*} [MeasurableSpace Ω] (P Q : Measure Ω)
    [IsProbabilityMeasure P] (hdots : ∀ x ∈ eps.zip deltas, IsHs P Q (x.1 * disc) x.2) (ε : ℝ) :
    (∀ pre post a b, eps.zip deltas = pre ++ a :: b :: post → ∀ t : ℝ, 0 ≤ t → t ≤ 1 →
      Real.exp ε = (1 - t) * Real.exp (a.1 * disc) + t * Real.exp (b.1 * disc) →
      m.getDeltaForEpsilon ε = (1 - t) * a.2 + t * b.2) ∧
    (∀ a post, eps.zip deltas = a :: post → ∀ t : ℝ, t ≤ 1 → Real.exp ε = t * Real.exp (a.1 * disc) →
      m.getDeltaForEpsilon ε = (1 - t) + t * a.2) ∧
    (∀ pre a, eps.zip deltas = pre ++ [a] → a.1 * disc ≤ ε → m.getDeltaForEpsilon ε = a.2) := by
  obtain ⟨hok, -⟩ := dots_ok hd hm
  have hI := incr_zip hok.incr deltas
  rw [delta_of_exact hd hm P Q hdots]
  refine ⟨?_, ?_, ?_⟩
  · intro pre post a b hD t ht0 ht1 he
    have hlt : a.1 < b.1 := by
      rw [hD] at hI
      exact List.rel_of_pairwise_cons (List.pairwise_append.1 hI).2.1 (by simp)
    have hx : Real.exp (a.1 * disc) < Real.exp (b.1 * disc) := by
      apply Real.exp_lt_exp.2
      have : (a.1 : ℝ) < b.1 := by exact_mod_cast hlt
      nlinarith
    rw [rawHs_between hd 0 1 _ hI (fun a _ => Real.exp_pos _) pre post a b hD ε
      (Real.exp_le_exp.1 (by rw [he]; nlinarith)) (Real.exp_le_exp.1 (by rw [he]; nlinarith)), he]
    have p2 := Real.exp_pos (b.1 * disc)
    generalize Real.exp (a.1 * disc) = x1 at *
    generalize Real.exp (b.1 * disc) = x2 at *
    have e1 : (1 : ℝ) - x1 / x2 = (x2 - x1) / x2 := by field_simp
    have e2 : 1 - ((1 - t) * x1 + t * x2) / x2 = (1 - t) * ((x2 - x1) / x2) := by field_simp; ring
    have n : x2 - x1 ≠ 0 := by linarith
    rw [e1, e2]
    field_simp
    ring
  · intro a post hD t ht he
    have p := Real.exp_pos (a.1 * disc)
    rw [hD] at hI ⊢
    rw [rawHs_below hd 0 1 a.1 a.2 post (Real.exp_pos _) hI ε (Real.exp_le_exp.1 (by rw [he]; nlinarith)), he]
    field_simp
    ring
  · intro pre a hD ha
    have key : ∀ (D pre : List (ℤ × ℝ)) (x0 d0 : ℝ), Incr D → D = pre ++ [a] → rawHs disc x0 d0 D ε = a.2 := by
      intro D pre
      induction pre generalizing D with
      | nil => intro x0 d0 _ h; subst h; exact rawHs_last _ _ _ _ _ ha
      | cons c pre ih =>
        intro x0 d0 hI h
        subst h
        obtain ⟨e, d⟩ := c
        rw [List.cons_append] at hI ⊢
        have hlt : e < a.1 := List.rel_of_pairwise_cons hI (a' := a) (by simp)
        have h3 : (e : ℝ) * disc ≤ ε := by
          have : (e : ℝ) ≤ a.1 := by exact_mod_cast hlt.le
          nlinarith
        obtain ⟨c', l', hl⟩ : ∃ c' l', pre ++ [a] = c' :: l' := by
          cases pre with
          | nil => exact ⟨_, _, rfl⟩
          | cons c' pre => exact ⟨_, _, rfl⟩
        have := ih _ (Real.exp (e * disc)) d hI.of_cons rfl
        rw [hl] at this ⊢
        rw [rawHs_above _ _ _ _ _ _ _ h3, this]
    exact key _ pre 0 1 hI hD

/-- **C20 (fixed gap).** The numerically stable variant for consecutive grid points is the same function: same result and
same errors as the general one on `range(lower, upper + 1)`. -/
theorem C20_fixed_gap_agrees (disc : ℝ) (hd : 0 < disc) (lower upper : ℤ) (deltas : List ℝ) :
    connectDotsFixedGap disc lower upper deltas = connectDots disc (PldCommon.pyRange lower (upper + 1)) deltas :=
  fixedGap_eq hd lower upper deltas

/-- The hockey-stick divergence of finite distributions, `Σ_o max(0, P(o) - e^eps Q(o))`, is the least valid delta. -/
theorem C20_isHs_finite {O : Type} [MeasurableSpace O] [MeasurableSingletonClass O] (S : Finset O) (P Q : O → ℝ)
    (hP : ∀ o ∈ S, 0 ≤ P o) (hQ : ∀ o ∈ S, 0 ≤ Q o) (e : ℝ) :
    IsHs (finMeasure S P) (finMeasure S Q) e (hsFinite S P Q e) := by
  classical
  refine ⟨indist_finMeasure S P Q hP hQ e, ?_⟩
  intro d hd
  have hA : MeasurableSet {o | o ∈ S ∧ Real.exp e * Q o < P o} :=
    (S.finite_toSet.subset fun o ho => ho.1).measurableSet
  have := hd _ hA
  rw [finMeasure_real S P hP hA, finMeasure_real S Q hQ hA, Finset.mul_sum, ← sub_le_iff_le_add', ← Finset.sum_sub_distrib] at this
  refine le_trans (le_of_eq ?_) this
  unfold hsFinite
  refine Finset.sum_congr rfl fun o ho => ?_
  by_cases h : Real.exp e * Q o < P o
  · rw [if_pos ⟨ho, h⟩, if_pos ⟨ho, h⟩, max_eq_right (by linarith)]
  · rw [if_neg fun k => h k.2, if_neg fun k => h k.2, max_eq_left (by linarith)]; simp

/-- Non-vacuity: the dots `-log 3, 0, log 3` of randomised response with probabilities 3/4, 1/4. -/
example : ∃ m, connectDots (Real.log 3) [-1, 0, 1] [2/3, 1/2, 0] = .ok m ∧
    ∃ P Q : Measure (Fin 2), IsProbabilityMeasure P ∧
      ∀ x ∈ [-1, 0, 1].zip [2/3, 1/2, 0], IsHs P Q ((x : ℤ × ℝ).1 * Real.log 3) x.2 := by
  have hl : 0 < Real.log 3 := Real.log_pos (by norm_num)
  obtain ⟨m, hm, -⟩ := (C20_accepts (Real.log 3) hl [-1, 0, 1] [2/3, 1/2, 0]).1
    ⟨rfl, by simp, by simp, by norm_num, by norm_num⟩
  refine ⟨m, hm, finMeasure Finset.univ ![3/4, 1/4], finMeasure Finset.univ ![1/4, 3/4], ?_, ?_⟩
  · constructor
    unfold finMeasure
    rw [Measure.finsetSum_apply, Fin.sum_univ_two]
    simp only [Measure.smul_apply, Measure.dirac_apply_of_mem (Set.mem_univ _), smul_eq_mul, mul_one]
    rw [← ENNReal.ofReal_add (by norm_num) (by norm_num)]
    norm_num
  · have key := fun e => C20_isHs_finite (O := Fin 2) Finset.univ ![3/4, 1/4] ![1/4, 3/4]
      (by intro o _; fin_cases o <;> norm_num) (by intro o _; fin_cases o <;> norm_num) e
    intro x hx
    have := key (x.1 * Real.log 3)
    convert this using 1
    simp only [List.zip_cons_cons, List.zip_nil_right, List.mem_cons, List.not_mem_nil, or_false] at hx
    unfold hsFinite
    rw [Fin.sum_univ_two]
    rcases hx with rfl | rfl | rfl
    · have : Real.exp (((-1 : ℤ) : ℝ) * Real.log 3) = 1/3 := by
        push_cast; rw [neg_one_mul, Real.exp_neg, Real.exp_log (by norm_num)]; norm_num
      simp only [this]; norm_num
    · norm_num
    · have : Real.exp (((1 : ℤ) : ℝ) * Real.log 3) = 3 := by
        push_cast; rw [one_mul, Real.exp_log (by norm_num)]
      simp only [this]; norm_num

end Verif.Props
