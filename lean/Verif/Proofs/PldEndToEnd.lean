import Verif.Proofs.InfiniteNoise
import Verif.Proofs.PldDir
import Verif.Proofs.PldCovers
import Verif.Proofs.RdpRR
import Verif.Props.ConnectDots
import Mathlib.Probability.CDF

/-! # The library's PLD operations satisfy what the accountant needs -/

namespace Verif.Spec
open MeasureTheory ProbabilityTheory Verif.Pld Verif.PldPmf Verif.Mech

lemma real?_val {z : PyNum} {x : ℝ} (h : z.real? = some x) : z.val = (x : EReal) := by
  cases z with
  | int n => simp only [PyNum.real?, Option.some.injEq] at h; subst h; rfl
  | float y => simp only [PyNum.real?, Option.some.injEq] at h; subst h; rfl
  | inf => simp [PyNum.real?] at h

lemma total_ok {α : Type} {o : Option (Except Err α)} {a : α} (h : PldLibrary.total o = .ok a) : o = some (.ok a) := by
  cases o with
  | none => simp [PldLibrary.total] at h
  | some r => simp only [PldLibrary.total] at h; rw [h]

/-! ### Vacuous events -/

lemma poissonMech_zero {R : Type} {Ω : Type} [MeasurableSpace Ω] (K : Finset R → Measure Ω) (D : Finset R) : poissonMech 0 K D = K ∅ := by
  classical
  unfold poissonMech
  rw [Finset.sum_eq_single ∅]
  · simp
  · intro S hS hne
    have : S.card ≠ 0 := by rwa [Ne, Finset.card_eq_zero]
    simp [this]
  · simp

lemma lawFor_zero {C : PairProp} (h : ∀ (Ω : Type) [MeasurableSpace Ω] (P Q : Measure Ω) [IsProbabilityMeasure P] [IsProbabilityMeasure Q],
      C Ω P Q → P = Q) :
    LawFor LossLaw.zero C ∧ LawFor LossLaw.zero (swapProp C) :=
  ⟨fun Ω _ P Q _ _ hC => by have := h Ω P Q hC; subst this; exact zero_dominates P,
    fun Ω _ P Q _ _ hC => by have := h Ω Q P hC; subst this; exact zero_dominates Q⟩

lemma vacuous_same {nr : NeighborRel} {a : DpEvent} (h : Vacuous a) : ∀ (Ω : Type) [MeasurableSpace Ω] (P Q : Measure Ω)
    [IsProbabilityMeasure P] [IsProbabilityMeasure Q], PldEventPair nr a Ω P Q → P = Q := by
  intro Ω _ P Q hP hQ hC
  match a, h, hC with
  | .poissonSampled q (.gaussian z), h, hC =>
    have hq : q.val.toReal = 0 := by rw [show q.val = 0 from h]; simp
    simp only [PldEventPair, hq] at hC
    obtain ⟨Δ, hΔ, hC⟩ := hC
    cases hC with
    | mk f hf D r hr => rw [poissonMech_zero, poissonMech_zero]
  | .poissonSampled q (.laplace z), h, hC =>
    have hq : q.val.toReal = 0 := by rw [show q.val = 0 from h]; simp
    simp only [PldEventPair, hq] at hC
    obtain ⟨Δ, hΔ, hC⟩ := hC
    cases hC with
    | mk f hf D r hr => rw [poissonMech_zero, poissonMech_zero]
  | .randomizedResponse p k, h, hC =>
    have hk : k = 1 := h
    subst hk
    simp only [PldEventPair] at hC
    split_ifs at hC with hn
    · cases hC with
      | mk x y => rw [show x = y from Subsingleton.elim (α := Fin 1) _ _]
    · cases hC with
      | mk x =>
        unfold rrMech uniformResponse
        congr 1
        funext o
        rw [if_pos (Subsingleton.elim (α := Fin 1) _ _)]
        simp
  | .mixtureOfGaussians d [s] ps, h, hC =>
    have hs : s.val.toReal = 0 := by rw [show s.val = 0 from h]; simp
    simp only [PldEventPair] at hC
    cases hC with
    | mk v vs hw =>
      have hone := hP.measure_univ
      unfold vecMixture at hone ⊢
      cases ps with
      | nil =>
        simp only [mixturePairs, List.map_cons, List.map_nil, List.zip_nil_right] at hw
        cases hw
        simp at hone
      | cons p ps =>
        simp only [mixturePairs, List.map_cons, List.map_nil, List.zip_cons_cons, List.zip_nil_left] at hw
        cases hw with
        | @cons u _ vs _ hu hr =>
          cases hr
          have hu0 : u.1 = 0 := norm_le_zero_iff.1 (hu.1.trans hs.le)
          simp only [List.map_cons, List.map_nil, List.sum_cons, List.sum_nil, add_zero, hu0, Measure.smul_apply, smul_eq_mul,
            hQ.measure_univ, mul_one] at hone ⊢
          rw [hone, one_smul]

/-! ### The normal quantile -/

lemma quantile_nonpos {ppf : ℝ → ℝ → ℝ} (h : NormalQuantile ppf) {σ p : ℝ} (hσ : 0 < σ) (hp : 0 < p) (hp' : p < 1 / 2) : ppf σ p ≤ 0 := by
  by_contra hc
  push Not at hc
  have h1 := h σ p hσ hp (by linarith)
  set μ := gaussianReal 0 (Real.toNNReal (σ ^ 2))
  have hs : μ.real (Set.Iic 0) = μ.real (Set.Ici 0) := by
    have e : μ.map (fun x => -x) = μ := by rw [gaussianReal_map_neg, neg_zero]
    conv_lhs => rw [← e]
    rw [measureReal_def, Measure.map_apply measurable_neg measurableSet_Iic, measureReal_def]
    congr 2
    ext x; simp
  have hu : 1 ≤ μ.real (Set.Iic 0) + μ.real (Set.Ici 0) := by
    rw [← probReal_univ (μ := μ), ← Set.Iic_union_Ici (a := (0 : ℝ))]
    exact measureReal_union_le _ _
  have hm : μ.real (Set.Iic 0) ≤ μ.real (Set.Iic (ppf σ p)) := measureReal_mono (Set.Iic_subset_Iic.2 hc.le) (measure_ne_top _ _)
  linarith

/-- Normal quantiles exist. -/
lemma exists_normalQuantile : ∃ ppf, NormalQuantile ppf := by
  have key : ∀ σ p : ℝ, 0 < σ → 0 < p → p < 1 → ∃ x, (gaussianReal 0 (Real.toNNReal (σ ^ 2))).real (Set.Iic x) = p := by
    intro σ p hσ h0 h1
    set μ := gaussianReal 0 (Real.toNNReal (σ ^ 2))
    have hv : Real.toNNReal (σ ^ 2) ≠ 0 := by
      rw [Ne, Real.toNNReal_eq_zero]; exact not_le.2 (by positivity)
    have hna : NullSingletonClass μ := nullSingletonClass_gaussianReal hv
    have hcont : Continuous (cdf μ) := by
      rw [continuous_iff_continuousAt]
      intro x
      rw [(monotone_cdf μ).continuousAt_iff_leftLim_eq_rightLim, StieltjesFunction.rightLim_eq]
      have h := (cdf μ).measure_singleton x
      rw [measure_cdf, measure_singleton] at h
      have h2 := ENNReal.ofReal_eq_zero.1 h.symm
      have h3 := (monotone_cdf μ).leftLim_le (le_refl x)
      linarith
    have hm : p ∈ Set.range (cdf μ) := by
      obtain ⟨a, ha⟩ := ((tendsto_cdf_atBot μ).eventually (gt_mem_nhds h0)).exists
      obtain ⟨b, hb⟩ := ((tendsto_cdf_atTop μ).eventually (lt_mem_nhds h1)).exists
      exact mem_range_of_exists_le_of_exists_ge hcont ⟨a, ha.le⟩ ⟨b, hb.le⟩
    obtain ⟨x, hx⟩ := hm
    exact ⟨x, by rw [← cdf_eq_real]; exact hx⟩
  choose f hf using key
  classical
  refine ⟨fun σ p => if h : 0 < σ ∧ 0 < p ∧ p < 1 then f σ p h.1 h.2.1 h.2.2 else 0, fun σ p h0 h1 h2 => ?_⟩
  simp only [dif_pos (And.intro h0 (And.intro h1 h2))]
  exact hf σ p h0 h1 h2

lemma exp_neg_fifty : 0.5 * Real.exp (-50) ≤ 1e-22 := by
  have h1 : (2.718 : ℝ) ^ 50 ≤ Real.exp 50 := by
    have : Real.exp 50 = Real.exp 1 ^ 50 := by rw [← Real.exp_nat_mul]; norm_num
    rw [this]
    exact pow_le_pow_left₀ (by norm_num) (by linarith [Real.exp_one_gt_d9]) _
  rw [Real.exp_neg]
  have h2 : (Real.exp 50)⁻¹ ≤ ((2.718 : ℝ) ^ 50)⁻¹ := inv_anti₀ (by positivity) h1
  have h3 : 0.5 * ((2.718 : ℝ) ^ 50)⁻¹ ≤ 1e-22 := by norm_num
  exact (mul_le_mul_of_nonneg_left h2 (by norm_num)).trans h3

/-! ### Constructors -/

section
variable {ppf : ℝ → ℝ → ℝ} {disc : ℝ} {nr : NeighborRel}

lemma gaussian_new (hq : NormalQuantile ppf) (hd : 0 < disc) {z : PyNum} {c : ℤ} {p : Pld} (hc : 1 ≤ c)
    (h : PldLibrary.fromGaussian ppf disc z c (.float 1) = .ok p) : NewCov disc nr p (Multiset.replicate c.toNat (.gaussian z)) := by
  intro _ _
  have hne := PldLibrary.fromGaussian_real h
  unfold PldLibrary.fromGaussian at h
  cases hz : z.real? with
  | none => exact absurd hz hne
  | some x =>
    have hx : z.val.toReal = x := by rw [real?_val hz]; rfl
    simp only [hz, show (PyNum.float 1).real? = some 1 from rfl, if_neg (show ¬ c < 0 by omega), if_neg (show ¬ c = 0 by omega)] at h
    have h := total_ok h
    obtain ⟨hσ, -, -, -⟩ := Props.gaussian_params h
    have hc0 : (0 : ℝ) < c := by exact_mod_cast hc
    have hx0 : 0 < x := by
      have := mul_pos hσ (Real.sqrt_pos.2 hc0)
      rwa [div_mul_cancel₀ _ (Real.sqrt_pos.2 hc0).ne'] at this
    have he : 0.5 * Real.exp (-50) < 1 / 2 := by linarith [exp_neg_fifty]
    have hppf := quantile_nonpos hq hσ (by positivity) he
    have g := fromGaussian_good h hppf hd (Props.offGrid_one disc).gridOk
    have key : ∀ (m : Pmf) (C : DpEvent → PairProp), m.WF → m.NonNeg → m.pessimistic = true → totalMass m = 1 →
        LawFor (gaussLaw x) (C (.gaussian z)) → (∀ e, (gaussLaw (x / Real.sqrt c)).hs e ≤ m.getDeltaForEpsilon (e : ℝ)) →
        Dir m C (eventSlack disc) (Multiset.replicate c.toNat (.gaussian z)) ∧ m.infinityMass ≤ 1 := by
      intro m C hw hn hp hm hL hle
      obtain ⟨L, h1, h2⟩ := exists_law m.infinityMass m.disc m.points hn.1 hn.2 hm
      refine ⟨⟨hw, hn, hp, L, h1, List.replicate c.toNat (.gaussian z, gaussLaw x), ?_, ?_, ?_⟩, ?_⟩
      · rw [List.map_replicate, Multiset.coe_replicate]
      · intro y hy
        rw [List.eq_of_mem_replicate hy]; exact hL.near (eventSlack_nonneg _)
      · intro e
        rw [List.map_replicate, ← pow_eq_convAll, gaussLaw_pow hx0 _ (by omega), h2]
        have e1 : ((c.toNat : ℕ) : ℝ) = c := by
          have : ((c.toNat : ℕ) : ℤ) = c := Int.toNat_of_nonneg (by omega)
          exact_mod_cast this
        rw [e1]
        refine (hle e).trans (le_of_eq ?_)
        rw [Pmf.getDelta_eq_hs m hw]; rfl
      · have : 0 ≤ finiteMass m.points := by
          unfold finiteMass
          exact expect_nonneg hn.2 fun _ _ => by norm_num
        unfold totalMass at hm
        linarith
    have hL : LawFor (gaussLaw x) (GaussianPair x) := gaussLaw_lawFor hx0
    have hhs : ∀ e δ, Indist (upper (gaussianReal 0 (Real.toNNReal ((x / Real.sqrt c) ^ 2))) 1 1 .remove)
        (lower (gaussianReal 0 (Real.toNNReal ((x / Real.sqrt c) ^ 2))) 1 1 .remove) e δ → (gaussLaw (x / Real.sqrt c)).hs e ≤ δ := by
      intro e δ hi
      have := gaussLaw_isHs hσ one_pos e
      rw [mul_one] at this
      exact this.2 hi
    have k1 := key p.remove (PldEventPair nr) g.proper.valid.wfRemove g.proper.nonneg g.proper.pess g.proper.mass
      (by simp only [PldEventPair, hx]; exact hL) fun e => hhs e _ (g.remove e)
    have k2 := key p.add (fun a => swapProp (PldEventPair nr a)) g.proper.valid.wfAdd g.proper.nonnegAdd
      (by rw [g.proper.valid.pess]; exact g.proper.pess) g.proper.massAdd
      (by
        simp only [PldEventPair, hx]
        intro Ω _ P Q _ _ hC
        exact hL Ω P Q (GaussianPair.swap hC)) fun e => hhs e _ (remove_of_add _ _ (g.add e))
    exact ⟨⟨g.proper.valid, k1.1, k2.1⟩, k1.2, k2.2⟩

lemma laplace_base (hd : 0 < disc) {z : PyNum} {p : Pld} (h : PldLibrary.fromLaplace disc z (.float 1) = .ok p) :
    BaseCov disc nr p (.laplace z) := by
  intro _
  have hne := PldLibrary.fromLaplace_real h
  unfold PldLibrary.fromLaplace at h
  cases hz : z.real? with
  | none => exact absurd hz hne
  | some x =>
    have hx : z.val.toReal = x := by rw [real?_val hz]; rfl
    simp only [hz, show (PyNum.float 1).real? = some 1 from rfl] at h
    have h := total_ok h
    obtain ⟨hb, -, -, -⟩ := Props.laplace_params h
    obtain ⟨h1, -, h3⟩ := Props.C32_laplace_partial h hd (Props.offGrid_one disc)
    obtain ⟨i1, i2⟩ := fromLaplace_inf h hd
    refine h1.base ?_ (by norm_num at i1 ⊢; linarith) (by norm_num at i2 ⊢; linarith)
    simp only [PldEventPair, hx]
    exact dominatesAll_laplace hb h3

/-! ### Randomised response -/

lemma rrMech_eq (k : ℕ) (p : ℝ) (x : Fin k) : rrMech k p x = finMeasure Finset.univ (rrProb p k x) := by
  unfold rrMech
  congr 1
  funext o
  unfold rrProb
  split_ifs <;> simp

lemma rrProb_nonneg {k : ℕ} {p : ℝ} (h0 : 0 ≤ p) (h1 : p ≤ 1) (x o : Fin k) : 0 ≤ rrProb p k x o := by
  unfold rrProb
  have : 0 ≤ p / k := by positivity
  split_ifs <;> linarith

/-- A delta that is valid for some pair is valid for a pair of equal distributions. -/
lemma indist_self {Ω Ω' : Type*} [MeasurableSpace Ω] [MeasurableSpace Ω'] {P Q : Measure Ω} [IsProbabilityMeasure P] [IsProbabilityMeasure Q]
    {R : Measure Ω'} [IsProbabilityMeasure R] {e d : ℝ} (h : Indist P Q e d) : Indist R R e d := by
  intro S hS
  have h1 := h Set.univ MeasurableSet.univ
  have h2 := h ∅ MeasurableSet.empty
  simp only [probReal_univ, measureReal_empty, mul_one, mul_zero, zero_add] at h1 h2
  have h3 : R.real S ≤ 1 := measureReal_le_one
  have h4 : 0 ≤ R.real S := measureReal_nonneg
  nlinarith [Real.exp_pos e]

lemma rr_proper (hd : 0 < disc) {n : PyNum} {k : ℤ} {p : Pld} (hnr : nr = .replaceOne ∨ nr = .replaceSpecial)
    (h : PldLibrary.fromRR disc n k nr = .ok p) :
    ProperPld p ∧ DominatesAll p (PldEventPair nr (.randomizedResponse n k)) := by
  unfold PldLibrary.fromRR at h
  cases hz : n.real? with
  | none => simp [hz] at h
  | some x =>
    have hx : n.val.toReal = x := by rw [real?_val hz]; rfl
    simp only [hz] at h
    have hok : ¬ (x ≤ 0 ∨ 1 ≤ x ∨ k ≤ 1 ∨ nr = .addOrRemoveOne) := by
      rw [← Props.C23_rejects x k true disc hd nr, h]; simp
    push Not at hok
    obtain ⟨h0, h1, hk, -⟩ := hok
    obtain ⟨k', rfl⟩ : ∃ k' : ℕ, k = k' := ⟨k.toNat, by omega⟩
    have hk2 : 2 ≤ k' := by omega
    have hk0 : (0 : ℝ) < k' := by exact_mod_cast (by omega : 0 < k')
    have hnn := fun y o => rrProb_nonneg (k := k') h0.le h1.le y o
    rcases hnr with rfl | rfl
    · obtain ⟨hl, hu⟩ := rr_nodup x k'
      rw [rr_eq_replaceOne h0 h1 hk2] at h
      obtain ⟨p', h', hv, hs, hr, -⟩ := fromTwoPmfs_spec _ _ hl hu true hd ⊥ true
      rw [h] at h'
      simp only [Except.ok.injEq] at h'
      subst h'
      have hadd : p.add = p.remove := hv.symm hs
      have hmass : totalMass p.remove = 1 := by
        rw [hr.mass, rr_sum h0 h1 hk2 fun a _ => a]
        split_ifs with h2
        · rw [h2]; push_cast; ring
        · field_simp; ring
      have hc : ∀ (y y' : Fin k'), CurveValid (rrMech k' x y) (rrMech k' x y') fun e => p.remove.getDeltaForEpsilon e := by
        have hne : ∀ (y y' : Fin k'), y ≠ y' → ∀ e : ℝ, Indist (rrMech k' x y) (rrMech k' x y') e (p.remove.getDeltaForEpsilon e) := by
          intro y y' hy e
          have h3 := (hr.pessimistic_bounds hd e).1
          rw [rr_prob_hs h0 h1 hk2 y y' hy, ← Pmf.getDelta_eq_hs _ hv.wfRemove] at h3
          have h4 := (Props.C20_isHs_finite Finset.univ (rrProb x k' y) (rrProb x k' y') (fun o _ => hnn y o) (fun o _ => hnn y' o) e).1
          rw [rrMech_eq, rrMech_eq]
          exact fun S hS => (h4 S hS).trans (by linarith)
        intro y y' e
        by_cases hy : y = y'
        · subst hy
          obtain ⟨y', hy'⟩ : ∃ y' : Fin k', y ≠ y' := by
            have : Nontrivial (Fin k') := Fin.nontrivial_iff_two_le.2 hk2
            exact (exists_ne y).imp fun _ h => h.symm
          have := Rdp.rr_prob h0.le h1.le y
          have := Rdp.rr_prob h0.le h1.le y'
          exact indist_self (hne y y' hy' e)
        · exact hne y y' hy e
      refine ⟨⟨hv, hr.pess, hr.nonneg, by rw [hadd]; exact hr.nonneg, hmass, by rw [hadd]; exact hmass⟩, ?_⟩
      intro Ω _ P Q _ _ hC
      simp only [PldEventPair, hx, if_true, Int.toNat_natCast] at hC
      cases hC with
      | mk y y' => exact ⟨hc y y', by rw [hadd]; exact hc y' y⟩
    · obtain ⟨hl, hu⟩ := rrs_nodup x k'
      obtain ⟨ho, a0, a1, b0, b1⟩ := rrs_prob h0 h1 hk2
      rw [rr_eq_replaceSpecial h0 h1 hk2] at h
      obtain ⟨p', h', hv, hs, hr, hr'⟩ := fromTwoPmfs_spec _ _ hl hu true hd ⊥ false
      rw [h] at h'
      simp only [Except.ok.injEq] at h'
      subst h'
      have hr' := hr' rfl
      have hm1 : totalMass p.remove = 1 := by
        rw [hr.mass, ho, Finset.sum_pair (by decide), a0, a1]; field_simp; ring
      have hm2 : totalMass p.add = 1 := by
        rw [hr'.mass, outcomes_comm, ho, Finset.sum_pair (by decide), b0, b1]; field_simp; ring
      refine ⟨⟨hv, hr.pess, hr.nonneg, hr'.nonneg, hm1, hm2⟩, ?_⟩
      intro Ω _ P Q _ _ hC
      simp only [PldEventPair, hx, Int.toNat_natCast, if_neg (show ¬ NeighborRel.replaceSpecial = .replaceOne by decide)] at hC
      cases hC with
      | mk y =>
        have hun : ∀ o ∈ (Finset.univ : Finset (Fin k')), (0 : ℝ) ≤ 1 / (k' : ℝ) := fun _ _ => by positivity
        refine ⟨fun e => ?_, fun e => ?_⟩
        · have h3 := (hr.pessimistic_bounds hd e).1
          rw [(rrs_prob_hs h0 h1 hk2 y e).1, ← Pmf.getDelta_eq_hs _ hv.wfRemove] at h3
          have h4 := (Props.C20_isHs_finite Finset.univ (rrProb x k' y) (fun _ => 1 / (k' : ℝ)) (fun o _ => hnn y o) hun e).1
          rw [rrMech_eq, uniformResponse]
          exact fun S hS => (h4 S hS).trans (by linarith)
        · have h3 := (hr'.pessimistic_bounds hd e).1
          rw [(rrs_prob_hs h0 h1 hk2 y e).2, ← Pmf.getDelta_eq_hs _ hv.wfAdd] at h3
          have h4 := (Props.C20_isHs_finite Finset.univ (fun _ => 1 / (k' : ℝ)) (rrProb x k' y) hun (fun o _ => hnn y o) e).1
          rw [rrMech_eq, uniformResponse]
          exact fun S hS => (h4 S hS).trans (by linarith)

lemma rr_new (hd : 0 < disc) {n : PyNum} {k : ℤ} {p : Pld} (hnr : nr = .replaceOne ∨ nr = .replaceSpecial)
    (h : PldLibrary.fromRR disc n k nr = .ok p) : NewCov disc nr p {.randomizedResponse n k} := by
  intro _ _
  obtain ⟨h1, h2⟩ := rr_proper hd hnr h
  exact ProperPld.cov h1 h2

end

end Verif.Spec
