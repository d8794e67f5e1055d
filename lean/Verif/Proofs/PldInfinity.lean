import Verif.Proofs.AdditiveNoisePld

/-! # The infinity mass of connect-the-dots PLDs of additive noise mechanisms -/

namespace Verif.PldPmf

lemma lastD_le {D : List (ℤ × ℝ)} (h : D.Pairwise fun a b => a.2 ≥ b.2) : ∀ x ∈ D, lastD D ≤ x.2 := by
  induction D with
  | nil => simp
  | cons a l ih =>
    obtain ⟨e, d⟩ := a
    cases l with
    | nil => intro x hx; simp only [List.mem_singleton] at hx; subst hx; exact le_rfl
    | cons b l =>
      have h1 := ih h.of_cons
      have e1 : lastD ((e, d) :: b :: l) = lastD (b :: l) := rfl
      intro x hx
      rw [e1]
      rcases List.mem_cons.1 hx with rfl | hx
      · exact (h1 b (by simp)).trans (List.rel_of_pairwise_cons h (by simp))
      · exact h1 x hx

end Verif.PldPmf

namespace Verif.Mech
open Verif.Spec Verif.Pld Verif.PldPmf MeasureTheory ProbabilityTheory

lemma inf_le_hs {m : Pmf} (h : m.NonNeg) (e : ℝ) : m.infinityMass ≤ m.hs e := by
  unfold Pmf.hs hockeyStick
  have : 0 ≤ expect m.points fun k => hinge (e : EReal) (k * m.disc) := expect_nonneg h.2 fun _ _ => hinge_nonneg _ _
  linarith

lemma mono_eps {Ω : Type*} [MeasurableSpace Ω] {P Q : Measure Ω} {e e' d : ℝ} (h : Indist P Q e d) (he : e ≤ e') : Indist P Q e' d := by
  intro S hS
  have := h S hS
  have h2 : Real.exp e * Q.real S ≤ Real.exp e' * Q.real S := mul_le_mul_of_nonneg_right (Real.exp_le_exp.2 he) measureReal_nonneg
  linarith

lemma dotsContinuous_inf_le {m : AdditiveNoise ℝ} {f : ℝ → ℝ} (h : Faithful m volume f)
    (hbot : m.adj = .remove → m.noiseCdf (m.invNo ⊥ + (m.toReal m.sensitivity : EReal)) = 1) {disc : ℝ} (hd : 0 < disc)
    {l u : ℝ} {pmf : Pmf} (hp : dotsContinuous m ((l : EReal), (u : EReal)) disc = .ok pmf) {δ : ℝ}
    (hI : Indist (upper (volume.withDensity fun x => ENNReal.ofReal (f x)) m.sensitivity m.samplingProb m.adj)
      (lower (volume.withDensity fun x => ENNReal.ofReal (f x)) m.sensitivity m.samplingProb m.adj) u δ) : pmf.infinityMass ≤ δ := by
  unfold dotsContinuous at hp
  rw [bind_ok] at hp
  obtain ⟨up, hup, hp⟩ := hp
  have hup : ⌈u / disc⌉ = up := by cases hup; rfl
  rw [bind_ok] at hp
  obtain ⟨lo, -, hp⟩ := hp
  rw [bind_ok] at hp
  obtain ⟨deltas, hdel, hp⟩ := hp
  have hlu : lo ≤ up := by
    by_contra hc
    unfold connectDotsFixedGap at hp
    rw [if_pos (not_le.1 hc)] at hp
    exact absurd hp (by simp)
  rw [Props.C20_fixed_gap_agrees disc hd] at hp
  obtain ⟨hlen, hspec⟩ := getDeltas_spec hdel
  have hmem : up ∈ PldCommon.pyRange lo (up + 1) := by
    unfold PldCommon.pyRange
    exact List.mem_map.2 ⟨(up - lo).toNat, by rw [List.mem_range]; omega, by omega⟩
  obtain ⟨i, hi, hie⟩ := List.mem_iff_getElem.1 hmem
  have hx : (up, deltas[i]'(hlen ▸ hi)) ∈ (PldCommon.pyRange lo (up + 1)).zip deltas := by
    rw [List.mem_iff_getElem]
    exact ⟨i, by rw [List.length_zip, ← hlen, min_self]; exact hi, by rw [List.getElem_zip, hie]⟩
  obtain ⟨d, d', k1, k2, k3, -⟩ := getDelta_near h hbot (up * disc)
  rw [hspec _ hx, Except.ok.injEq] at k1
  have h2 := k2.2 (show δ ∈ {d | Indist _ _ _ d} from mono_eps hI (by
    have := Int.le_ceil (u / disc)
    rw [hup, div_le_iff₀ hd] at this
    exact this))
  obtain ⟨hok, -, -, g3, -⟩ := Props.dots_ok hd hp
  have h3 : pmf.infinityMass ≤ deltas[i]'(hlen ▸ hi) := by
    rw [g3]
    refine lastD_le ?_ _ hx
    have : (((PldCommon.pyRange lo (up + 1)).zip deltas).map Prod.snd).Pairwise (· ≥ ·) := by
      rw [List.map_snd_zip (by omega)]
      exact hok.anti
    rwa [List.pairwise_map] at this
  linarith

/-- If the loss is at most `v` above the point `x`, the mass up to `x` is a valid delta at `v`. -/
lemma LossPair.indist_tail {m : AdditiveNoise ℝ} {P Q : Measure ℝ} (h : LossPair m P Q) (hto : m.toReal = AddMonoidHom.id ℝ) {x v : ℝ}
    (hv : ∀ y, x < y → ∀ L, m.privacyLoss y = .ok L → L ≤ v) : Indist P Q v (P.real (Set.Iic x)) := by
  have := h.probP
  have := h.probQ
  intro A hA
  have h1 := h.upper (Set.Ioi x) v hv (A ∩ Set.Ioi x) (hA.inter measurableSet_Ioi) Set.inter_subset_right
  have h2 : P.real A ≤ P.real (A ∩ Set.Ioi x) + P.real (Set.Iic x) := by
    refine (measureReal_mono (s₂ := (A ∩ Set.Ioi x) ∪ Set.Iic x) (fun y hy => ?_) (measure_ne_top _ _)).trans (measureReal_union_le _ _)
    by_cases hc : x < y
    · exact .inl ⟨hy, hc⟩
    · exact .inr (not_lt.1 hc)
  have h3 : Q.real (A ∩ Set.Ioi x) ≤ Q.real A := measureReal_mono Set.inter_subset_left
  have h4 := mul_le_mul_of_nonneg_left h3 (Real.exp_pos v).le
  linarith

/-- If the loss is at most `v` everywhere, delta zero is valid at `v`. -/
lemma LossPair.indist_zero {m : AdditiveNoise ℝ} {P Q : Measure ℝ} (h : LossPair m P Q) {v : ℝ}
    (hv : ∀ y, ∀ L, m.privacyLoss y = .ok L → L ≤ v) : Indist P Q v 0 := by
  intro A hA
  have h1 := h.upper Set.univ v (fun y _ => hv y) A hA (Set.subset_univ _)
  linarith

lemma subsampled_inf {single : Adj → Option (Except Err Pmf)} {q d : ℝ} {p : Pld} (hp : subsampledPld single q = some (.ok p))
    (hs : ∀ adj pmf, single adj = some (.ok pmf) → pmf.infinityMass ≤ d) : p.remove.infinityMass ≤ d ∧ p.add.infinityMass ≤ d := by
  classical
  unfold subsampledPld at hp
  cases h1 : single .remove with
  | none => rw [h1] at hp; simp at hp
  | some r =>
    cases r with
    | error e => rw [h1] at hp; simp at hp
    | ok r =>
      rw [h1] at hp
      simp only [] at hp
      by_cases hq : q = 1
      · rw [if_pos hq] at hp
        simp only [Option.some.injEq, Except.ok.injEq] at hp
        subst hp
        exact ⟨hs _ _ h1, hs _ _ h1⟩
      · rw [if_neg hq] at hp
        cases h2 : single .add with
        | none => rw [h2] at hp; simp at hp
        | some a =>
          cases a with
          | error e => rw [h2] at hp; simp at hp
          | ok a =>
            rw [h2] at hp
            simp only [Option.some.injEq, Except.ok.injEq] at hp
            subst hp
            exact ⟨hs _ _ h1, hs _ _ h2⟩

lemma laplaceLossNo_le {b s : ℝ} (hb : 0 < b) (hs : 0 < s) (adj : Adj) (x : ℝ) : laplaceLossNo b s adj x ≤ s / b := by
  cases adj <;> simp only [laplaceLossNo] <;> refine div_le_div_of_nonneg_right ?_ hb.le
  · have := abs_sub_abs_le_abs_sub (x - s) x
    rw [show x - s - x = -s by ring, abs_neg, abs_of_pos hs] at this
    linarith
  · have := abs_sub_abs_le_abs_sub x (x + s)
    rw [show x - (x + s) = -s by ring, abs_neg, abs_of_pos hs] at this
    linarith

/-- The Laplace mechanism has no infinite losses. -/
lemma fromLaplace_inf {fuel : ℕ} {b s disc q : ℝ} {p : Pld} (hp : fromLaplace fuel b s true disc q true = some (.ok p))
    (hd : 0 < disc) : p.remove.infinityMass ≤ 0 ∧ p.add.infinityMass ≤ 0 := by
  refine subsampled_inf hp ?_
  intro adj pmf h
  cases hm : mkLaplace b s q adj with
  | error e => rw [hm] at h; simp at h
  | ok m =>
    rw [hm] at h
    obtain ⟨hto, hloss⟩ := mkLaplace_eq hm
    obtain ⟨l, u, hbd, -⟩ := laplaceBounds_ok hm
    obtain ⟨hf, e1, e2, e3, hs, hb⟩ := laplace_faithful hm
    unfold createContinuous at h
    simp only [] at h
    rw [if_pos ⟨trivial, trivial⟩, hbd, Option.some.injEq] at h
    have h : dotsContinuous m ((l : EReal), (u : EReal)) disc = .ok pmf := h
    refine dotsContinuous_inf_le hf (fun _ => laplace_bot hm) hd h (hf.lossPair.indist_zero fun y L hL => ?_)
    obtain ⟨k, k0, k1, k2, k3⟩ := loss_real hf (hloss y)
    rw [hL, Except.ok.injEq] at k0
    rw [k0, EReal.coe_le_coe_iff]
    have hle := laplaceLossNo_le hb hs adj y
    have q0 := hf.q0
    have q1 := hf.q1
    unfold laplaceBounds at hbd
    rw [e1, e2, e3] at hbd
    rw [e2] at k1 k2 k3 q0 q1
    rw [e3] at k2 k3
    simp only [] at hbd
    by_cases hq : q = 1
    · rw [if_pos hq] at hbd
      simp only [Except.ok.injEq, Prod.mk.injEq, EReal.coe_eq_coe_iff] at hbd
      rw [k1 hq, ← hbd.2]; exact hle
    · rw [if_neg hq] at hbd
      have hpos : ∀ t : ℝ, 0 < q * Real.exp t := fun t => mul_pos q0 (Real.exp_pos t)
      cases adj with
      | add =>
        simp only [Except.ok.injEq, Prod.mk.injEq, EReal.coe_eq_coe_iff] at hbd
        rw [k2 hq rfl, ← hbd.2]
        refine neg_le_neg (Real.log_le_log (by linarith [hpos (-(s / b))]) ?_)
        have := mul_le_mul_of_nonneg_left (Real.exp_le_exp.2 (neg_le_neg hle)) q0.le
        linarith
      | remove =>
        simp only [Except.ok.injEq, Prod.mk.injEq, EReal.coe_eq_coe_iff] at hbd
        rw [k3 hq rfl, ← hbd.2]
        refine Real.log_le_log (by linarith [hpos (laplaceLossNo b s .remove y)]) ?_
        have := mul_le_mul_of_nonneg_left (Real.exp_le_exp.2 hle) q0.le
        linarith

/-- The infinity mass of the Gaussian mechanism is at most the mass of the truncated tail. -/
lemma fromGaussian_inf {fuel : ℕ} {ppf : ℝ → ℝ} {σ s disc lb q : ℝ} {p : Pld}
    (hp : fromGaussian fuel ppf σ s true disc lb q true = some (.ok p)) (hppf : ppf (0.5 * Real.exp lb) ≤ 0)
    (hq : (gaussianReal 0 (Real.toNNReal (σ ^ 2))).real (Set.Iic (ppf (0.5 * Real.exp lb))) ≤ 0.5 * Real.exp lb)
    (hd : 0 < disc) : p.remove.infinityMass ≤ 0.5 * Real.exp lb ∧ p.add.infinityMass ≤ 0.5 * Real.exp lb := by
  refine subsampled_inf hp ?_
  intro adj pmf h
  cases hm : mkGaussian σ s lb q adj with
  | error e => rw [hm] at h; simp at h
  | ok m =>
    rw [hm] at h
    obtain ⟨hto, hloss⟩ := mkGaussian_eq hm
    obtain ⟨hf, e1, e2, e3, hs, hσ⟩ := gaussian_faithful hm
    unfold createContinuous at h
    simp only [] at h
    rw [if_pos ⟨trivial, trivial⟩, Option.some.injEq, bind_ok] at h
    obtain ⟨bd, hbd, h⟩ := h
    unfold gaussianBounds at hbd
    rw [bind_ok] at hbd
    obtain ⟨t, ht, hbd⟩ := hbd
    rw [bind_ok] at hbd
    obtain ⟨u, hu, hbd⟩ := hbd
    rw [bind_ok] at hbd
    obtain ⟨l, hl, hbd⟩ := hbd
    cases hbd
    obtain ⟨u', hu', -⟩ := loss_real hf (hloss t.lowerX)
    obtain ⟨l', hl', -⟩ := loss_real hf (hloss t.upperX)
    rw [hu, Except.ok.injEq] at hu'
    rw [hl, Except.ok.injEq] at hl'
    subst hu' hl'
    have hlo : t.lowerX = match adj with | .add => ppf (0.5 * Real.exp lb) | .remove => ppf (0.5 * Real.exp lb) - s := by
      unfold gaussianTail at ht
      simp only [if_true] at ht
      rw [bind_ok] at ht
      obtain ⟨_, -, ht⟩ := ht
      cases ht
      cases adj <;> simp only [e3, e1]
    have hI := hf.lossPair.indist_tail hto (x := t.lowerX) (v := u') fun y hy L hL => by
      exact hf.lossPair.anti hu hL (by rw [hto]; exact hy.le)
    refine (dotsContinuous_inf_le hf (fun _ => gaussian_bot hm) hd h hI).trans ?_
    have q0 := hf.q0
    have q1 := hf.q1
    rw [e2] at q0 q1
    rw [← gaussian_law hσ, e1, e2, e3]
    rw [hlo]
    cases adj with
    | add => exact hq
    | remove =>
      simp only [upper, mixShift]
      have : IsProbabilityMeasure ((gaussianReal 0 (Real.toNNReal (σ ^ 2))).map fun x => x + -s) := Measure.isProbabilityMeasure_map (by fun_prop)
      rw [measureReal_add_apply (h₁ := ENNReal.mul_ne_top ENNReal.ofReal_ne_top (measure_ne_top _ _))
        (h₂ := ENNReal.mul_ne_top ENNReal.ofReal_ne_top (measure_ne_top _ _)), measureReal_ennreal_smul_apply, measureReal_ennreal_smul_apply, ENNReal.toReal_ofReal (by linarith),
        ENNReal.toReal_ofReal q0.le, measureReal_def (Measure.map _ _), Measure.map_apply (by fun_prop) measurableSet_Iic, ← measureReal_def]
      have h1 : (fun x => x + -s) ⁻¹' Set.Iic (ppf (0.5 * Real.exp lb) - s) = Set.Iic (ppf (0.5 * Real.exp lb)) := by
        ext x; simp only [Set.mem_preimage, Set.mem_Iic]; constructor <;> intro h <;> linarith
      rw [h1]
      have h2 : (gaussianReal 0 (Real.toNNReal (σ ^ 2))).real (Set.Iic (ppf (0.5 * Real.exp lb) - s)) ≤
          (gaussianReal 0 (Real.toNNReal (σ ^ 2))).real (Set.Iic (ppf (0.5 * Real.exp lb))) :=
        measureReal_mono (Set.Iic_subset_Iic.2 (by linarith))
      nlinarith

end Verif.Mech
