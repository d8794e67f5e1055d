import Verif.Proofs.SmallestNoise
import Verif.Proofs.RdpTree

/-! # Repeated queries: from a composed PLD, and from pure differential privacy -/

namespace Verif.Spec
open MeasureTheory ProbabilityTheory Verif.Pld Verif.PldPmf Verif.Mech

/-! ### Pure differential privacy -/

lemma le_of_indist_zero {Ω : Type*} [MeasurableSpace Ω] {P Q : Measure Ω} [IsProbabilityMeasure P] [IsProbabilityMeasure Q] {e : ℝ}
    (h : Indist P Q e 0) : P ≤ ENNReal.ofReal (Real.exp e) • Q := by
  rw [Measure.le_iff]
  intro S hS
  have := h S hS
  rw [Measure.smul_apply, smul_eq_mul, ← ofReal_measureReal (μ := P), ← ofReal_measureReal (μ := Q), ← ENNReal.ofReal_mul (Real.exp_pos _).le]
  exact ENNReal.ofReal_le_ofReal (by linarith)

lemma indist_of_le {Ω : Type*} [MeasurableSpace Ω] {P Q : Measure Ω} [IsProbabilityMeasure Q] {e : ℝ}
    (h : P ≤ ENNReal.ofReal (Real.exp e) • Q) : Indist P Q e 0 := by
  intro S hS
  have := h S
  rw [Measure.smul_apply, smul_eq_mul] at this
  have h2 := ENNReal.toReal_mono (ENNReal.mul_ne_top ENNReal.ofReal_ne_top (measure_ne_top Q S)) this
  rw [ENNReal.toReal_mul, ENNReal.toReal_ofReal (Real.exp_pos _).le] at h2
  rw [add_zero]
  exact h2

lemma Adaptive.isProb {l : List PairProp} {Ω : Type} [MeasurableSpace Ω] {P Q : Measure Ω} (h : Adaptive l Ω P Q) :
    IsProbabilityMeasure P ∧ IsProbabilityMeasure Q := by
  cases h with
  | nil P => exact ⟨inferInstance, inferInstance⟩
  | cons P Q κ η hC hl => exact ⟨inferInstance, inferInstance⟩

lemma adaptive_le {C : PairProp} {c : ENNReal} (hc : ∀ (Ω : Type) [MeasurableSpace Ω] (P Q : Measure Ω) [IsProbabilityMeasure P]
    [IsProbabilityMeasure Q], C Ω P Q → P ≤ c • Q) (n : ℕ) {Ω : Type} [MeasurableSpace Ω] {P Q : Measure Ω}
    (h : Adaptive (List.replicate n C) Ω P Q) : P ≤ c ^ n • Q := by
  induction n generalizing Ω P Q with
  | zero =>
    rw [List.replicate_zero] at h
    cases h with
    | nil P => simp
  | succ n ih =>
    rw [List.replicate_succ] at h
    cases h with
    | cons P Q κ η hC hl =>
      rw [Measure.le_iff]
      intro S hS
      rw [Measure.compProd_apply hS, Measure.smul_apply, Measure.compProd_apply hS, smul_eq_mul, pow_succ, mul_assoc]
      calc ∫⁻ x, κ x (Prod.mk x ⁻¹' S) ∂P ≤ ∫⁻ x, c ^ n * η x (Prod.mk x ⁻¹' S) ∂P := by
            refine lintegral_mono fun x => ?_
            have := ih (hl x) (Prod.mk x ⁻¹' S)
            rwa [Measure.smul_apply, smul_eq_mul] at this
        _ = c ^ n * ∫⁻ x, η x (Prod.mk x ⁻¹' S) ∂P := by
            rw [lintegral_const_mul _ (Kernel.measurable_kernel_prodMk_left hS)]
        _ ≤ c ^ n * ∫⁻ x, η x (Prod.mk x ⁻¹' S) ∂(c • Q) := by
            gcongr
            exact hc _ _ _ hC
        _ = c ^ n * (c * ∫⁻ x, η x (Prod.mk x ⁻¹' S) ∂Q) := by rw [lintegral_smul_measure, smul_eq_mul]

/-- `n` repetitions of an `e`-differentially private mechanism are `n e`-differentially private. -/
lemma repeated_of_pure {C : PairProp} {e : ℝ} (hC : ∀ (Ω : Type) [MeasurableSpace Ω] (P Q : Measure Ω), C Ω P Q →
    Indist P Q e 0 ∧ Indist Q P e 0) (n : ℕ) {ε δ : ℝ} (he : n * e ≤ ε) (hδ : 0 ≤ δ) : RepeatedPrivate C n ε δ := by
  have hpow : ENNReal.ofReal (Real.exp e) ^ n = ENNReal.ofReal (Real.exp (n * e)) := by
    rw [Real.exp_nat_mul, ENNReal.ofReal_pow (Real.exp_pos _).le]
  intro Ω _ P Q h
  obtain ⟨p1, p2⟩ := h.isProb
  have h' := h.swap
  rw [List.map_replicate] at h'
  have k1 := adaptive_le (fun Ω _ P Q _ _ hc => le_of_indist_zero (hC Ω P Q hc).1) n h
  have k2 := adaptive_le (fun Ω _ P Q _ _ hc => le_of_indist_zero (hC Ω Q P hc).2) n h'
  rw [hpow] at k1 k2
  exact ⟨Indist.mono (mono_eps (indist_of_le k1) he) hδ, Indist.mono (mono_eps (indist_of_le k2) he) hδ⟩

/-! ### Composed PLDs -/

/-- If the composed PLD reports a delta of at most `δ`, the repeated mechanism is `(ε, δ)`-differentially private. -/
lemma repeated_of_base {p r : Pld} {C : PairProp} {τ : ℝ} (hτ : 0 ≤ τ) (hv0 : p.Valid) (b1 : BaseDir p.remove τ C)
    (b2 : BaseDir p.add τ (swapProp C)) {nfl : ℕ → ℕ} (hnfl : ∀ k, k ≤ nfl k) {n : ℤ} (hn : n ≤ 10 ^ 21)
    (h : p.selfCompose nfl n 1e-15 = .ok r) {ε δ : ℝ} (hδ : r.getDeltaForEpsilon ε ≤ δ) :
    RepeatedPrivate C n.toNat ε (δ + n.toNat * τ) := by
  have hn' : n.toNat ≤ 10 ^ 21 := by omega
  have hv := (Props.C24_self_compose_valid nfl hnfl p r hv0 b1.inf_le b2.inf_le n _ h).2.1
  have key : Dir r.remove (fun _ => C) (fun _ => τ) (Multiset.replicate n.toNat .noOp) ∧
      Dir r.add (fun _ => swapProp C) (fun _ => τ) (Multiset.replicate n.toNat .noOp) := by
    unfold Pld.selfCompose at h
    cases g1 : p.remove.selfCompose nfl n 1e-15 with
    | error e => rw [g1] at h; simp at h
    | ok m =>
      rw [g1] at h
      simp only at h
      have k1 := Dir.selfCompose (C := fun _ => C) (τ := fun _ => τ) (a := .noOp) hnfl b1 hn' g1
      by_cases hs : p.symmetric = true
      · rw [if_pos hs] at h
        simp only [Except.ok.injEq] at h
        subst h
        rw [hv0.symm hs] at b2
        exact ⟨k1.1, (Dir.selfCompose (C := fun _ => swapProp C) (τ := fun _ => τ) (a := .noOp) hnfl b2 hn' g1).1⟩
      · rw [if_neg hs] at h
        cases g2 : p.add.selfCompose nfl n 1e-15 with
        | error e => rw [g2] at h; simp at h
        | ok b =>
          rw [g2] at h
          simp only [Except.ok.injEq] at h
          subst h
          exact ⟨k1.1, (Dir.selfCompose (C := fun _ => swapProp C) (τ := fun _ => τ) (a := .noOp) hnfl b2 hn' g2).1⟩
  rw [Pld.getDelta_eq hv] at hδ
  unfold Pld.hs at hδ
  intro Ω _ P Q hA
  have hA' := hA.swap
  have e1 : List.replicate n.toNat C = (List.replicate n.toNat DpEvent.noOp).map fun _ => C := by simp
  have e2 : (List.replicate n.toNat C).map swapProp = (List.replicate n.toNat DpEvent.noOp).map fun _ => swapProp C := by simp
  rw [e1] at hA
  rw [e2] at hA'
  have c1 := (key.1.curve (fun _ => hτ) (Multiset.coe_replicate _ _) hA).2 ε
  have c2 := (key.2.curve (fun _ => hτ) (Multiset.coe_replicate _ _) hA').2 ε
  simp only [Pmf.getDelta_eq_hs _ hv.wfRemove, List.map_replicate, List.sum_replicate, nsmul_eq_mul] at c1
  simp only [Pmf.getDelta_eq_hs _ hv.wfAdd, List.map_replicate, List.sum_replicate, nsmul_eq_mul] at c2
  exact ⟨Indist.mono c1 (by linarith [(le_max_left _ _).trans hδ]), Indist.mono c2 (by linarith [(le_max_right _ _).trans hδ])⟩

lemma repeated_of_pld {p r : Pld} {C : PairProp} (hp : ProperPld p) (hC : DominatesAll p C) (i1 : p.remove.infinityMass ≤ 1e-22)
    (i2 : p.add.infinityMass ≤ 1e-22) {nfl : ℕ → ℕ} (hnfl : ∀ k, k ≤ nfl k) {n : ℤ} (hn : n ≤ 10 ^ 21)
    (h : p.selfCompose nfl n 1e-15 = .ok r) {ε δ : ℝ} (hδ : r.getDeltaForEpsilon ε ≤ δ) : RepeatedPrivate C n.toNat ε δ := by
  obtain ⟨d1, d2⟩ := hp.dirOk hC
  have := repeated_of_base le_rfl hp.valid (d1.base le_rfl i1) (d2.base le_rfl i2) hnfl hn h hδ
  rwa [mul_zero, add_zero] at this

lemma RepeatedPrivate.mono {C C' : PairProp} {n : ℕ} {ε δ : ℝ} (h : RepeatedPrivate C n ε δ)
    (hC : ∀ (Ω : Type) [MeasurableSpace Ω] (P Q : Measure Ω), C' Ω P Q → C Ω P Q) : RepeatedPrivate C' n ε δ := by
  intro Ω _ P Q hA
  refine h Ω P Q ?_
  refine hA.mono ?_
  rw [List.forall₂_iff_get]
  refine ⟨by simp, fun i h1 h2 => ?_⟩
  simp only [List.get_eq_getElem, List.getElem_replicate]
  intro Ω _ P Q _ _ k
  exact hC Ω P Q k

/-! ### Laplace -/

lemma laplaceQuery_sampled {b s : ℝ} {Ω : Type} [MeasurableSpace Ω] {P Q : Measure Ω} (h : LaplaceQuery b s Ω P Q) :
    SampledLaplace b s 1 Ω P Q := by
  cases h with
  | mk a a' h => exact sampledLaplace_one ((Finset.sum_nonneg fun i _ => abs_nonneg _).trans h) a a' h

lemma indist_zero' {X : Type} [AddCommGroup X] [MeasurableSpace X] {m : AdditiveNoise X} {P Q : Measure X} (h : LossPair m P Q) {v : ℝ}
    (hv : ∀ y, ∀ L, m.privacyLoss y = .ok L → L ≤ v) : Indist P Q v 0 := by
  intro A hA
  have h1 := h.upper Set.univ v (fun y _ => hv y) A hA (Set.subset_univ _)
  linarith

lemma laplace_pure {b s : ℝ} (hb : 0 < b) (hs : 0 < s) (adj : Adj) :
    Indist (upper (laplace 0 b) s 1 adj) (lower (laplace 0 b) s 1 adj) (s / b) 0 := by
  obtain ⟨m, hm⟩ := mkLaplace_ok (b := b) (s := s) (q := 1) adj hb ⟨hs, one_pos, le_rfl⟩
  obtain ⟨hto, hloss⟩ := mkLaplace_eq hm
  obtain ⟨hf, e1, e2, e3, -, -⟩ := laplace_faithful hm
  have := indist_zero' hf.lossPair (v := s / b) fun y L hL => by
    obtain ⟨k, k0, k1, -⟩ := loss_real hf (hloss y)
    rw [hL, Except.ok.injEq] at k0
    rw [k0, k1 e2]
    exact EReal.coe_le_coe_iff.2 (laplaceLossNo_le hb hs adj y)
  rw [e1, e2, e3, ← laplace_law] at this
  exact this

lemma laplaceQuery_pure {b s : ℝ} (hb : 0 < b) (hs : 0 < s) {Ω : Type} [MeasurableSpace Ω] {P Q : Measure Ω} (h : LaplaceQuery b s Ω P Q) :
    Indist P Q (s / b) 0 ∧ Indist Q P (s / b) 0 := by
  have := sampledLaplace_indist hb zero_le_one le_rfl (laplaceQuery_sampled h) (s / b) 0
  exact ⟨this.1 (laplace_pure hb hs _), this.2 (laplace_pure hb hs _)⟩

/-! ### Discrete Laplace -/

lemma integerQuery_sampled {μ : Measure ℤ} {s : ℤ} {Ω : Type} [MeasurableSpace Ω] {P Q : Measure Ω} (h : IntegerQuery μ s Ω P Q) :
    SampledInteger μ s 1 Ω P Q := by
  cases h with
  | mk a a' h =>
    have := SampledInteger.mk (μ := μ) (s := s) (q := 1) (R := Unit) (fun S => if () ∈ S then a else a') (by
      intro S r
      by_cases hS : () ∈ S
      · simp [hS]; exact (abs_nonneg _).trans h
      · simp [hS, h]) ∅ () (by simp)
    simpa [poissonMech_one] using this

lemma dLaplaceLossNo_le {a : ℝ} {s : ℤ} (ha : 0 < a) (hs : 0 < s) (adj : Adj) (x : ℤ) : dLaplaceLossNo a s adj x ≤ s * a := by
  cases adj <;> simp only [dLaplaceLossNo] <;> refine mul_le_mul_of_nonneg_right (Int.cast_le.2 ?_) ha.le
  · have := abs_sub_abs_le_abs_sub (x - s) x
    rw [show x - s - x = -s by ring, abs_neg, abs_of_pos hs] at this
    exact this
  · have := abs_sub_abs_le_abs_sub x (x + s)
    rw [show x - (x + s) = -s by ring, abs_neg, abs_of_pos hs] at this
    exact this

lemma discreteLaplace_pure {a : ℝ} {s : ℤ} (ha : 0 < a) (hs : 0 < s) (adj : Adj) :
    Indist (upper (discreteLaplace a) s 1 adj) (lower (discreteLaplace a) s 1 adj) (s * a) 0 := by
  obtain ⟨m, hm⟩ := mkDiscreteLaplace_ok (a := a) (s := s) (q := 1) adj ha ⟨by exact_mod_cast hs, one_pos, le_rfl⟩
  obtain ⟨hto, hloss⟩ := mkDiscreteLaplace_eq hm
  obtain ⟨hf, e1, e2, e3, -, -⟩ := discreteLaplace_faithful hm
  have := indist_zero' hf.lossPair (v := s * a) fun y L hL => by
    obtain ⟨k, k0, k1, -⟩ := loss_real hf (hloss y)
    rw [hL, Except.ok.injEq] at k0
    rw [k0, k1 e2]
    exact EReal.coe_le_coe_iff.2 (dLaplaceLossNo_le ha hs adj y)
  rw [e1, e2, e3] at this
  exact this

lemma integerQuery_pure {a : ℝ} {s : ℤ} (ha : 0 < a) (hs : 0 < s) {Ω : Type} [MeasurableSpace Ω] {P Q : Measure Ω}
    (h : IntegerQuery (discreteLaplace a) s Ω P Q) : Indist P Q (s * a) 0 ∧ Indist Q P (s * a) 0 := by
  have := (discreteLaplace_logConcave ha).sampled_indist zero_le_one le_rfl (integerQuery_sampled h) (s * a) 0
  exact ⟨this.1 (discreteLaplace_pure ha hs _), this.2 (discreteLaplace_pure ha hs _)⟩

/-- Elements are only added, and the rounded up loss of every output is at most some element. -/
lemma roundEpsilons_covers {m : AdditiveNoise ℤ} (disc : ℝ) : ∀ (xs acc eps : List ℤ), roundEpsilons m disc xs acc = .ok eps →
    (∀ e ∈ acc, e ∈ eps) ∧ ∀ x ∈ xs, ∀ l : ℝ, m.privacyLoss x = .ok (l : EReal) → ∃ e ∈ eps, ⌈l / disc⌉ ≤ e := by
  intro xs
  induction xs with
  | nil =>
    intro acc eps h
    simp only [roundEpsilons, Except.ok.injEq] at h
    subst h
    exact ⟨fun e he => List.mem_reverse.2 he, by simp⟩
  | cons x xs ih =>
    intro acc eps h
    rw [roundEpsilons, bind_ok] at h
    obtain ⟨l, hl, h⟩ := h
    rw [bind_ok] at h
    obtain ⟨fl, hfl, h⟩ := h
    rw [bind_ok] at h
    obtain ⟨c, hc, h⟩ := h
    obtain ⟨a, r, h', h2, h3⟩ : ∃ a r, roundEpsilons m disc xs (a :: r) = .ok eps ∧ c ≤ a ∧ ∀ e ∈ acc, e ∈ a :: r := by
      cases acc with
      | nil =>
        by_cases hv : c > fl
        · exact ⟨c, [fl], by simpa only [if_pos hv] using h, le_rfl, by simp⟩
        · exact ⟨fl, [], by simpa only [if_neg hv] using h, not_lt.1 hv, by simp⟩
      | cons a r =>
        by_cases hu : fl > a
        · by_cases hv : c > fl
          · exact ⟨c, fl :: a :: r, by simpa only [if_pos hu, if_pos hv] using h, le_rfl, fun e he => by simp_all⟩
          · exact ⟨fl, a :: r, by simpa only [if_pos hu, if_neg hv] using h, not_lt.1 hv, fun e he => by simp_all⟩
        · by_cases hv : c > a
          · exact ⟨c, a :: r, by simpa only [if_neg hu, if_pos hv] using h, le_rfl, fun e he => by simp_all⟩
          · exact ⟨a, r, by simpa only [if_neg hu, if_neg hv] using h, not_lt.1 hv, fun e he => he⟩
    obtain ⟨k1, k2⟩ := ih _ _ h'
    refine ⟨fun e he => k1 e (h3 e he), fun y hy l' hl' => ?_⟩
    rcases List.mem_cons.1 hy with rfl | hy
    · rw [hl, Except.ok.injEq] at hl'
      subst hl'
      have : c = ⌈l' / disc⌉ := by cases hc; rfl
      exact ⟨a, k1 a (by simp), by rw [← this]; exact h2⟩
    · exact k2 y hy l' hl'

/-- The discrete Laplace mechanism has no infinite losses. -/
lemma fromDiscreteLaplace_inf {a disc : ℝ} {s : ℤ} {p : Pld} (hp : fromDiscreteLaplace a s true disc 1 true = some (.ok p))
    (hd : 0 < disc) : p.remove.infinityMass ≤ 0 ∧ p.add.infinityMass ≤ 0 := by
  refine subsampled_inf hp ?_
  intro adj pmf h
  rw [Option.some.injEq, bind_ok] at h
  obtain ⟨m, hm, h⟩ := h
  obtain ⟨hto, hloss⟩ := mkDiscreteLaplace_eq hm
  obtain ⟨hf, e1, e2, e3, hs, ha⟩ := discreteLaplace_faithful hm
  have hg : GridOk disc m.samplingProb m.adj := by rw [e2]; exact (Props.offGrid_one disc).gridOk _
  unfold createDiscrete at h
  rw [if_pos ⟨rfl, rfl⟩] at h
  have g := dotsDiscrete_good hf hd hg h
  unfold dotsDiscrete at h
  rw [bind_ok] at h
  obtain ⟨eps, heps, h⟩ := h
  rw [bind_ok] at h
  obtain ⟨deltas, hdel, h⟩ := h
  obtain ⟨hlen, hspec⟩ := getDeltas_spec hdel
  have hhs : ∀ x ∈ eps.zip deltas, IsHs (upper (discreteLaplace a) m.sensitivity m.samplingProb m.adj)
      (lower (discreteLaplace a) m.sensitivity m.samplingProb m.adj) (x.1 * disc) x.2 := by
    intro x hx
    obtain ⟨d, h1, h2⟩ := getDelta_isHs hf (x.1 * disc) (by
      rw [Props.edge_eq]
      rcases hg with hg | hg
      · exact .inl hg
      · exact .inr (hg x.1))
    rw [hspec x hx] at h1
    cases h1
    exact h2
  have p1 : IsProbabilityMeasure (upper (discreteLaplace a) m.sensitivity m.samplingProb m.adj) := upper_prob hf
  have p2 : IsProbabilityMeasure (lower (discreteLaplace a) m.sensitivity m.samplingProb m.adj) := lower_prob hf
  -- the output with the largest loss
  obtain ⟨x, hx, hxl⟩ : ∃ x ∈ (PldCommon.pyRange (dLaplaceBounds m).1 ((dLaplaceBounds m).2 + 1)).reverse, m.privacyLoss x = .ok ((s * a : ℝ) : EReal) := by
    have key : ∀ x, (dLaplaceBounds m).1 ≤ x → x ≤ (dLaplaceBounds m).2 → x ∈ (PldCommon.pyRange (dLaplaceBounds m).1 ((dLaplaceBounds m).2 + 1)).reverse := by
      intro x h1 h2
      rw [List.mem_reverse]
      unfold PldCommon.pyRange
      exact List.mem_map.2 ⟨(x - (dLaplaceBounds m).1).toNat, by rw [List.mem_range]; omega, by omega⟩
    have hl : ∀ x, m.privacyLoss x = .ok ((dLaplaceLossNo a s adj x : ℝ) : EReal) := by
      intro x
      obtain ⟨k, k0, k1, -⟩ := loss_real hf (hloss x)
      rw [k0, k1 e2]
    have hb := key
    unfold dLaplaceBounds at hb ⊢
    rw [e3, e1] at hb ⊢
    cases adj with
    | add =>
      refine ⟨0, hb 0 le_rfl hs.le, ?_⟩
      rw [hl]
      simp [dLaplaceLossNo, abs_of_pos hs]
    | remove =>
      refine ⟨-s, hb (-s) le_rfl (by simp only; omega), ?_⟩
      rw [hl]
      simp [dLaplaceLossNo, abs_of_pos hs]
  obtain ⟨e, he, hle⟩ := (roundEpsilons_covers disc _ _ _ heps).2 x hx _ hxl
  obtain ⟨i, hi, hie⟩ := List.mem_iff_getElem.1 he
  have hz : (e, deltas[i]'(hlen ▸ hi)) ∈ eps.zip deltas := by
    rw [List.mem_iff_getElem]
    exact ⟨i, by rw [List.length_zip, ← hlen, min_self]; exact hi, by rw [List.getElem_zip, hie]⟩
  have h1 := (Props.C20_exact_at_dots disc hd _ deltas pmf h _ _ hhs).2 _ hz
  have hI := discreteLaplace_pure ha hs adj
  rw [← e1, ← e2, ← e3] at hI
  have h2 := (hhs _ hz).2 (show (0 : ℝ) ∈ {d | Indist _ _ _ d} from mono_eps hI (by
    have h3 := Int.le_ceil ((s : ℝ) * a / disc)
    have h4 : ((⌈(s : ℝ) * a / disc⌉ : ℤ) : ℝ) ≤ e := by exact_mod_cast hle
    have h5 := h3.trans h4
    rw [div_le_iff₀ hd] at h5
    rw [e1]
    exact h5))
  have h3 := inf_le_hs g.nonneg ((e : ℝ) * disc)
  rw [← Pmf.getDelta_eq_hs _ g.wf] at h3
  simp only at h1 h2
  linarith

end Verif.Spec
