import Verif.Proofs.BucketRefine

/-! # Privacy buckets of continuous noise with two intervals -/

namespace Verif.Mech
open Verif.Spec Verif.Pld Verif.PldPmf Verif.PldCommon MeasureTheory ProbabilityTheory

section
variable {m : AdditiveNoise ℝ} {P Q : Measure ℝ} {pess : Bool} {c c' ε : ℝ} {loss : ℝ → ℝ}

/-- The contribution of the output `y` outside the tails. -/
noncomputable def bucketVal (pess : Bool) (loss : ℝ → ℝ) (c ε : ℝ) (y : ℝ) : ℝ := hinge ε (roundFn pess ((⌊loss y / c⌋ : ℝ) + 0.5) * c)

lemma bucketVal_anti (hloss : Antitone loss) (hc : 0 < c) : Antitone (bucketVal pess loss c ε) := by
  intro x y hxy
  refine hinge_mono _ (mul_le_mul_of_nonneg_right ?_ hc.le)
  have h1 : ⌊loss y / c⌋ ≤ ⌊loss x / c⌋ := Int.floor_le_floor (div_le_div_of_nonneg_right (hloss hxy) hc.le)
  rw [roundFn_half, roundFn_half]
  cases pess
  · simpa using h1
  · simpa using h1

lemma bucketVal_bound (pess : Bool) (loss : ℝ → ℝ) (c ε y : ℝ) : 0 ≤ bucketVal pess loss c ε y ∧ bucketVal pess loss c ε y ≤ 1 := by
  unfold bucketVal
  rw [hinge_coe]
  exact ⟨le_max_left _ _, max_le zero_le_one (by linarith [Real.exp_pos (ε - roundFn pess ((⌊loss y / c⌋ : ℝ) + 0.5) * c)])⟩

lemma bucketVal_integrable [IsFiniteMeasure P] (hloss : Antitone loss) (hc : 0 < c) : Integrable (bucketVal pess loss c ε) P := by
  refine Integrable.of_bound (bucketVal_anti hloss hc).measurable.aestronglyMeasurable 1 (Filter.Eventually.of_forall fun y => ?_)
  obtain ⟨h0, h1⟩ := bucketVal_bound pess loss c ε y
  rwa [Real.norm_of_nonneg h0]

/-- The buckets add up to an integral. -/
lemma addBuckets_eq (h : LossPair m P Q) (hloss : ∀ y, m.privacyLoss y = .ok (loss y : EReal)) (ha : Antitone loss) (hc : 0 < c) {u : EReal} :
    ∀ (l : List (EReal × ℤ)) (x : EReal) (d : PyDict), Chain m c u x l → d.keys.Nodup →
    (addBuckets m.muUpperCdf pess x l d).keys.Nodup ∧ expect (addBuckets m.muUpperCdf pess x l d) (fun k => hinge ε (k * c)) =
      expect d (fun k => hinge ε (k * c)) + ∫ y in below m u \ below m x, bucketVal pess loss c ε y ∂P := by
  have := h.probP
  intro l
  induction l with
  | nil =>
    intro x d hx hn
    have hx : x = u := hx
    subst hx
    exact ⟨hn, by simp [addBuckets]⟩
  | cons a l ih =>
    obtain ⟨x', r⟩ := a
    intro x d hx hn
    obtain ⟨c1, c2, c3⟩ := hx
    obtain ⟨g1, g2⟩ := ih x' (d.add (roundFn pess ((r : ℝ) + 0.5)) (m.muUpperCdf x' - m.muUpperCdf x)) c3 (PyDict.nodup_add hn _ _)
    refine ⟨g1, ?_⟩
    rw [addBuckets, g2, PyDict.expect_addK]
    have hset : below m u \ below m x = (below m x' \ below m x) ∪ (below m u \ below m x') := by
      have k1 := below_mono (m := m) c1
      have k2 := below_mono (m := m) c3.le
      ext y
      simp only [Set.mem_sdiff, Set.mem_union]
      constructor
      · rintro ⟨a1, a2⟩
        by_cases hy : y ∈ below m x'
        · exact .inl ⟨hy, a2⟩
        · exact .inr ⟨a1, hy⟩
      · rintro (⟨a1, a2⟩ | ⟨a1, a2⟩)
        · exact ⟨k2 a1, a2⟩
        · exact ⟨a1, fun hh => a2 (k1 hh)⟩
    have hdisj : Disjoint (below m x' \ below m x) (below m u \ below m x') :=
      Set.disjoint_left.2 fun y hy hy' => hy'.2 hy.1
    have hi := bucketVal_integrable (P := P) (pess := pess) (ε := ε) ha hc
    rw [hset, setIntegral_union hdisj ((h.below_meas u).diff (h.below_meas x')) hi.integrableOn hi.integrableOn]
    have hpiece : ∫ y in below m x' \ below m x, bucketVal pess loss c ε y ∂P =
        (m.muUpperCdf x' - m.muUpperCdf x) * hinge ε (roundFn pess ((r : ℝ) + 0.5) * c) := by
      rw [setIntegral_congr_fun (g := fun _ => hinge ε (roundFn pess ((r : ℝ) + 0.5) * c)) ((h.below_meas x').diff (h.below_meas x))]
      · rw [setIntegral_const, smul_eq_mul, h.between c1]
      · intro y hy
        obtain ⟨b1, b2⟩ := c2 y hy _ (hloss y)
        rw [EReal.coe_le_coe_iff] at b1
        rw [EReal.coe_lt_coe_iff] at b2
        have : ⌊loss y / c⌋ = r := by
          rw [Int.floor_eq_iff]
          constructor
          · rw [le_div_iff₀ hc]; linarith
          · rw [div_lt_iff₀ hc]; linarith
        simp only [bucketVal, this]
    rw [hpiece]
    ring

lemma bucketVal_le_pess {disc : ℝ} (hd : 0 < disc) {n : ℕ} (hn : 0 < n) (y : ℝ) : bucketVal true loss (disc / n) ε y ≤ bucketVal true loss disc ε y := by
  have hn' : (0 : ℝ) < n := by exact_mod_cast hn
  have hd' : 0 < disc / n := div_pos hd hn'
  refine hinge_mono _ ?_
  rw [roundFn_half, roundFn_half, if_pos rfl, if_pos rfl]
  have h1 : ⌊loss y / (disc / n)⌋ + 1 ≤ n * (⌊loss y / disc⌋ + 1) := by
    rw [Int.add_one_le_iff]
    refine Int.floor_lt.2 ?_
    have h2 := (div_lt_iff₀ hd).1 (Int.lt_floor_add_one (loss y / disc))
    rw [div_lt_iff₀ hd']
    push_cast
    calc loss y < _ := h2
      _ = _ := by field_simp
  calc (((⌊loss y / (disc / n)⌋ + 1 : ℤ)) : ℝ) * (disc / n) ≤ ((n * (⌊loss y / disc⌋ + 1) : ℤ) : ℝ) * (disc / n) :=
        mul_le_mul_of_nonneg_right (by exact_mod_cast h1) hd'.le
    _ = _ := by push_cast; field_simp

lemma bucketVal_le_opt {disc : ℝ} (hd : 0 < disc) {n : ℕ} (hn : 0 < n) (y : ℝ) : bucketVal false loss disc ε y ≤ bucketVal false loss (disc / n) ε y := by
  refine hinge_mono _ ?_
  rw [roundFn_half, roundFn_half, if_neg (by simp), if_neg (by simp)]
  exact floor_refine hd hn _

/-- The curves of the PMFs of the same noise with two intervals. -/
lemma bucketsContinuous_le (h : LossPair m P Q) (ho : LoopOk m c) (ho' : LoopOk m c') (hR : RoundLe pess c c' ε)
    (hloss : ∀ y, m.privacyLoss y = .ok (loss y : EReal)) (hV : ∀ y, bucketVal pess loss c ε y ≤ bucketVal pess loss c' ε y) (hc : 0 < c) (hc' : 0 < c')
    {t : Tail ℝ} (hlu : t.lowerX ≤ t.upperX) (h0 : ∀ x ∈ t.masses, 0 ≤ x.2) {d d' : PyDict} (hd : roundTail pess c t.masses [] = .ok d)
    (hd' : roundTail pess c' t.masses [] = .ok d') {fuel fuel' : ℕ} {p p' : Pmf} (hp : bucketsContinuous fuel m t pess c = some (.ok p))
    (hp' : bucketsContinuous fuel' m t pess c' = some (.ok p')) : p.getDeltaForEpsilon ε ≤ p'.getDeltaForEpsilon ε := by
  have := h.probP
  have ha : Antitone loss := fun x y hxy => EReal.coe_le_coe_iff.1 (h.anti (hloss x) (hloss y) (by rw [ho.idReal]; exact hxy))
  obtain ⟨n1, n2, hle⟩ := roundTail_le hR _ _ _ _ _ h0 hd hd' (by simp [PyDict.keys]) (by simp [PyDict.keys]) (by simp [expect])
  have one : ∀ {c : ℝ} {d : PyDict} {fuel : ℕ} {p : Pmf}, LoopOk m c → 0 < c → roundTail pess c t.masses [] = .ok d → d.keys.Nodup →
      bucketsContinuous fuel m t pess c = some (.ok p) →
      p.getDeltaForEpsilon ε = infinityMassOf t.masses + (expect d (fun k => hinge ε (k * c)) +
        ∫ y in below m (t.upperX : EReal) \ below m (t.lowerX : EReal), bucketVal pess loss c ε y ∂P) := by
    intro c d fuel p ho hc hd hn hp
    rw [bucketsContinuous_eq ho hd (hloss _) (hloss _)] at hp
    cases hloop : bucketLoop m.inversePrivacyLoss c (t.upperX : EReal) (loss t.upperX) fuel (t.lowerX : EReal) ⌊loss t.lowerX / c⌋ with
    | none => rw [hloop] at hp; simp at hp
    | some res =>
      rw [hloop, Option.map_some, Option.some.injEq, bind_ok] at hp
      obtain ⟨ls, rfl, hp⟩ := hp
      obtain ⟨i1, i2⟩ := start_inv ho hc h (hloss _)
      have hch := loop_sound ho hc h (hloss _) fuel _ _ _ hloop (EReal.coe_le_coe_iff.2 hlu) i1 i2
      obtain ⟨g1, g2⟩ := addBuckets_eq (pess := pess) (ε := ε) h hloss ha hc ls _ d hch hn
      obtain ⟨q, k1, k2, k3, k4, -, k6, -⟩ := createPmf_ok (inf := infinityMassOf t.masses) (pess := pess) g1 hc
      rw [hp] at k1; cases k1
      rw [Pmf.getDelta_eq_hs _ k2]
      unfold Pmf.hs hockeyStick
      rw [k3, k4, k6, g2]
  rw [one ho hc hd n1 hp, one ho' hc' hd' n2 hp']
  have := integral_mono (μ := P.restrict (below m (t.upperX : EReal) \ below m (t.lowerX : EReal))) (bucketVal_integrable (pess := pess) (ε := ε) ha hc)
    (bucketVal_integrable ha hc') hV
  linarith

end

section
variable {m : AdditiveNoise ℝ} {P Q : Measure ℝ} {f : ℝ → ℝ} {pess : Bool} {c c' : ℝ}

lemma createContinuous_le (h : Faithful m volume f) (hg : GridOk c m.samplingProb m.adj) (hg' : GridOk c' m.samplingProb m.adj)
    (hto : m.toReal = AddMonoidHom.id ℝ) (hl : ∀ x, ∃ l : ℝ, m.lossNo x = .ok (l : EReal)) (hc : 0 < c) (hc' : 0 < c')
    (hR : ∀ ε, RoundLe pess c c' ε) (hV : ∀ (loss : ℝ → ℝ) (ε y : ℝ), bucketVal pess loss c ε y ≤ bucketVal pess loss c' ε y)
    {bounds bounds' : Except Err (EReal × EReal)} {tail : Except Err (Tail ℝ)} {t : Tail ℝ} (ht : tail = .ok t) (hlu : t.lowerX ≤ t.upperX)
    (h0 : ∀ x ∈ t.masses, 0 ≤ x.2)
    {d d' : PyDict} (hd : roundTail pess c t.masses [] = .ok d) (hd' : roundTail pess c' t.masses [] = .ok d')
    {fuel fuel' : ℕ} {u u' : Bool} (hu : ¬ (u = true ∧ pess = true)) (hu' : ¬ (u' = true ∧ pess = true)) {p p' : Pmf}
    (hp : createContinuous fuel m bounds tail pess c u = some (.ok p)) (hp' : createContinuous fuel' m bounds' tail pess c' u' = some (.ok p')) (ε : ℝ) :
    p.getDeltaForEpsilon ε ≤ p'.getDeltaForEpsilon ε := by
  unfold createContinuous at hp hp'
  rw [if_neg hu, ht] at hp
  rw [if_neg hu', ht] at hp'
  have ho := loopOk h hg hto hl
  choose loss hloss using ho.fin
  exact bucketsContinuous_le h.lossPair ho (loopOk h hg' hto hl) (hR ε) hloss (hV loss ε) hc hc' hlu h0 hd hd' hp hp'

end

lemma dictPair_nonneg {k1 k2 : EReal} {v1 v2 : ℝ} (h1 : 0 ≤ v1) (h2 : 0 ≤ v2) : ∀ x ∈ dictPair k1 v1 k2 v2, 0 ≤ x.2 := by
  intro x hx
  simp only [dictPair] at hx
  split_ifs at hx
  · simp only [List.mem_singleton] at hx
    subst hx
    exact h2
  · simp only [List.mem_cons, List.not_mem_nil, or_false] at hx
    rcases hx with rfl | rfl
    · exact h1
    · exact h2

lemma cdf_range' {m : AdditiveNoise ℝ} {P Q : Measure ℝ} (h : LossPair m P Q) (x : EReal) : 0 ≤ m.muUpperCdf x ∧ m.muUpperCdf x ≤ 1 := by
  have := h.probP
  rw [h.cdf]
  exact ⟨measureReal_nonneg, measureReal_le_one⟩

/-- Laplace noise. -/
lemma fromLaplace_buckets {fuel fuel' : ℕ} {b s q c c' : ℝ} {pess u u' : Bool} {p p' : Pld} (hc : 0 < c) (hc' : 0 < c')
    (hg : ∀ adj, GridOk c q adj) (hg' : ∀ adj, GridOk c' q adj)
    (hu : ¬ (u = true ∧ pess = true)) (hu' : ¬ (u' = true ∧ pess = true)) (h : fromLaplace fuel b s pess c q u = some (.ok p))
    (h' : fromLaplace fuel' b s pess c' q u' = some (.ok p')) (hR : ∀ ε, RoundLe pess c c' ε)
    (hV : ∀ (loss : ℝ → ℝ) (ε y : ℝ), bucketVal pess loss c ε y ≤ bucketVal pess loss c' ε y) :
    (∀ e : ℝ, p.remove.getDeltaForEpsilon e ≤ p'.remove.getDeltaForEpsilon e) ∧ ∀ e : ℝ, p.add.getDeltaForEpsilon e ≤ p'.add.getDeltaForEpsilon e := by
  refine subsampled_two (C := fun x y => ∀ e : ℝ, x.getDeltaForEpsilon e ≤ y.getDeltaForEpsilon e) h h' ?_
  intro adj pmf pmf' k k' e
  cases hm : mkLaplace b s q adj with
  | error e => rw [hm] at k; simp at k
  | ok m =>
    rw [hm] at k k'
    obtain ⟨hto, hloss⟩ := mkLaplace_eq hm
    obtain ⟨t, ht, hlu, d, _, t1, -⟩ := laplaceTail_ok hm hc pess
    obtain ⟨t', ht', -, d', _, t1', -⟩ := laplaceTail_ok hm hc' pess
    rw [ht] at ht'; cases ht'
    obtain ⟨hf, rfl, rfl, rfl, hs, hb⟩ := laplace_faithful hm
    refine createContinuous_le hf (hg _) (hg' _) hto (fun x => ⟨_, hloss x⟩) hc hc' hR hV ht hlu ?_ t1 t1' hu hu' k k' e
    unfold laplaceTail at ht
    rw [bind_ok] at ht
    obtain ⟨l1, -, ht⟩ := ht
    rw [bind_ok] at ht
    obtain ⟨l2, -, ht⟩ := ht
    cases ht
    exact dictPair_nonneg (cdf_range' hf.lossPair _).1 (sub_nonneg.2 (cdf_range' hf.lossPair _).2)

/-- Gaussian noise. -/
lemma fromGaussian_buckets {fuel fuel' : ℕ} {ppf : ℝ → ℝ} {σ s lb q c c' : ℝ} {pess u u' : Bool} {p p' : Pld} (hc : 0 < c) (hc' : 0 < c')
    (hg : ∀ adj, GridOk c q adj) (hg' : ∀ adj, GridOk c' q adj) (hppf : ppf (0.5 * Real.exp lb) ≤ 0)
    (hu : ¬ (u = true ∧ pess = true)) (hu' : ¬ (u' = true ∧ pess = true)) (h : fromGaussian fuel ppf σ s pess c lb q u = some (.ok p))
    (h' : fromGaussian fuel' ppf σ s pess c' lb q u' = some (.ok p')) (hR : ∀ ε, RoundLe pess c c' ε)
    (hV : ∀ (loss : ℝ → ℝ) (ε y : ℝ), bucketVal pess loss c ε y ≤ bucketVal pess loss c' ε y) :
    (∀ e : ℝ, p.remove.getDeltaForEpsilon e ≤ p'.remove.getDeltaForEpsilon e) ∧ ∀ e : ℝ, p.add.getDeltaForEpsilon e ≤ p'.add.getDeltaForEpsilon e := by
  refine subsampled_two (C := fun x y => ∀ e : ℝ, x.getDeltaForEpsilon e ≤ y.getDeltaForEpsilon e) h h' ?_
  intro adj pmf pmf' k k' e
  cases hm : mkGaussian σ s lb q adj with
  | error e => rw [hm] at k; simp at k
  | ok m =>
    rw [hm] at k k'
    obtain ⟨hto, hloss⟩ := mkGaussian_eq hm
    obtain ⟨t, ht, hlu, d, _, t1, -⟩ := gaussianTail_ok hm hc pess hppf
    obtain ⟨t', ht', -, d', _, t1', -⟩ := gaussianTail_ok hm hc' pess hppf
    rw [ht] at ht'; cases ht'
    obtain ⟨hf, rfl, rfl, rfl, hs, hσ⟩ := gaussian_faithful hm
    refine createContinuous_le hf (hg _) (hg' _) hto (fun x => ⟨_, hloss x⟩) hc hc' hR hV ht hlu ?_ t1 t1' hu hu' k k' e
    unfold gaussianTail at ht
    cases pess
    · simp only [Bool.false_eq_true, if_false] at ht
      rw [bind_ok] at ht
      obtain ⟨l1, -, ht⟩ := ht
      cases ht
      intro x hx
      simp only [List.mem_singleton] at hx
      subst hx
      exact (cdf_range' hf.lossPair _).1
    · simp only [if_true] at ht
      rw [bind_ok] at ht
      obtain ⟨l1, -, ht⟩ := ht
      cases ht
      exact dictPair_nonneg (cdf_range' hf.lossPair _).1 (sub_nonneg.2 (cdf_range' hf.lossPair _).2)

end Verif.Mech
