import Verif.Proofs.NoisePldTails
import Verif.Proofs.SampledNoise
import Verif.Spec.PldHistory

/-! # The PLDs of the four additive noise mechanisms -/

namespace Verif.Mech
open Verif.Spec Verif.Pld Verif.PldPmf MeasureTheory ProbabilityTheory

/-! ### One direction -/

section continuous
variable {m : AdditiveNoise ℝ} {f : ℝ → ℝ} {disc : ℝ}

lemma createContinuous_good (h : Faithful m volume f) (hd : 0 < disc) (hg : GridOk disc m.samplingProb m.adj)
    (hto : m.toReal = AddMonoidHom.id ℝ) (hl : ∀ x, ∃ l : ℝ, m.lossNo x = .ok (l : EReal)) {bounds : Except Err (EReal × EReal)}
    {tail : Except Err (Tail ℝ)} {t : Tail ℝ} (ht : tail = .ok t) (hlu : t.lowerX ≤ t.upperX)
    (hok : TailOk true m (upper (volume.withDensity fun x => ENNReal.ofReal (f x)) m.sensitivity m.samplingProb m.adj)
      (lower (volume.withDensity fun x => ENNReal.ofReal (f x)) m.sensitivity m.samplingProb m.adj) t.masses disc t.lowerX t.upperX)
    {fuel : ℕ} {useDots : Bool} {pmf : Pmf} (hp : createContinuous fuel m bounds tail true disc useDots = some (.ok pmf)) :
    Good pmf disc (upper (volume.withDensity fun x => ENNReal.ofReal (f x)) m.sensitivity m.samplingProb m.adj)
      (lower (volume.withDensity fun x => ENNReal.ofReal (f x)) m.sensitivity m.samplingProb m.adj) := by
  unfold createContinuous at hp
  by_cases hu : useDots = true ∧ true = true
  · rw [if_pos hu, Option.some.injEq, bind_ok] at hp
    obtain ⟨b, -, hp⟩ := hp
    exact dotsContinuous_good h hd hg hp
  · rw [if_neg hu, ht] at hp
    exact (bucketsContinuous_approx (loopOk h hg hto hl) h.lossPair hd hlu hok hp).good

lemma createContinuous_optimistic (h : Faithful m volume f) (hd : 0 < disc) (hg : GridOk disc m.samplingProb m.adj)
    (hto : m.toReal = AddMonoidHom.id ℝ) (hl : ∀ x, ∃ l : ℝ, m.lossNo x = .ok (l : EReal)) {bounds : Except Err (EReal × EReal)}
    {tail : Except Err (Tail ℝ)} {t : Tail ℝ} (ht : tail = .ok t) (hlu : t.lowerX ≤ t.upperX)
    (hok : TailOk false m (upper (volume.withDensity fun x => ENNReal.ofReal (f x)) m.sensitivity m.samplingProb m.adj)
      (lower (volume.withDensity fun x => ENNReal.ofReal (f x)) m.sensitivity m.samplingProb m.adj) t.masses disc t.lowerX t.upperX)
    {fuel : ℕ} {useDots : Bool} {pmf : Pmf} (hp : createContinuous fuel m bounds tail false disc useDots = some (.ok pmf)) :
    Approx false pmf disc (upper (volume.withDensity fun x => ENNReal.ofReal (f x)) m.sensitivity m.samplingProb m.adj)
      (lower (volume.withDensity fun x => ENNReal.ofReal (f x)) m.sensitivity m.samplingProb m.adj) := by
  unfold createContinuous at hp
  rw [if_neg (by simp), ht] at hp
  exact bucketsContinuous_approx (loopOk h hg hto hl) h.lossPair hd hlu hok hp

lemma createContinuous_accept (h : Faithful m volume f) (hd : 0 < disc) (hg : GridOk disc m.samplingProb m.adj)
    (hto : m.toReal = AddMonoidHom.id ℝ) (hl : ∀ x, ∃ l : ℝ, m.lossNo x = .ok (l : EReal)) {bounds : Except Err (EReal × EReal)}
    {l u : ℝ} (hb : bounds = .ok ((l : EReal), (u : EReal))) (hbl : l ≤ u)
    {tail : Except Err (Tail ℝ)} {t : Tail ℝ} (ht : tail = .ok t) (hlu : t.lowerX ≤ t.upperX) {pess : Bool}
    (hok : TailOk pess m (upper (volume.withDensity fun x => ENNReal.ofReal (f x)) m.sensitivity m.samplingProb m.adj)
      (lower (volume.withDensity fun x => ENNReal.ofReal (f x)) m.sensitivity m.samplingProb m.adj) t.masses disc t.lowerX t.upperX)
    (useDots : Bool) : ∃ N, ∀ fuel, N < fuel → ∃ pmf, createContinuous fuel m bounds tail pess disc useDots = some (.ok pmf) := by
  unfold createContinuous
  by_cases hu : useDots = true ∧ pess = true
  · obtain ⟨pmf, hp⟩ := dotsContinuous_accept h hd hg hbl
    refine ⟨0, fun _ _ => ⟨pmf, ?_⟩⟩
    rw [if_pos hu, hb]
    exact congrArg some hp
  · obtain ⟨N, hN⟩ := bucketsContinuous_accept (loopOk h hg hto hl) h.lossPair hd hlu hok
    refine ⟨N, fun fuel hf => ?_⟩
    rw [if_neg hu, ht]
    exact hN fuel hf

end continuous

section discrete
variable {m : AdditiveNoise ℤ} {f : ℤ → ℝ} {disc : ℝ}

lemma createDiscrete_good (h : Faithful m Measure.count f) (hd : 0 < disc) (hg : GridOk disc m.samplingProb m.adj)
    (hto : m.toReal = Int.castAddHom ℝ) {bounds : ℤ × ℤ}
    {tail : Except Err (Tail ℤ)} {t : Tail ℤ} (ht : tail = .ok t) (hlu : t.lowerX ≤ t.upperX + 1)
    (hok : TailOk true m (upper (Measure.count.withDensity fun x => ENNReal.ofReal (f x)) m.sensitivity m.samplingProb m.adj)
      (lower (Measure.count.withDensity fun x => ENNReal.ofReal (f x)) m.sensitivity m.samplingProb m.adj) t.masses disc
      (((t.lowerX - 1 : ℤ) : ℝ) : EReal) (((t.upperX : ℤ) : ℝ) : EReal))
    {useDots : Bool} {pmf : Pmf} (hp : createDiscrete m bounds tail true disc useDots = .ok pmf) :
    Good pmf disc (upper (Measure.count.withDensity fun x => ENNReal.ofReal (f x)) m.sensitivity m.samplingProb m.adj)
      (lower (Measure.count.withDensity fun x => ENNReal.ofReal (f x)) m.sensitivity m.samplingProb m.adj) := by
  unfold createDiscrete at hp
  by_cases hu : useDots = true ∧ true = true
  · rw [if_pos hu] at hp
    exact dotsDiscrete_good h hd hg hp
  · rw [if_neg hu, ht] at hp
    exact (bucketsDiscrete_approx hto h.lossPair hd hlu hok hp).good

lemma createDiscrete_optimistic (h : Faithful m Measure.count f) (hd : 0 < disc)
    (hto : m.toReal = Int.castAddHom ℝ) {bounds : ℤ × ℤ}
    {tail : Except Err (Tail ℤ)} {t : Tail ℤ} (ht : tail = .ok t) (hlu : t.lowerX ≤ t.upperX + 1)
    (hok : TailOk false m (upper (Measure.count.withDensity fun x => ENNReal.ofReal (f x)) m.sensitivity m.samplingProb m.adj)
      (lower (Measure.count.withDensity fun x => ENNReal.ofReal (f x)) m.sensitivity m.samplingProb m.adj) t.masses disc
      (((t.lowerX - 1 : ℤ) : ℝ) : EReal) (((t.upperX : ℤ) : ℝ) : EReal))
    {useDots : Bool} {pmf : Pmf} (hp : createDiscrete m bounds tail false disc useDots = .ok pmf) :
    Approx false pmf disc (upper (Measure.count.withDensity fun x => ENNReal.ofReal (f x)) m.sensitivity m.samplingProb m.adj)
      (lower (Measure.count.withDensity fun x => ENNReal.ofReal (f x)) m.sensitivity m.samplingProb m.adj) := by
  unfold createDiscrete at hp
  rw [if_neg (by simp), ht] at hp
  exact bucketsDiscrete_approx hto h.lossPair hd hlu hok hp

lemma createDiscrete_accept (h : Faithful m Measure.count f) (hd : 0 < disc) (hg : GridOk disc m.samplingProb m.adj)
    (hto : m.toReal = Int.castAddHom ℝ) {bounds : ℤ × ℤ} (hb : bounds.1 ≤ bounds.2)
    (hbl : ∀ x, bounds.1 ≤ x → x ≤ bounds.2 → ∃ l : ℝ, m.privacyLoss x = .ok (l : EReal))
    {tail : Except Err (Tail ℤ)} {t : Tail ℤ} (ht : tail = .ok t) (hlu : t.lowerX ≤ t.upperX + 1)
    (htl : ∀ x, t.lowerX ≤ x → x ≤ t.upperX → ∃ l : ℝ, m.privacyLoss x = .ok (l : EReal)) {pess : Bool}
    (hok : TailOk pess m (upper (Measure.count.withDensity fun x => ENNReal.ofReal (f x)) m.sensitivity m.samplingProb m.adj)
      (lower (Measure.count.withDensity fun x => ENNReal.ofReal (f x)) m.sensitivity m.samplingProb m.adj) t.masses disc
      (((t.lowerX - 1 : ℤ) : ℝ) : EReal) (((t.upperX : ℤ) : ℝ) : EReal))
    (useDots : Bool) : ∃ pmf, createDiscrete m bounds tail pess disc useDots = .ok pmf := by
  unfold createDiscrete
  by_cases hu : useDots = true ∧ pess = true
  · rw [if_pos hu]
    exact dotsDiscrete_accept h hd hg hb hbl
  · rw [if_neg hu, ht]
    exact bucketsDiscrete_accept hto h.lossPair hd hlu hok htl

end discrete

/-! ### Both directions -/

section both
variable {X : Type} [AddCommGroup X] [MeasurableSpace X] [MeasurableAdd X]

lemma mixShift_one (μ : Measure X) (d : X) : mixShift μ 1 d = μ.map fun x => x + d := by
  unfold mixShift; simp

/-- Without sampling the REMOVE pair is a translate of the ADD pair. -/
lemma add_of_remove (μ : Measure X) (s : X) {ε δ : ℝ} (h : Indist (upper μ s 1 .remove) (lower μ s 1 .remove) ε δ) :
    Indist (upper μ s 1 .add) (lower μ s 1 .add) ε δ := by
  intro S hS
  have hm : Measurable fun x : X => x + s := measurable_add_const s
  have := h ((fun x => x + s) ⁻¹' S) (hm hS)
  simp only [upper, lower, mixShift_one] at this ⊢
  rw [measureReal_def, Measure.map_apply (measurable_add_const _) (hm hS), ← Set.preimage_comp] at this
  rw [measureReal_def (μ.map _), Measure.map_apply hm hS]
  have e : (fun x => x + s) ∘ (fun x : X => x + -s) = id := by ext x; simp
  rw [e, Set.preimage_id] at this
  exact this

lemma remove_of_add (μ : Measure X) (s : X) {ε δ : ℝ} (h : Indist (upper μ s 1 .add) (lower μ s 1 .add) ε δ) :
    Indist (upper μ s 1 .remove) (lower μ s 1 .remove) ε δ := by
  intro S hS
  have hm : Measurable fun x : X => x + -s := measurable_add_const _
  have := h ((fun x => x + -s) ⁻¹' S) (hm hS)
  simp only [upper, lower, mixShift_one] at this ⊢
  rw [measureReal_def (μ.map _), Measure.map_apply (measurable_add_const _) (hm hS), ← Set.preimage_comp] at this
  rw [measureReal_def (μ.map _), Measure.map_apply hm hS]
  have e : (fun x => x + -s) ∘ (fun x : X => x + s) = id := by ext x; simp
  rw [e, Set.preimage_id] at this
  exact this

/-- The scalar result: a proper PLD, valid for both directions. -/
structure GoodPld (p : Pld) (disc : ℝ) (μ : Measure X) (s : X) (q : ℝ) : Prop where
  proper : ProperPld p
  disc : p.remove.disc = disc
  remove : CurveValid (upper μ s q .remove) (lower μ s q .remove) fun e => p.remove.getDeltaForEpsilon e
  add : CurveValid (upper μ s q .add) (lower μ s q .add) fun e => p.add.getDeltaForEpsilon e

lemma subsampled_good {single : Adj → Option (Except Err Pmf)} {q disc : ℝ} {p : Pld} {μ : Measure X} {s : X}
    (hp : subsampledPld single q = some (.ok p))
    (hs : ∀ adj pmf, single adj = some (.ok pmf) → Good pmf disc (upper μ s q adj) (lower μ s q adj)) : GoodPld p disc μ s q := by
  classical
  unfold subsampledPld at hp
  cases h1 : single .remove with
  | none => rw [h1] at hp; simp at hp
  | some r =>
    cases r with
    | error e => rw [h1] at hp; simp at hp
    | ok r =>
      rw [h1] at hp
      simp only [] at hp
      have g := hs _ _ h1
      by_cases hq : q = 1
      · rw [if_pos hq] at hp
        simp only [Option.some.injEq, Except.ok.injEq] at hp
        subst hp hq
        exact ⟨⟨Pld.valid_none g.wf, g.pess, g.nonneg, g.nonneg, g.mass, g.mass⟩, g.disc, g.valid, fun ε => add_of_remove μ s (g.valid ε)⟩
      · rw [if_neg hq] at hp
        cases h2 : single .add with
        | none => rw [h2] at hp; simp at hp
        | some a =>
          cases a with
          | error e => rw [h2] at hp; simp at hp
          | ok a =>
            rw [h2] at hp
            simp only [Option.some.injEq, Except.ok.injEq] at hp
            subst hp
            have g' := hs _ _ h2
            exact ⟨⟨Pld.valid_some g.wf g'.wf (by rw [g.disc, g'.disc]) (by rw [g.pess, g'.pess]), g.pess, g.nonneg, g'.nonneg, g.mass, g'.mass⟩,
              g.disc, g.valid, g'.valid⟩

lemma subsampled_optimistic {single : Adj → Option (Except Err Pmf)} {q disc : ℝ} {p : Pld} {μ : Measure X} {s : X}
    (hp : subsampledPld single q = some (.ok p))
    (hs : ∀ adj pmf, single adj = some (.ok pmf) → pmf.WF ∧ pmf.disc = disc ∧ pmf.pessimistic = false ∧
      ∀ ε δ, Indist (upper μ s q adj) (lower μ s q adj) ε δ → pmf.getDeltaForEpsilon ε ≤ δ) :
    p.Valid ∧ p.remove.disc = disc ∧ p.remove.pessimistic = false ∧
      ∀ ε δ, (Indist (upper μ s q .remove) (lower μ s q .remove) ε δ → p.remove.getDeltaForEpsilon ε ≤ δ) ∧
        (Indist (upper μ s q .add) (lower μ s q .add) ε δ → p.add.getDeltaForEpsilon ε ≤ δ) := by
  classical
  unfold subsampledPld at hp
  cases h1 : single .remove with
  | none => rw [h1] at hp; simp at hp
  | some r =>
    cases r with
    | error e => rw [h1] at hp; simp at hp
    | ok r =>
      rw [h1] at hp
      simp only [] at hp
      obtain ⟨g1, g2, g3, g4⟩ := hs _ _ h1
      by_cases hq : q = 1
      · rw [if_pos hq] at hp
        simp only [Option.some.injEq, Except.ok.injEq] at hp
        subst hp hq
        exact ⟨Pld.valid_none g1, g2, g3, fun ε δ => ⟨g4 ε δ, fun h => g4 ε δ (remove_of_add μ s h)⟩⟩
      · rw [if_neg hq] at hp
        cases h2 : single .add with
        | none => rw [h2] at hp; simp at hp
        | some a =>
          cases a with
          | error e => rw [h2] at hp; simp at hp
          | ok a =>
            rw [h2] at hp
            simp only [Option.some.injEq, Except.ok.injEq] at hp
            subst hp
            obtain ⟨a1, a2, a3, a4⟩ := hs _ _ h2
            exact ⟨Pld.valid_some g1 a1 (by rw [g2, a2]) (by rw [g3, a3]), g2, g3, fun ε δ => ⟨g4 ε δ, a4 ε δ⟩⟩

lemma subsampled_accept {single : ℕ → Adj → Option (Except Err Pmf)} {q : ℝ}
    (hs : ∀ adj, ∃ N, ∀ fuel, N < fuel → ∃ pmf, single fuel adj = some (.ok pmf)) :
    ∃ N, ∀ fuel, N < fuel → ∃ p, subsampledPld (single fuel) q = some (.ok p) := by
  classical
  obtain ⟨N1, h1⟩ := hs .remove
  obtain ⟨N2, h2⟩ := hs .add
  refine ⟨max N1 N2, fun fuel hf => ?_⟩
  obtain ⟨r, hr⟩ := h1 fuel (lt_of_le_of_lt (le_max_left _ _) hf)
  obtain ⟨a, ha⟩ := h2 fuel (lt_of_le_of_lt (le_max_right _ _) hf)
  unfold subsampledPld
  rw [hr, ha]
  by_cases hq : q = 1
  · exact ⟨Pld.mk' r none, by simp only [if_pos hq]⟩
  · exact ⟨Pld.mk' r (some a), by simp only [if_neg hq]⟩

end both

/-! ### Laplace -/

lemma fromLaplace_good {fuel : ℕ} {b s disc q : ℝ} {useDots : Bool} {p : Pld} (hp : fromLaplace fuel b s true disc q useDots = some (.ok p))
    (hd : 0 < disc) (hg : ∀ adj, GridOk disc q adj) : GoodPld p disc (laplace 0 b) s q := by
  refine subsampled_good hp ?_
  intro adj pmf h
  cases hm : mkLaplace b s q adj with
  | error e => rw [hm] at h; simp at h
  | ok m =>
    rw [hm] at h
    obtain ⟨hto, hloss⟩ := mkLaplace_eq hm
    obtain ⟨t, ht, hlu, hok⟩ := laplaceTail_ok hm hd true
    obtain ⟨hf, rfl, rfl, rfl, hs, hb⟩ := laplace_faithful hm
    rw [laplace_law] at hok ⊢
    exact createContinuous_good hf hd (hg _) hto (fun x => ⟨_, hloss x⟩) ht hlu hok h

lemma fromLaplace_optimistic {fuel : ℕ} {b s disc q : ℝ} {useDots : Bool} {p : Pld} (hp : fromLaplace fuel b s false disc q useDots = some (.ok p))
    (hd : 0 < disc) (hg : ∀ adj, GridOk disc q adj) :
    p.Valid ∧ p.remove.disc = disc ∧ p.remove.pessimistic = false ∧
      ∀ ε δ, (Indist (upper (laplace 0 b) s q .remove) (lower (laplace 0 b) s q .remove) ε δ → p.remove.getDeltaForEpsilon ε ≤ δ) ∧
        (Indist (upper (laplace 0 b) s q .add) (lower (laplace 0 b) s q .add) ε δ → p.add.getDeltaForEpsilon ε ≤ δ) := by
  refine subsampled_optimistic hp ?_
  intro adj pmf h
  cases hm : mkLaplace b s q adj with
  | error e => rw [hm] at h; simp at h
  | ok m =>
    rw [hm] at h
    obtain ⟨hto, hloss⟩ := mkLaplace_eq hm
    obtain ⟨t, ht, hlu, hok⟩ := laplaceTail_ok hm hd false
    obtain ⟨hf, rfl, rfl, rfl, hs, hb⟩ := laplace_faithful hm
    rw [laplace_law] at hok ⊢
    have g := createContinuous_optimistic hf hd (hg _) hto (fun x => ⟨_, hloss x⟩) ht hlu hok h
    exact ⟨g.wf, g.disc, g.flag, fun ε δ hi => g.optimistic hf.lossPair hi⟩

lemma fromLaplace_accept {b s disc q : ℝ} (pess useDots : Bool) (hb : 0 < b) (hs : 0 < s) (q0 : 0 < q) (q1 : q ≤ 1) (hd : 0 < disc)
    (hg : ∀ adj, GridOk disc q adj) : ∃ N, ∀ fuel, N < fuel → ∃ p, fromLaplace fuel b s pess disc q useDots = some (.ok p) := by
  refine subsampled_accept (single := fun fuel adj => match mkLaplace b s q adj with
    | .error e => some (.error e)
    | .ok m => createContinuous fuel m (laplaceBounds b m) (laplaceTail m) pess disc useDots) ?_
  intro adj
  obtain ⟨m, hm⟩ := mkLaplace_ok (b := b) adj hb ⟨hs, q0, q1⟩
  obtain ⟨hto, hloss⟩ := mkLaplace_eq hm
  obtain ⟨t, ht, hlu, hok⟩ := laplaceTail_ok hm hd pess
  obtain ⟨l, u, hbd, hle⟩ := laplaceBounds_ok hm
  simp only [hm]
  obtain ⟨hf, rfl, rfl, rfl, -, -⟩ := laplace_faithful hm
  rw [laplace_law] at hok
  exact createContinuous_accept hf hd (hg _) hto (fun x => ⟨_, hloss x⟩) hbd hle ht hlu hok useDots

/-! ### Gaussian -/

lemma fromGaussian_good {fuel : ℕ} {ppf : ℝ → ℝ} {σ s disc lb q : ℝ} {useDots : Bool} {p : Pld}
    (hp : fromGaussian fuel ppf σ s true disc lb q useDots = some (.ok p)) (hppf : ppf (0.5 * Real.exp lb) ≤ 0)
    (hd : 0 < disc) (hg : ∀ adj, GridOk disc q adj) : GoodPld p disc (gaussianReal 0 (Real.toNNReal (σ ^ 2))) s q := by
  refine subsampled_good hp ?_
  intro adj pmf h
  cases hm : mkGaussian σ s lb q adj with
  | error e => rw [hm] at h; simp at h
  | ok m =>
    rw [hm] at h
    obtain ⟨hto, hloss⟩ := mkGaussian_eq hm
    obtain ⟨t, ht, hlu, hok⟩ := gaussianTail_ok hm hd true hppf
    obtain ⟨hf, rfl, rfl, rfl, hs, hσ⟩ := gaussian_faithful hm
    rw [gaussian_law hσ] at hok ⊢
    exact createContinuous_good hf hd (hg _) hto (fun x => ⟨_, hloss x⟩) ht hlu hok h

lemma fromGaussian_optimistic {fuel : ℕ} {ppf : ℝ → ℝ} {σ s disc lb q : ℝ} {useDots : Bool} {p : Pld}
    (hp : fromGaussian fuel ppf σ s false disc lb q useDots = some (.ok p)) (hppf : ppf (0.5 * Real.exp lb) ≤ 0)
    (hd : 0 < disc) (hg : ∀ adj, GridOk disc q adj) :
    p.Valid ∧ p.remove.disc = disc ∧ p.remove.pessimistic = false ∧
      ∀ ε δ, (Indist (upper (gaussianReal 0 (Real.toNNReal (σ ^ 2))) s q .remove) (lower (gaussianReal 0 (Real.toNNReal (σ ^ 2))) s q .remove) ε δ →
          p.remove.getDeltaForEpsilon ε ≤ δ) ∧
        (Indist (upper (gaussianReal 0 (Real.toNNReal (σ ^ 2))) s q .add) (lower (gaussianReal 0 (Real.toNNReal (σ ^ 2))) s q .add) ε δ →
          p.add.getDeltaForEpsilon ε ≤ δ) := by
  refine subsampled_optimistic hp ?_
  intro adj pmf h
  cases hm : mkGaussian σ s lb q adj with
  | error e => rw [hm] at h; simp at h
  | ok m =>
    rw [hm] at h
    obtain ⟨hto, hloss⟩ := mkGaussian_eq hm
    obtain ⟨t, ht, hlu, hok⟩ := gaussianTail_ok hm hd false hppf
    obtain ⟨hf, rfl, rfl, rfl, hs, hσ⟩ := gaussian_faithful hm
    rw [gaussian_law hσ] at hok ⊢
    have g := createContinuous_optimistic hf hd (hg _) hto (fun x => ⟨_, hloss x⟩) ht hlu hok h
    exact ⟨g.wf, g.disc, g.flag, fun ε δ hi => g.optimistic hf.lossPair hi⟩

lemma fromGaussian_accept {ppf : ℝ → ℝ} {σ s disc lb q : ℝ} (pess useDots : Bool) (hσ : 0 < σ) (hlb : lb ≤ 0) (hs : 0 < s) (q0 : 0 < q)
    (q1 : q ≤ 1) (hppf : ppf (0.5 * Real.exp lb) ≤ 0) (hd : 0 < disc)
    (hg : ∀ adj, GridOk disc q adj) : ∃ N, ∀ fuel, N < fuel → ∃ p, fromGaussian fuel ppf σ s pess disc lb q useDots = some (.ok p) := by
  refine subsampled_accept (single := fun fuel adj => match mkGaussian σ s lb q adj with
    | .error e => some (.error e)
    | .ok m => createContinuous fuel m (gaussianBounds ppf lb pess m) (gaussianTail ppf lb pess m) pess disc useDots) ?_
  intro adj
  obtain ⟨m, hm⟩ := mkGaussian_ok (σ := σ) adj hσ hlb ⟨hs, q0, q1⟩
  obtain ⟨hto, hloss⟩ := mkGaussian_eq hm
  obtain ⟨t, ht, hlu, hok⟩ := gaussianTail_ok hm hd pess hppf
  obtain ⟨l, u, hbd, hle⟩ := gaussianBounds_ok hm pess hppf
  simp only [hm]
  obtain ⟨hf, rfl, rfl, rfl, -, -⟩ := gaussian_faithful hm
  rw [gaussian_law hσ] at hok
  exact createContinuous_accept hf hd (hg _) hto (fun x => ⟨_, hloss x⟩) hbd hle ht hlu hok useDots

/-! ### Discrete Laplace -/

lemma fromDiscreteLaplace_good {a disc q : ℝ} {s : ℤ} {useDots : Bool} {p : Pld}
    (hp : fromDiscreteLaplace a s true disc q useDots = some (.ok p))
    (hd : 0 < disc) (hg : ∀ adj, GridOk disc q adj) : GoodPld p disc (discreteLaplace a) s q := by
  refine subsampled_good hp ?_
  intro adj pmf h
  rw [Option.some.injEq, bind_ok] at h
  obtain ⟨m, hm, h⟩ := h
  obtain ⟨hto, hloss⟩ := mkDiscreteLaplace_eq hm
  obtain ⟨t, ht, hlu, hok⟩ := dLaplaceTail_ok hm hd true
  obtain ⟨hf, rfl, rfl, rfl, hs, ha⟩ := discreteLaplace_faithful hm
  exact createDiscrete_good hf hd (hg _) hto ht hlu hok h

lemma fromDiscreteLaplace_optimistic {a disc q : ℝ} {s : ℤ} {useDots : Bool} {p : Pld}
    (hp : fromDiscreteLaplace a s false disc q useDots = some (.ok p)) (hd : 0 < disc) :
    p.Valid ∧ p.remove.disc = disc ∧ p.remove.pessimistic = false ∧
      ∀ ε δ, (Indist (upper (discreteLaplace a) s q .remove) (lower (discreteLaplace a) s q .remove) ε δ → p.remove.getDeltaForEpsilon ε ≤ δ) ∧
        (Indist (upper (discreteLaplace a) s q .add) (lower (discreteLaplace a) s q .add) ε δ → p.add.getDeltaForEpsilon ε ≤ δ) := by
  refine subsampled_optimistic hp ?_
  intro adj pmf h
  rw [Option.some.injEq, bind_ok] at h
  obtain ⟨m, hm, h⟩ := h
  obtain ⟨hto, hloss⟩ := mkDiscreteLaplace_eq hm
  obtain ⟨t, ht, hlu, hok⟩ := dLaplaceTail_ok hm hd false
  obtain ⟨hf, rfl, rfl, rfl, hs, ha⟩ := discreteLaplace_faithful hm
  have g := createDiscrete_optimistic hf hd hto ht hlu hok h
  exact ⟨g.wf, g.disc, g.flag, fun ε δ hi => g.optimistic hf.lossPair hi⟩

lemma fromDiscreteLaplace_accept {a disc q : ℝ} {s : ℤ} (pess useDots : Bool) (ha : 0 < a) (hs : 0 < s) (q0 : 0 < q) (q1 : q ≤ 1)
    (hd : 0 < disc) (hg : ∀ adj, GridOk disc q adj) : ∃ p, fromDiscreteLaplace a s pess disc q useDots = some (.ok p) := by
  obtain ⟨N, hN⟩ := subsampled_accept (q := q) (single := fun _ adj => some (do
    let m ← mkDiscreteLaplace a s q adj
    createDiscrete m (dLaplaceBounds m) (dLaplaceTail m) pess disc useDots)) (by
    intro adj
    obtain ⟨m, hm⟩ := mkDiscreteLaplace_ok (a := a) (s := s) (q := q) adj ha ⟨by exact_mod_cast hs, q0, q1⟩
    obtain ⟨hto, hloss⟩ := mkDiscreteLaplace_eq hm
    obtain ⟨t, ht, hlu, hok⟩ := dLaplaceTail_ok hm hd pess
    obtain ⟨hf, rfl, rfl, rfl, hs, ha⟩ := discreteLaplace_faithful hm
    have hfin : ∀ x, ∃ l : ℝ, m.privacyLoss x = .ok (l : EReal) := fun x => by
      obtain ⟨k, hk, -⟩ := loss_real hf (hloss x)
      exact ⟨k, hk⟩
    obtain ⟨pmf, hp⟩ := createDiscrete_accept hf hd (hg _) hto (bounds := dLaplaceBounds m) (by
      unfold dLaplaceBounds; cases m.adj <;> simp only [] <;> omega) (fun x _ _ => hfin x) ht hlu (fun x _ _ => hfin x) hok useDots
    refine ⟨0, fun _ _ => ⟨pmf, ?_⟩⟩
    rw [hm]
    exact congrArg some hp)
  exact hN (N + 1) (Nat.lt_succ_self N)

lemma discreteLaplace_logConcave {a : ℝ} (ha : 0 < a) :
    LogConcave (fun k : ℤ => (Real.exp a - 1) / (Real.exp a + 1) * Real.exp (-a * |(k : ℝ)|)) := by
  have h1 : 1 < Real.exp a := Real.one_lt_exp_iff.2 ha
  have hc : 0 < (Real.exp a - 1) / (Real.exp a + 1) := div_pos (by linarith) (by linarith)
  refine ⟨fun x => mul_nonneg hc.le (Real.exp_pos _).le, fun x => by simp, ?_, discreteLaplace_prob ha⟩
  intro x y t hxy ht
  generalize (Real.exp a - 1) / (Real.exp a + 1) = c at hc
  have key : |((x + t : ℤ) : ℝ)| + |(y : ℝ)| ≤ |(x : ℝ)| + |((y + t : ℤ) : ℝ)| := by
    have : |x + t| + |y| ≤ |x| + |y + t| := by
      rcases abs_cases (x + t) with ⟨a1, a2⟩ | ⟨a1, a2⟩ <;> rcases abs_cases y with ⟨b1, b2⟩ | ⟨b1, b2⟩ <;>
        rcases abs_cases x with ⟨c1, c2⟩ | ⟨c1, c2⟩ <;> rcases abs_cases (y + t) with ⟨d1, d2⟩ | ⟨d1, d2⟩ <;> omega
    exact_mod_cast this
  have e : ∀ u v : ℝ, c * Real.exp (-a * u) * (c * Real.exp (-a * v)) = c * c * Real.exp (-a * (u + v)) := by
    intro u v; rw [mul_add, Real.exp_add]; ring
  rw [e, e]
  exact mul_le_mul_of_nonneg_left (Real.exp_le_exp.2 (by nlinarith)) (by positivity)

/-! ### Discrete Gaussian -/

lemma fromDiscreteGaussian_good {σ disc q : ℝ} {s : ℤ} {bound : Option ℤ} {useDots : Bool} {p : Pld}
    (hp : fromDiscreteGaussian σ s bound true disc q useDots = some (.ok p))
    (hd : 0 < disc) (hg : ∀ adj, GridOk disc q adj) : GoodPld p disc (discreteGaussian σ (dgBound σ bound)) s q := by
  refine subsampled_good hp ?_
  intro adj pmf h
  rw [Option.some.injEq, bind_ok] at h
  obtain ⟨m, hm, h⟩ := h
  obtain ⟨hto, hloss⟩ := mkDiscreteGaussian_eq hm
  obtain ⟨hlu, hok⟩ := dGaussianTail_ok hm (disc := disc) true
  obtain ⟨hf, rfl, rfl, rfl, hs, ha, -⟩ := discreteGaussian_faithful hm
  exact createDiscrete_good hf hd (hg _) hto rfl (by omega) hok h

lemma fromDiscreteGaussian_optimistic {σ disc q : ℝ} {s : ℤ} {bound : Option ℤ} {useDots : Bool} {p : Pld}
    (hp : fromDiscreteGaussian σ s bound false disc q useDots = some (.ok p)) (hd : 0 < disc) :
    p.Valid ∧ p.remove.disc = disc ∧ p.remove.pessimistic = false ∧
      ∀ ε δ, (Indist (upper (discreteGaussian σ (dgBound σ bound)) s q .remove) (lower (discreteGaussian σ (dgBound σ bound)) s q .remove) ε δ →
          p.remove.getDeltaForEpsilon ε ≤ δ) ∧
        (Indist (upper (discreteGaussian σ (dgBound σ bound)) s q .add) (lower (discreteGaussian σ (dgBound σ bound)) s q .add) ε δ →
          p.add.getDeltaForEpsilon ε ≤ δ) := by
  refine subsampled_optimistic hp ?_
  intro adj pmf h
  rw [Option.some.injEq, bind_ok] at h
  obtain ⟨m, hm, h⟩ := h
  obtain ⟨hto, hloss⟩ := mkDiscreteGaussian_eq hm
  obtain ⟨hlu, hok⟩ := dGaussianTail_ok hm (disc := disc) false
  obtain ⟨hf, rfl, rfl, rfl, hs, ha, -⟩ := discreteGaussian_faithful hm
  have g := createDiscrete_optimistic hf hd hto rfl (by omega) hok h
  exact ⟨g.wf, g.disc, g.flag, fun ε δ hi => g.optimistic hf.lossPair hi⟩

lemma fromDiscreteGaussian_accept {σ disc q : ℝ} {s : ℤ} {bound : Option ℤ} (pess useDots : Bool) (hσ : 0 < σ) (hs : 0 < s)
    (hT : s ≤ 2 * dgBound σ bound) (q0 : 0 < q) (q1 : q ≤ 1)
    (hd : 0 < disc) (hg : ∀ adj, GridOk disc q adj) : ∃ p, fromDiscreteGaussian σ s bound pess disc q useDots = some (.ok p) := by
  obtain ⟨N, hN⟩ := subsampled_accept (q := q) (single := fun _ adj => some (do
    let m ← mkDiscreteGaussian σ s bound q adj
    createDiscrete m (dGaussianBounds (dgBound σ bound) m) (.ok (dGaussianTail (dgBound σ bound) m)) pess disc useDots)) (by
    intro adj
    obtain ⟨m, hm⟩ := mkDiscreteGaussian_ok (σ := σ) (s := s) (bound := bound) (q := q) adj hσ hT ⟨by exact_mod_cast hs, q0, q1⟩
    obtain ⟨hto, hloss⟩ := mkDiscreteGaussian_eq hm
    obtain ⟨hlu, hok⟩ := dGaussianTail_ok hm (disc := disc) pess
    obtain ⟨hf, rfl, rfl, rfl, hs, ha, -⟩ := discreteGaussian_faithful hm
    obtain ⟨pmf, hp⟩ := createDiscrete_accept hf hd (hg _) hto (bounds := dGaussianBounds (dgBound σ bound) m) hlu
      (fun x h1 h2 => dGaussian_finite hm x h1 h2) rfl (by omega) (fun x h1 h2 => dGaussian_finite hm x h1 h2) hok useDots
    refine ⟨0, fun _ _ => ⟨pmf, ?_⟩⟩
    rw [hm]
    exact congrArg some hp)
  exact hN (N + 1) (Nat.lt_succ_self N)

lemma discreteGaussian_logConcave {σ : ℝ} {T : ℤ} (hp : IsProbabilityMeasure (discreteGaussian σ T)) : LogConcave (dgF σ T) := by
  refine ⟨dgF_nonneg σ T, ?_, ?_, hp⟩
  · intro x
    have : -x ∈ Finset.Icc (-T) T ↔ x ∈ Finset.Icc (-T) T := by simp only [Finset.mem_Icc]; omega
    unfold dgF
    by_cases hx : x ∈ Finset.Icc (-T) T
    · rw [if_pos (this.2 hx), if_pos hx]
      unfold dgW
      push_cast
      rw [neg_sq]
    · rw [if_neg (fun h => hx (this.1 h)), if_neg hx]
  · intro x y t hxy ht
    by_cases hx : x ∈ Finset.Icc (-T) T
    swap
    · rw [show dgF σ T x = 0 by unfold dgF; rw [if_neg hx], zero_mul]
      exact mul_nonneg (dgF_nonneg _ _ _) (dgF_nonneg _ _ _)
    by_cases hy : y + t ∈ Finset.Icc (-T) T
    swap
    · rw [show dgF σ T (y + t) = 0 by unfold dgF; rw [if_neg hy], mul_zero]
      exact mul_nonneg (dgF_nonneg _ _ _) (dgF_nonneg _ _ _)
    have hx' : x + t ∈ Finset.Icc (-T) T := by rw [Finset.mem_Icc] at hx hy ⊢; omega
    have hy' : y ∈ Finset.Icc (-T) T := by rw [Finset.mem_Icc] at hx hy ⊢; omega
    unfold dgF
    rw [if_pos hx, if_pos hy, if_pos hx', if_pos hy', div_mul_div_comm, div_mul_div_comm]
    refine div_le_div_of_nonneg_right ?_ (mul_self_nonneg _)
    unfold dgW
    rw [← Real.exp_add, ← Real.exp_add]
    refine Real.exp_le_exp.2 ?_
    rw [← add_div, ← add_div]
    refine div_le_div_of_nonneg_right ?_ (sq_nonneg σ)
    have h1 : (x : ℝ) ≤ y := by exact_mod_cast hxy
    have h2 : (0 : ℝ) ≤ t := by exact_mod_cast ht
    push_cast
    nlinarith [mul_nonneg (sub_nonneg.2 h1) h2]

end Verif.Mech
