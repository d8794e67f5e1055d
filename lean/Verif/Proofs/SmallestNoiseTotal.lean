import Verif.Proofs.SmallestNoiseGauss
import Verif.Proofs.PldPmfSelf

/-! # The searches for the smallest noise do not raise and stop -/

namespace Verif
open Spec PldPmf PldCommon

lemma Sparse.selfComposeLoop_ok_trunc (s : Sparse) {t : ℝ} (ht : 0 ≤ t) (hs : (Pmf.sparse s).NonNeg) (h1 : s.infinityMass ≤ 1) (k : ℕ) (r : Sparse)
    (hd : r.disc = s.disc) (hp : r.pessimistic = s.pessimistic) (hr : (Pmf.sparse r).NonNeg) (hr1 : r.infinityMass ≤ 1)
    (hm : 0 < k → t / 2 < finiteMass r.lossProbs * finiteMass s.lossProbs ^ k) : ∃ c, Sparse.selfComposeLoop s t k r = .ok c := by
  induction k generalizing r with
  | zero => exact ⟨r, rfl⟩
  | succ k ih =>
    rw [Sparse.selfComposeLoop]
    by_cases hk : k = 0
    · subst hk
      rw [if_pos rfl]
      obtain ⟨c, hc⟩ := Sparse.compose_ok (t := t) hr hs hd hp (.inr ⟨ht, by simpa using hm (by omega)⟩)
      rw [hc]
      exact ⟨c, rfl⟩
    · rw [if_neg hk]
      obtain ⟨c, hc⟩ := Sparse.compose_ok (t := 0) hr hs hd hp (.inl rfl)
      rw [hc]
      have sp := Sparse.compose_spec hc
      have hi := sp.exact_inf rfl
      change c.infinityMass = r.infinityMass + s.infinityMass - r.infinityMass * s.infinityMass at hi
      have h0 : 0 ≤ r.infinityMass := hr.1
      have h0' : 0 ≤ s.infinityMass := hs.1
      have h2 : 0 ≤ (1 - r.infinityMass) * (1 - s.infinityMass) := mul_nonneg (by linarith) (by linarith)
      have h3 : 0 ≤ r.infinityMass * (1 - s.infinityMass) := mul_nonneg h0 (by linarith)
      refine ih c (sp.disc.trans hd) (sp.pess.trans hp) ⟨?_, (sp.nonneg hr hs).1⟩ ?_ ?_
      · change 0 ≤ c.infinityMass
        nlinarith
      · nlinarith
      · intro _
        have h4 := hm (by omega)
        have e : finiteMass c.lossProbs = finiteMass r.lossProbs * finiteMass s.lossProbs := by
          have := sp.exact_dist rfl (fun _ => 1)
          rw [convE_const] at this
          exact this
        rw [e, mul_assoc, ← pow_succ']
        exact h4

/-- Self-composition with the default truncation succeeds on PMFs with almost no infinite mass. -/
lemma Pmf.selfCompose_ok_trunc (nfl : ℕ → ℕ) (m : Pmf) (n : ℤ) (hn : 0 < n) (hn' : n ≤ 10 ^ 21) (hw : m.WF) (hnn : m.NonNeg)
    (hm : 1 ≤ totalMass m) (hi : m.infinityMass ≤ 1e-22) : ∃ c, m.selfCompose nfl n 1e-15 = .ok c := by
  have hi1 : m.infinityMass < 1 := hi.trans_lt (by norm_num)
  have hf : 1 - m.infinityMass ≤ finiteMass m.points := by unfold totalMass at hm; linarith
  have hf0 : 0 < finiteMass m.points := by linarith
  cases m with
  | dense d =>
    obtain ⟨c, hc⟩ := Dense.selfCompose_ok nfl d n 1e-15 hn hnn hf0 hi1 (by norm_num)
    simp only [Pmf.selfCompose]
    rw [hc]; exact ⟨_, rfl⟩
  | sparse s =>
    simp only [Pmf.selfCompose]
    unfold Sparse.selfCompose
    rw [if_neg (by omega)]
    split_ifs
    · exact ⟨_, rfl⟩
    · have hne : (Pmf.sparse s).points ≠ [] := by
        intro h0; rw [h0] at hf0; simp [finiteMass, expect] at hf0
      obtain ⟨d, hd⟩ := Pmf.toDense_ok hne
      obtain ⟨t1, t2, t3, t4, t5, t6⟩ := Pmf.toDense_spec hd hw
      have e : finiteMass d.points = finiteMass (Pmf.sparse s).points := t4 _
      obtain ⟨c, hc⟩ := Dense.selfCompose_ok nfl d n 1e-15 hn (t6 hnn) (by rw [e]; exact hf0) (by rw [t2]; exact hi1) (by norm_num)
      have hd' : s.toDense = .ok d := hd
      rw [hd']
      simp only
      rw [hc]; exact ⟨_, rfl⟩
    · have hs1 : s.infinityMass ≤ 1 := hi1.le
      obtain ⟨c, hc⟩ := Sparse.selfComposeLoop_ok_trunc s (t := 1e-15) (by norm_num) hnn hs1 (n.toNat - 1) s rfl rfl hnn hs1 (by
        intro _
        change 1 - s.infinityMass ≤ finiteMass s.lossProbs at hf
        change s.infinityMass ≤ 1e-22 at hi
        rw [← pow_succ', Nat.sub_add_cancel (by omega)]
        have hp := pow_le_pow_left₀ (by linarith) hf n.toNat
        have hb := one_add_mul_le_pow (a := -s.infinityMass) (by linarith) n.toNat
        have h3 : ((n.toNat : ℕ) : ℝ) ≤ 10 ^ 21 := by exact_mod_cast (show n.toNat ≤ 10 ^ 21 by omega)
        have h0 : 0 ≤ s.infinityMass := hnn.1
        have h4 : (n.toNat : ℝ) * s.infinityMass ≤ 10 ^ 21 * 1e-22 := mul_le_mul h3 hi h0 (by positivity)
        rw [← sub_eq_add_neg] at hb
        norm_num at h4 ⊢
        linarith)
      rw [hc]; exact ⟨_, rfl⟩

lemma Pld.selfCompose_ok_trunc (nfl : ℕ → ℕ) {p : Pld} (hp : ProperPld p) (n : ℤ) (hn : 0 < n) (hn' : n ≤ 10 ^ 21)
    (h1 : p.remove.infinityMass ≤ 1e-22) (h2 : p.add.infinityMass ≤ 1e-22) : ∃ r, p.selfCompose nfl n 1e-15 = .ok r := by
  obtain ⟨a, ha⟩ := Pmf.selfCompose_ok_trunc nfl p.remove n hn hn' hp.valid.wfRemove hp.nonneg hp.mass.ge h1
  obtain ⟨b, hb⟩ := Pmf.selfCompose_ok_trunc nfl p.add n hn hn' hp.valid.wfAdd hp.nonnegAdd hp.massAdd.ge h2
  unfold Pld.selfCompose
  rw [ha]
  simp only
  split_ifs
  · exact ⟨_, rfl⟩
  · rw [hb]; exact ⟨_, rfl⟩

namespace SmallestNoise
open InverseMonotone Mech

lemma finish_ne_infinite {fuel : ℕ} {inc : Bool} {f : ℝ → ℝ} {value : ℝ} {p : SearchParams} {l u : ℝ} :
    finish fuel inc f value p l u ≠ .infiniteInterval := by
  intro hr
  unfold finish at hr
  rw [if_neg (by simp)] at hr
  split at hr <;> simp at hr

lemma finish_ne_notFound {fuel : ℕ} {inc : Bool} {f : ℝ → ℝ} {value : ℝ} {p : SearchParams} {l u : EReal} :
    finish fuel inc f value p l u ≠ .notFound := by
  intro hr
  unfold finish at hr
  split at hr
  · simp at hr
  · split at hr <;> simp at hr

lemma guessLoop_mono {inc : Bool} {f : ℝ → ℝ} {value : ℝ} {upper : EReal} : ∀ (k : ℕ) (l : EReal) (g : ℝ) (r : EReal × ℝ),
    guessLoop inc f value upper k l g = some r → ∀ k' ≥ k, guessLoop inc f value upper k' l g = some r := by
  intro k
  induction k with
  | zero =>
    intro l g r h k' _
    unfold guessLoop at h ⊢
    split at h
    · simp at h
    · next hc => rw [if_neg hc]; exact h
  | succ k ih =>
    intro l g r h k' hk
    obtain ⟨m, rfl⟩ : ∃ m, k' = m + 1 := ⟨k' - 1, by omega⟩
    unfold guessLoop at h ⊢
    split at h
    · next hc => rw [if_pos hc]; exact ih _ _ _ h m (by omega)
    · next hc => rw [if_neg hc]; exact h

lemma searchLoop_mono {inc discrete : Bool} {f : ℝ → ℝ} {value tol : ℝ} : ∀ (k : ℕ) (l u : ℝ) (r : ℝ × ℝ),
    searchLoop inc discrete f value tol k l u = some r → ∀ k' ≥ k, searchLoop inc discrete f value tol k' l u = some r := by
  intro k
  induction k with
  | zero =>
    intro l u r h k' _
    unfold searchLoop at h ⊢
    split at h
    · simp at h
    · next hc => rw [if_neg hc]; exact h
  | succ k ih =>
    intro l u r h k' hk
    obtain ⟨m, rfl⟩ : ∃ m, k' = m + 1 := ⟨k' - 1, by omega⟩
    unfold searchLoop at h ⊢
    split at h
    · next hc =>
      rw [if_pos hc]
      simp only at h ⊢
      split at h
      · next hd => rw [if_pos hd]; exact ih _ _ _ h m (by omega)
      · next hd => rw [if_neg hd]; exact ih _ _ _ h m (by omega)
    · next hc => rw [if_neg hc]; exact h

lemma finish_mono {inc : Bool} {f : ℝ → ℝ} {value : ℝ} {p : SearchParams} {l u : EReal} {k : ℕ} {x : ℝ}
    (h : finish k inc f value p l u = .found x) {k' : ℕ} (hk : k ≤ k') : finish k' inc f value p l u = .found x := by
  unfold finish at h ⊢
  split at h
  · simp at h
  · next hc =>
    rw [if_neg hc]
    split at h
    · simp at h
    · next hs => rw [searchLoop_mono _ _ _ _ hs k' hk]; exact h

/-- More fuel does not change a result. -/
lemma inverse_mono {inc : Bool} {f : ℝ → ℝ} {value : ℝ} {p : SearchParams} {k : ℕ} {r : InvRes} (hr : r = .notFound ∨ ∃ x, r = .found x)
    (h : inverse k f value p inc = r) {k' : ℕ} (hk : k ≤ k') : inverse k' f value p inc = r := by
  unfold inverse at h ⊢
  split at h
  · next hc => rw [if_pos hc]; exact h
  · next hc =>
    rw [if_neg hc]
    have fin : ∀ l u, finish k inc f value p l u = r → finish k' inc f value p l u = r := by
      intro l u h
      rcases hr with rfl | ⟨x, rfl⟩
      · exact absurd h finish_ne_notFound
      · exact finish_mono h hk
    cases hg : p.initialGuess with
    | none => rw [hg] at h; exact fin _ _ h
    | some g =>
      rw [hg] at h
      simp only at h ⊢
      cases hl : guessLoop inc f value p.upperBound k p.lowerBound g with
      | none => rw [hl] at h; rcases hr with rfl | ⟨x, rfl⟩ <;> simp at h
      | some z =>
        rw [hl] at h
        rw [guessLoop_mono _ _ _ _ hl k' hk]
        exact fin _ _ h

/-- A search over `[0, u]` with a function that does not raise at positive points stops, with a result or `None`. -/
lemma zeroTo_stops {func : ℝ → Except Err ℝ} {value u : ℝ} (hu : 0 < u) (hf : ∀ x, 0 < x → ∃ v, func x = .ok v) :
    ∃ r N, (r = .notFound ∨ ∃ x, r = .found x) ∧ ∀ fuel ≥ N, inverseE fuel func value (zeroTo u) false = .ok r := by
  have hf' : ∀ x, 0 < x → func x = .ok (extend func value x) := by
    intro x hx
    obtain ⟨v, hv⟩ := hf x hx
    rw [extend_ok func value x v hv, hv]
  obtain ⟨N, hN⟩ := Props.C25_terminates (extend func value) value (zeroTo u) false
    ⟨EReal.coe_le_coe_iff.2 hu.le, fun g h => by simp [zeroTo] at h⟩ (fun h => by simp [zeroTo] at h) (by norm_num [zeroTo])
    ⟨u, fun x hx => .inl (EReal.coe_le_coe_iff.2 hx)⟩
  suffices hh : ∃ r, (r = .notFound ∨ ∃ x, r = .found x) ∧ inverse N (extend func value) value (zeroTo u) false = r by
    obtain ⟨r, h1, h2⟩ := hh
    refine ⟨r, N, h1, fun fuel hfu => ?_⟩
    rw [inverseE_total (f := extend func value) hf' rfl rfl (by simpa [zeroTo] using hu) (fun g h => by simp [zeroTo] at h),
      inverse_mono h1 h2 hfu]
  have := hN N le_rfl
  cases hr : inverse N (extend func value) value (zeroTo u) false with
  | found x => exact ⟨_, .inr ⟨x, rfl⟩, rfl⟩
  | notFound => exact ⟨_, .inl rfl, rfl⟩
  | outOfFuel => exact absurd hr this
  | infiniteInterval =>
    exfalso
    unfold inverse at hr
    split at hr
    · simp at hr
    · exact finish_ne_infinite (l := 0) (u := u) hr

lemma guessLoop_lower {inc : Bool} {f : ℝ → ℝ} {value : ℝ} {upper : EReal} : ∀ (fuel : ℕ) (l g : ℝ) (lo : EReal) (gu : ℝ),
    guessLoop inc f value upper fuel l g = some (lo, gu) → ∃ l' : ℝ, lo = l' := by
  intro fuel
  induction fuel with
  | zero =>
    intro l g lo gu h
    unfold guessLoop at h
    split at h
    · simp at h
    · simp only [Option.some.injEq, Prod.mk.injEq] at h
      exact ⟨l, h.1.symm⟩
  | succ k ih =>
    intro l g lo gu h
    unfold guessLoop at h
    split at h
    · exact ih _ _ _ _ h
    · simp only [Option.some.injEq, Prod.mk.injEq] at h
      exact ⟨l, h.1.symm⟩

/-- A search over `[0, ∞)` from a positive guess, with a function that does not raise at positive points and that falls below the target,
stops with a result. -/
lemma upFrom_stops {func : ℝ → Except Err ℝ} {value g tol B : ℝ} (hg : 0 < g) (htol : 0 < tol) (hf : ∀ x, 0 < x → ∃ v, func x = .ok v)
    (hB : ∀ x v, B ≤ x → func x = .ok v → v ≤ value) :
    ∃ x N, ∀ fuel ≥ N, inverseE fuel func value ⟨((0 : ℝ) : EReal), ⊤, some g, tol, false⟩ false = .ok (.found x) := by
  have hf' : ∀ x, 0 < x → func x = .ok (extend func value x) := by
    intro x hx
    obtain ⟨v, hv⟩ := hf x hx
    rw [extend_ok func value x v hv, hv]
  obtain ⟨N, hN⟩ := Props.C25_terminates (extend func value) value ⟨((0 : ℝ) : EReal), ⊤, some g, tol, false⟩ false
    ⟨le_top, fun g' h => by
      simp only [Option.some.injEq] at h
      subst h
      exact ⟨hg, EReal.coe_le_coe_iff.2 hg.le⟩⟩ (fun h => by simp at h) htol
    ⟨max B 1, fun x hx => .inr (by
      have hx0 : 0 < x := lt_of_lt_of_le one_pos ((le_max_right _ _).trans hx)
      have := hB x _ ((le_max_left _ _).trans hx) (hf' x hx0)
      simpa using this)⟩
  suffices hh : ∃ x, inverse N (extend func value) value ⟨((0 : ℝ) : EReal), ⊤, some g, tol, false⟩ false = .found x by
    obtain ⟨x, h2⟩ := hh
    refine ⟨x, N, fun fuel hfu => ?_⟩
    rw [inverseE_total (f := extend func value) hf' rfl rfl (by simp) (fun g' h => by
      simp only [Option.some.injEq] at h
      exact h ▸ hg), inverse_mono (.inr ⟨x, rfl⟩) h2 hfu]
  have := hN N le_rfl
  cases hr : inverse N (extend func value) value ⟨((0 : ℝ) : EReal), ⊤, some g, tol, false⟩ false with
  | found x => exact ⟨x, rfl⟩
  | notFound =>
    exfalso
    unfold inverse at hr
    split at hr
    · next h => simp [infeasible] at h
    · simp only at hr
      split at hr
      · simp at hr
      · exact finish_ne_notFound hr
  | outOfFuel => exact absurd hr this
  | infiniteInterval =>
    exfalso
    unfold inverse at hr
    split at hr
    · simp at hr
    · simp only at hr
      split at hr
      · simp at hr
      · next lo gu h =>
        obtain ⟨l, rfl⟩ := guessLoop_lower N 0 g _ _ h
        rw [min_eq_right le_top] at hr
        exact finish_ne_infinite hr

lemma fromLaplace_fuel (fuel : ℕ) (b s disc q : ℝ) : fromLaplace fuel b s true disc q true = fromLaplace 0 b s true disc q true := rfl

lemma fromGaussian_fuel (fuel : ℕ) (ppf : ℝ → ℝ) (σ s disc lb q : ℝ) :
    fromGaussian fuel ppf σ s true disc lb q true = fromGaussian 0 ppf σ s true disc lb q true := rfl

lemma deltaFor_total {ctor : ℝ → Except Err Pld} {nfl : ℕ → ℕ} {n : ℤ} (hn : 0 < n) (hn' : n ≤ 10 ^ 21) {eps x : ℝ} {p : Pld} (hc : ctor x = .ok p)
    (hp : ProperPld p) (h1 : p.remove.infinityMass ≤ 1e-22) (h2 : p.add.infinityMass ≤ 1e-22) :
    ∃ v, deltaForParameter nfl ctor eps n x = .ok v := by
  obtain ⟨r, hr⟩ := Pld.selfCompose_ok_trunc nfl hp n hn hn' h1 h2
  unfold deltaForParameter
  rw [hc]
  simp only
  rw [hr]
  exact ⟨_, rfl⟩

lemma deltaFor_ok {ctor : ℝ → Except Err Pld} {nfl : ℕ → ℕ} {n : ℤ} {eps x v : ℝ} (h : deltaForParameter nfl ctor eps n x = .ok v) :
    ∃ p r, ctor x = .ok p ∧ p.selfCompose nfl n 1e-15 = .ok r ∧ v = r.getDeltaForEpsilon eps := by
  unfold deltaForParameter at h
  cases hc : ctor x with
  | error e => rw [hc] at h; simp at h
  | ok p =>
    rw [hc] at h
    simp only at h
    cases hr : p.selfCompose nfl n 1e-15 with
    | error e => rw [hr] at h; simp at h
    | ok r =>
      rw [hr] at h
      simp only [Except.ok.injEq] at h
      exact ⟨p, r, rfl, hr, h.symm⟩

end SmallestNoise
end Verif
