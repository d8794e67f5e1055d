import Verif.Proofs.PldSelfCompose

/-! `self_compose` on PMFs of both classes, and success of the operations. -/

namespace Verif
open Spec PldPmf PldCommon

/-- Relation between argument and result of `self_compose(n, t)`; `exactHs φ` is `E φ` of the exact `n`-fold sum,
including the mass at infinity. -/
structure SelfComposeSpec (m c : Pmf) (n : ℕ) (t : ℝ) : Prop where
  disc : c.disc = m.disc
  pess : c.pessimistic = m.pessimistic
  wf : m.WF → c.WF
  exact_inf : t = 0 → c.infinityMass = 1 - (1 - m.infinityMass) ^ n
  exact_dist : t = 0 → ∀ φ, expect c.points φ = nfold m.points n φ
  nonneg : m.NonNeg → (∀ x ∈ c.points, 0 ≤ x.2)
  up : m.NonNeg → m.pessimistic = true → 0 ≤ t → ∀ φ : ℤ → ℝ, Monotone φ → (∀ k, 0 ≤ φ k) → (∀ k, φ k ≤ 1) →
    1 - (1 - m.infinityMass) ^ n + nfold m.points n φ ≤ c.infinityMass + expect c.points φ ∧
    c.infinityMass + expect c.points φ ≤ 1 - (1 - m.infinityMass) ^ n + nfold m.points n φ + 2 * t

lemma Dense.selfCompose_spec {nfl : ℕ → ℕ} (hnfl : ∀ k, k ≤ nfl k) {d c : Dense} {n : ℤ} {t : ℝ}
    (h : d.selfCompose nfl n t = .ok c) : 0 < n ∧ d.infinityMass < 1 ∧ d.probs ≠ [] ∧
    SelfComposeSpec (.dense d) (.dense c) n.toNat t ∧
    (0 < t → (Pmf.dense d).NonNeg → ∀ φ : ℤ → ℝ, (∀ k, 0 ≤ φ k) → (∀ k, φ k ≤ 1) →
      1 - (1 - d.infinityMass) ^ n.toNat + nfold d.points n.toNat φ ≤ c.infinityMass + expect c.points φ ∧
      c.infinityMass + expect c.points φ ≤ 1 - (1 - d.infinityMass) ^ n.toNat + nfold d.points n.toNat φ + 2 * t) ∧
    c.infinityMass = t + (1 - (1 - d.infinityMass) ^ n.toNat) := by
  unfold Dense.selfCompose at h
  by_cases hn : n ≤ 0
  · rw [if_pos hn] at h; simp at h
  rw [if_neg hn] at h
  have hn' : (n.toNat : ℤ) = n := Int.toNat_of_nonneg (by omega)
  cases hsc : selfConvolve nfl d.probs n.toNat t with
  | error e => rw [hsc] at h; simp at h
  | ok r =>
    obtain ⟨lo, ps⟩ := r
    rw [hsc] at h
    simp only at h
    by_cases hi : d.infinityMass ≥ 1
    · rw [if_pos hi] at h; simp at h
    rw [if_neg hi] at h
    simp only [Except.ok.injEq] at h
    have hi' : 0 < 1 - d.infinityMass := by linarith [not_le.1 hi]
    have hpow : Real.exp (n * Real.log (1 - d.infinityMass)) = (1 - d.infinityMass) ^ n.toNat := by
      have : (n : ℝ) = (n.toNat : ℝ) := by
        rw [← Int.cast_natCast, hn']
      rw [this, Real.exp_nat_mul, Real.exp_log hi']
    have hinf : c.infinityMass = t + (1 - (1 - d.infinityMass) ^ n.toNat) := by
      rw [← h]; simp only; rw [hpow]; ring
    have hne : d.probs ≠ [] := by
      obtain ⟨_, _, _, _, _, _, _, _, hne, _⟩ := selfConvolve_wsum hnfl hsc; exact hne
    have hcp : c.probs = ps := by rw [← h]
    have hE : ∀ φ : ℤ → ℝ, expect c.points φ = wsum ps (fun i => φ (d.lowerLoss * n + (lo + i))) := by
      intro φ
      rw [expect_dense_wsum, ← h]
      apply wsum_congr
      intro i _
      congr 1; ring
    have hN : ∀ φ : ℤ → ℝ, nfold d.points n.toNat φ =
        Verif.pE ((polyOf d.probs) ^ n.toNat) (fun s => φ (d.lowerLoss * n + s)) := by
      intro φ; rw [nfold_dense, hn']
    have hdc : c.disc = d.disc ∧ c.pessimistic = d.pessimistic := by rw [← h]; exact ⟨rfl, rfl⟩
    have htr : 0 < t → (Pmf.dense d).NonNeg → ∀ φ : ℤ → ℝ, (∀ k, 0 ≤ φ k) → (∀ k, φ k ≤ 1) →
      1 - (1 - d.infinityMass) ^ n.toNat + nfold d.points n.toNat φ ≤ c.infinityMass + expect c.points φ ∧
      c.infinityMass + expect c.points φ ≤ 1 - (1 - d.infinityMass) ^ n.toNat + nfold d.points n.toNat φ + 2 * t := by
      intro ht hnn φ h0 h1
      have := selfConvolve_trunc hnfl hsc ((dense_nonneg_iff d).1 hnn.2) ht (fun k => φ (d.lowerLoss * n + k))
        (fun k => h0 _) (fun k => h1 _)
      rw [hE, hN, hinf]
      constructor <;> linarith [this.1, this.2]
    have hex : t = 0 → ∀ φ : ℤ → ℝ, expect c.points φ = nfold d.points n.toNat φ := by
      intro ht φ; subst ht
      obtain ⟨rfl, _, hs⟩ := selfConvolve_exact hnfl hsc
      rw [hE, hN, hs]
      simp
    refine ⟨by omega, not_le.1 hi, hne, ⟨hdc.1, hdc.2, ?_, ?_, hex, ?_, ?_⟩, htr, hinf⟩
    · intro hw
      show 0 < c.disc
      rw [hdc.1]; exact hw
    · intro ht
      show c.infinityMass = _
      rw [hinf, ht, zero_add]; rfl
    · intro hnn
      refine (dense_nonneg_iff c).2 ?_
      rw [hcp]
      exact selfConvolve_nonneg hnfl hsc ((dense_nonneg_iff d).1 hnn.2)
    · intro hnn _ ht φ _ h0 h1
      rcases ht.lt_or_eq with ht | ht
      · exact htr ht hnn φ h0 h1
      · have e1 := hex ht.symm φ
        have e2 : c.infinityMass = 1 - (1 - d.infinityMass) ^ n.toNat := by rw [hinf, ← ht, zero_add]
        show 1 - (1 - d.infinityMass) ^ n.toNat + nfold d.points n.toNat φ ≤ c.infinityMass + expect c.points φ ∧
          c.infinityMass + expect c.points φ ≤ 1 - (1 - d.infinityMass) ^ n.toNat + nfold d.points n.toNat φ + 2 * t
        rw [e1, e2, ← ht]; simp

/-- `k` untruncated rounds followed by at most one truncated one. -/
lemma Sparse.selfComposeLoop_spec {s : Sparse} {t : ℝ} (hs : (Pmf.sparse s).WF) (k : ℕ) (j : ℕ) (r c : Sparse)
    (h : Sparse.selfComposeLoop s t k r = .ok c) (hk : 0 < k) (hrw : (Pmf.sparse r).WF)
    (hrd : r.disc = s.disc ∧ r.pessimistic = s.pessimistic)
    (hri : r.infinityMass = 1 - (1 - s.infinityMass) ^ j) (hre : ∀ φ, expect r.lossProbs φ = nfold s.lossProbs j φ)
    (hrn : (Pmf.sparse s).NonNeg → (∀ x ∈ r.lossProbs, 0 ≤ x.2)) (hinf : (Pmf.sparse s).NonNeg → s.infinityMass ≤ 1 → 0 ≤ r.infinityMass) :
    ∃ p : Sparse, (Pmf.sparse p).WF ∧ p.disc = s.disc ∧ p.pessimistic = s.pessimistic ∧
      p.infinityMass = 1 - (1 - s.infinityMass) ^ (j + k - 1) ∧
      (∀ φ, expect p.lossProbs φ = nfold s.lossProbs (j + k - 1) φ) ∧
      ((Pmf.sparse s).NonNeg → (∀ x ∈ p.lossProbs, 0 ≤ x.2)) ∧
      ((Pmf.sparse s).NonNeg → s.infinityMass ≤ 1 → 0 ≤ p.infinityMass) ∧ p.compose s t = .ok c := by
  induction k generalizing j r with
  | zero => omega
  | succ k ih =>
    rw [Sparse.selfComposeLoop] at h
    by_cases hk0 : k = 0
    · subst hk0
      rw [if_pos rfl] at h
      cases hc : r.compose s t with
      | error e => rw [hc] at h; simp at h
      | ok r' =>
        rw [hc] at h
        simp only [Sparse.selfComposeLoop, Except.ok.injEq] at h
        subst h
        exact ⟨r, hrw, hrd.1, hrd.2, by simpa using hri, by simpa using hre, hrn, hinf, hc⟩
    · rw [if_neg hk0] at h
      cases hc : r.compose s 0 with
      | error e => rw [hc] at h; simp at h
      | ok r' =>
        rw [hc] at h
        simp only at h
        have sp := Sparse.compose_spec hc
        have h1 := ih (j + 1) r' h (by omega) (sp.wf hrw hs)
          ⟨sp.disc.trans hrd.1, sp.pess.trans hrd.2⟩ ?_ ?_ ?_ ?_
        · have e : j + 1 + k - 1 = j + (k + 1) - 1 := by omega
          rw [e] at h1; exact h1
        · have := sp.exact_inf rfl
          change r'.infinityMass = r.infinityMass + s.infinityMass - r.infinityMass * s.infinityMass at this
          rw [this, hri]; ring
        · intro φ
          have := sp.exact_dist rfl φ
          change expect r'.lossProbs φ = convE r.lossProbs s.lossProbs φ at this
          rw [this, nfold_succ']
          unfold convE
          rw [hre]
        · intro hn
          have hc3 : ∀ x ∈ r'.lossProbs, 0 ≤ x.2 := by
            unfold Sparse.compose Sparse.validateComposable at hc
            have e1 : ¬ r.disc ≠ s.disc := not_not.2 hrd.1
            have e2 : ¬ r.pessimistic ≠ s.pessimistic := not_not.2 hrd.2
            rw [if_neg e1, if_neg e2] at hc
            simp only [truncateTails_zero, Except.ok.injEq] at hc
            intro x hx
            rw [← hc] at hx
            have hx2 := (List.of_mem_zip (a := x.1) (b := x.2) hx).2
            obtain ⟨k, _, hk⟩ := List.mem_map.1 hx2
            rw [← hk]
            exact PyDict.get_nonneg ((convolve_spec _ _ _).2.2 (hrn hn) hn.2 (by simp)) k
          exact hc3
        · intro hn h1
          have := sp.exact_inf rfl
          change r'.infinityMass = r.infinityMass + s.infinityMass - r.infinityMass * s.infinityMass at this
          rw [this]
          have h2 := hinf hn h1
          have h3 : 0 ≤ s.infinityMass := hn.1
          have h4 : 0 ≤ r.infinityMass * (1 - s.infinityMass) := mul_nonneg h2 (by linarith)
          nlinarith

lemma Sparse.selfCompose_spec {nfl : ℕ → ℕ} (hnfl : ∀ k, k ≤ nfl k) {s : Sparse} {c : Pmf} {n : ℤ} {t : ℝ}
    (hs : (Pmf.sparse s).WF) (h1 : s.infinityMass ≤ 1)
    (h : s.selfCompose nfl n t = .ok c) : 0 < n ∧ SelfComposeSpec (.sparse s) c n.toNat t := by
  unfold Sparse.selfCompose at h
  by_cases hn : n ≤ 0
  · rw [if_pos hn] at h; simp at h
  rw [if_neg hn] at h
  refine ⟨by omega, ?_⟩
  by_cases hn1 : n = 1
  · rw [if_pos hn1] at h
    simp only [Except.ok.injEq] at h
    subst h
    have e : n.toNat = 1 := by omega
    rw [e]
    have hnf : ∀ φ : ℤ → ℝ, nfold (Pmf.sparse s).points 1 φ = expect (Pmf.sparse s).points φ := by
      intro φ; simp [nfold]
    refine ⟨rfl, rfl, id, ?_, ?_, fun h => h.2, ?_⟩
    · intro _; ring
    · intro _ φ; rw [hnf]
    · intro _ _ ht φ _ _ _
      rw [hnf, pow_one]
      constructor <;> linarith
  rw [if_neg hn1] at h
  split_ifs at h with hsz
  · cases hd : s.toDense with
    | error e => rw [hd] at h; simp at h
    | ok d =>
      rw [hd] at h
      simp only at h
      cases hc : d.selfCompose nfl n t with
      | error e => rw [hc] at h; simp at h
      | ok r =>
        rw [hc] at h
        simp only [Except.ok.injEq] at h
        subst h
        obtain ⟨_, _, _, sp, _, _⟩ := Dense.selfCompose_spec hnfl hc
        obtain ⟨t1, t2, t3, t4, t5, t6⟩ := Pmf.toDense_spec (m := .sparse s) hd hs
        have hnf := nfold_congr (a := d.points) (b := (Pmf.sparse s).points) t4 n.toNat
        have t2' : (Pmf.dense d).infinityMass = (Pmf.sparse s).infinityMass := t2
        refine ⟨sp.disc.trans t1, sp.pess.trans t3, fun _ => sp.wf t5, ?_, ?_, fun h => sp.nonneg (t6 h), ?_⟩
        · intro ht; rw [← t2']; exact sp.exact_inf ht
        · intro ht φ; rw [← hnf]; exact sp.exact_dist ht φ
        · intro hnn hp ht φ a b c
          rw [← t2', ← hnf]
          exact sp.up (t6 hnn) (t3.trans hp) ht φ a b c
  · cases hl : Sparse.selfComposeLoop s t (n.toNat - 1) s with
    | error e => rw [hl] at h; simp at h
    | ok r =>
      rw [hl] at h
      simp only [Except.ok.injEq] at h
      subst h
      obtain ⟨p, pw, pd, pp, pi, pe, pn, pnn, hc⟩ := Sparse.selfComposeLoop_spec hs (n.toNat - 1) 1 s r hl (by omega) hs ⟨rfl, rfl⟩
        (by ring) (fun φ => by simp [nfold]) (fun h => h.2) (fun h _ => h.1)
      have sp := Sparse.compose_spec hc
      have en : 1 + (n.toNat - 1) - 1 = n.toNat - 1 := by omega
      have en2 : n.toNat = (n.toNat - 1) + 1 := by omega
      rw [en] at pi pe
      have hi : p.infinityMass + s.infinityMass - p.infinityMass * s.infinityMass = 1 - (1 - s.infinityMass) ^ n.toNat := by
        rw [pi, en2, Nat.add_sub_cancel]; ring
      have hE : ∀ φ, convE p.lossProbs s.lossProbs φ = nfold s.lossProbs n.toNat φ := by
        intro φ; unfold convE; rw [en2, nfold_succ', pe]
      refine ⟨sp.disc.trans pd, sp.pess.trans pp, fun _ => sp.wf pw hs, ?_, ?_, ?_, ?_⟩
      · intro ht; exact (sp.exact_inf ht).trans hi
      · intro ht φ; exact (sp.exact_dist ht φ).trans (hE φ)
      · intro hnn; exact (sp.nonneg ⟨pnn hnn h1, pn hnn⟩ hnn).1
      · intro hnn hp ht φ a b d
        have := sp.up ⟨pnn hnn h1, pn hnn⟩ hnn (pp.trans hp) φ a b d
        change p.infinityMass + s.infinityMass - p.infinityMass * s.infinityMass + convE p.lossProbs s.lossProbs φ ≤ _ ∧
          _ ≤ p.infinityMass + s.infinityMass - p.infinityMass * s.infinityMass + convE p.lossProbs s.lossProbs φ + _ at this
        rw [hi, hE, max_eq_right ht] at this
        refine ⟨this.1, this.2.trans ?_⟩
        show _ ≤ 1 - (1 - s.infinityMass) ^ n.toNat + nfold s.lossProbs n.toNat φ + 2 * t
        linarith

lemma Pmf.selfCompose_spec {nfl : ℕ → ℕ} (hnfl : ∀ k, k ≤ nfl k) {m c : Pmf} {n : ℤ} {t : ℝ}
    (hs : m.WF) (h1 : m.infinityMass ≤ 1) (h : m.selfCompose nfl n t = .ok c) : 0 < n ∧ SelfComposeSpec m c n.toNat t := by
  cases m with
  | dense d =>
    simp only [Pmf.selfCompose] at h
    cases hc : d.selfCompose nfl n t with
    | error e => rw [hc] at h; simp at h
    | ok r =>
      rw [hc] at h
      simp only [Except.ok.injEq] at h
      subst h
      have := Dense.selfCompose_spec hnfl hc
      exact ⟨this.1, this.2.2.2.1⟩
  | sparse s => exact Sparse.selfCompose_spec hnfl hs h1 h

/-! ### success -/

lemma truncateTails_ok {probs : List ℝ} {t : ℝ} (pess : Bool) (hp : ∀ v ∈ probs, 0 ≤ v) (ht : t = 0 ∨ t / 2 < probs.sum ∧ probs ≠ []) :
    ∃ r, truncateTails probs t pess = .ok r := by
  by_cases h0 : t = 0
  · subst h0; exact ⟨_, truncateTails_zero _ _⟩
  rcases ht with ht | ht
  · exact absurd ht h0
  unfold truncateTails
  rw [if_neg h0]
  simp only
  set Lx := findPrefix (t / 2) 0 probs with hLx
  have hlen : 0 < probs.length := List.length_pos_iff.2 ht.2
  have hL : Lx < probs.length := by
    rcases lt_or_ge (t / 2) 0 with hneg | hpos
    · rw [hLx, findPrefix_neg _ _ hp hneg]; exact hlen
    · by_contra hcon
      have h1 := findPrefix_sum (t / 2) 0 probs hpos
      rw [← hLx, List.take_of_length_le (not_lt.1 hcon)] at h1
      linarith [ht.1]
  have hne : (probs.take (max (probs.length - findPrefix (t / 2) 0 probs.reverse) (Lx + 1))).drop Lx ≠ [] := by
    intro h
    have := congrArg List.length h
    simp only [List.length_drop, List.length_take, List.length_nil] at this
    omega
  cases pess with
  | true =>
    obtain ⟨m, M, hM⟩ := List.exists_cons_of_ne_nil hne
    rw [hM]
    exact ⟨_, rfl⟩
  | false =>
    rw [addLast_eq _ _ hne]
    exact ⟨_, rfl⟩

lemma Dense.compose_ok {a b : Dense} {t : ℝ} (ha : (Pmf.dense a).NonNeg) (hb : (Pmf.dense b).NonNeg)
    (hd : a.disc = b.disc) (hp : a.pessimistic = b.pessimistic)
    (ht : t = 0 ∨ 0 ≤ t ∧ t / 2 < finiteMass a.points * finiteMass b.points) : ∃ c, a.compose b t = .ok c := by
  have hnn := fftconvolve_nonneg ((dense_nonneg_iff a).1 ha.2) ((dense_nonneg_iff b).1 hb.2)
  have hsum : (fftconvolve a.probs b.probs).sum = finiteMass a.points * finiteMass b.points := by
    have h1 := wsum_const (fftconvolve a.probs b.probs) 1
    rw [mul_one] at h1
    rw [← h1, wsum_pE, polyOf_fftconvolve, pE_mul, ← convE_const]
    unfold convE
    rw [expect_dense]
    congr 1; ext i
    rw [expect_dense]
  obtain ⟨r, hr⟩ := truncateTails_ok a.pessimistic hnn (t := t) (by
    rcases ht with h | ⟨h1, h2⟩
    · exact Or.inl h
    · right
      rw [hsum]
      refine ⟨h2, ?_⟩
      intro h0
      rw [← hsum, h0] at h2
      simp at h2; linarith)
  unfold Dense.compose Dense.validateComposable
  rw [if_neg (not_not.2 hd), if_neg (not_not.2 hp)]
  simp only
  rw [hr]
  exact ⟨_, rfl⟩

lemma Sparse.compose_ok {a b : Sparse} {t : ℝ} (ha : (Pmf.sparse a).NonNeg) (hb : (Pmf.sparse b).NonNeg)
    (hd : a.disc = b.disc) (hp : a.pessimistic = b.pessimistic)
    (ht : t = 0 ∨ 0 ≤ t ∧ t / 2 < finiteMass a.lossProbs * finiteMass b.lossProbs) : ∃ c, a.compose b t = .ok c := by
  obtain ⟨hc1, hc2, hc3⟩ := convolve_spec b.lossProbs [] a.lossProbs
  set conv := Sparse.convolve b.lossProbs [] a.lossProbs with hconvdef
  have hnd : conv.keys.Nodup := hc2 (by simp [PyDict.keys])
  have hnn : ∀ v ∈ conv.sortedKeys.map conv.get, 0 ≤ v := by
    intro v hv
    obtain ⟨k, _, rfl⟩ := List.mem_map.1 hv
    exact PyDict.get_nonneg (hc3 ha.2 hb.2 (by simp)) k
  have hsum : (conv.sortedKeys.map conv.get).sum = finiteMass a.lossProbs * finiteMass b.lossProbs := by
    rw [← convE_const]
    have h1 := hc1 (fun _ => 1)
    rw [expect_nil, zero_add] at h1
    rw [← h1, ← expect_perm (PyDict.sorted_points_perm hnd)]
    unfold expect
    simp [Function.comp_def]
  obtain ⟨r, hr⟩ := truncateTails_ok a.pessimistic hnn (t := t) (by
    rcases ht with h | ⟨h1, h2⟩
    · exact Or.inl h
    · right
      rw [hsum]
      refine ⟨h2, ?_⟩
      intro h0
      rw [← hsum, h0] at h2
      simp at h2; linarith)
  unfold Sparse.compose Sparse.validateComposable
  rw [if_neg (not_not.2 hd), if_neg (not_not.2 hp)]
  simp only
  rw [hr]
  exact ⟨_, rfl⟩

lemma Pmf.toDense_ok {m : Pmf} (h : m.points ≠ []) : ∃ d, m.toDense = .ok d := by
  cases m with
  | dense d => exact ⟨d, rfl⟩
  | sparse s =>
    obtain ⟨off, l, hl⟩ := dictionaryToList_ok (d := s.lossProbs) h
    exact ⟨⟨s.disc, off, l, s.infinityMass, s.pessimistic⟩, by simp only [Pmf.toDense, Sparse.toDense, hl]⟩

lemma composeAsDense_ok {a b : Pmf} {t : ℝ} (ha : a.NonNeg) (hb : b.NonNeg) (haw : a.WF) (hbw : b.WF)
    (hd : a.disc = b.disc) (hp : a.pessimistic = b.pessimistic) (ha0 : a.points ≠ []) (hb0 : b.points ≠ [])
    (ht : t = 0 ∨ 0 ≤ t ∧ t / 2 < finiteMass a.points * finiteMass b.points) : ∃ c, composeAsDense a b t = .ok c := by
  obtain ⟨a', ha'⟩ := Pmf.toDense_ok ha0
  obtain ⟨b', hb'⟩ := Pmf.toDense_ok hb0
  obtain ⟨a1, a2, a3, a4, a5, a6⟩ := Pmf.toDense_spec ha' haw
  obtain ⟨b1, b2, b3, b4, b5, b6⟩ := Pmf.toDense_spec hb' hbw
  have e1 : finiteMass a'.points = finiteMass a.points := a4 _
  have e2 : finiteMass b'.points = finiteMass b.points := b4 _
  obtain ⟨c, hc⟩ := Dense.compose_ok (t := t) (a6 ha) (b6 hb) (by rw [a1, b1, hd]) (by rw [a3, b3, hp]) (by rw [e1, e2]; exact ht)
  unfold composeAsDense
  rw [ha', hb']
  simp only
  rw [hc]
  exact ⟨_, rfl⟩

lemma composePmfs_ok {a b : Pmf} {t : ℝ} (ha : a.NonNeg) (hb : b.NonNeg) (haw : a.WF) (hbw : b.WF)
    (hd : a.disc = b.disc) (hp : a.pessimistic = b.pessimistic) (ha0 : a.points ≠ []) (hb0 : b.points ≠ [])
    (ht : t = 0 ∨ 0 ≤ t ∧ t / 2 < finiteMass a.points * finiteMass b.points) : ∃ c, composePmfs a b t = .ok c := by
  cases a with
  | dense a => exact composeAsDense_ok ha hb haw hbw hd hp ha0 hb0 ht
  | sparse a =>
    cases b with
    | dense b => exact composeAsDense_ok ha hb haw hbw hd hp ha0 hb0 ht
    | sparse b =>
      simp only [composePmfs]
      split_ifs
      · obtain ⟨c, hc⟩ := Sparse.compose_ok (t := t) ha hb hd hp ht
        rw [hc]
        exact ⟨_, rfl⟩
      · exact composeAsDense_ok ha hb haw hbw hd hp ha0 hb0 ht

/-- incompatible PMFs are rejected -/
lemma composePmfs_incompatible {a b : Pmf} {t : ℝ} (h : a.disc ≠ b.disc ∨ a.pessimistic ≠ b.pessimistic)
    (haw : a.WF) (hbw : b.WF) : composePmfs a b t = .error .valueError := by
  have hdense : ∀ a b : Pmf, a.WF → b.WF → (a.disc ≠ b.disc ∨ a.pessimistic ≠ b.pessimistic) →
      composeAsDense a b t = .error .valueError := by
    intro a b haw hbw h
    unfold composeAsDense
    cases h1 : a.toDense with
    | error e =>
      simp only
      cases a with
      | dense d => simp [Pmf.toDense] at h1
      | sparse s =>
        simp only [Pmf.toDense, Sparse.toDense, dictionaryToList] at h1
        cases hk : s.lossProbs.keys with
        | nil => rw [hk] at h1; simp at h1; rw [h1]
        | cons k ks => rw [hk] at h1; simp at h1
    | ok a' =>
      simp only
      cases h2 : b.toDense with
      | error e =>
        simp only
        cases b with
        | dense d => simp [Pmf.toDense] at h2
        | sparse s =>
          simp only [Pmf.toDense, Sparse.toDense, dictionaryToList] at h2
          cases hk : s.lossProbs.keys with
          | nil => rw [hk] at h2; simp at h2; rw [h2]
          | cons k ks => rw [hk] at h2; simp at h2
      | ok b' =>
        simp only
        obtain ⟨a1, a2, a3, a4, a5, a6⟩ := Pmf.toDense_spec h1 haw
        obtain ⟨b1, b2, b3, b4, b5, b6⟩ := Pmf.toDense_spec h2 hbw
        rw [← a1, ← b1, ← a3, ← b3] at h
        unfold Dense.compose Dense.validateComposable
        by_cases hd : a'.disc = b'.disc
        · rw [if_neg (not_not.2 hd), if_pos (h.resolve_left (not_not.2 hd))]
        · rw [if_pos hd]
  cases a with
  | dense a => exact hdense _ _ haw hbw h
  | sparse a =>
    cases b with
    | dense b => exact hdense _ _ haw hbw h
    | sparse b =>
      simp only [composePmfs]
      split_ifs
      · unfold Sparse.compose Sparse.validateComposable
        change a.disc ≠ b.disc ∨ a.pessimistic ≠ b.pessimistic at h
        by_cases hd : a.disc = b.disc
        · rw [if_neg (not_not.2 hd), if_pos (h.resolve_left (not_not.2 hd))]
        · rw [if_pos hd]
      · exact hdense _ _ haw hbw h

end Verif

namespace Verif
open Spec PldPmf PldCommon

lemma Sparse.compose_ok_zero {a b : Sparse} (hd : a.disc = b.disc) (hp : a.pessimistic = b.pessimistic) :
    ∃ c, a.compose b 0 = .ok c := by
  unfold Sparse.compose Sparse.validateComposable
  rw [if_neg (not_not.2 hd), if_neg (not_not.2 hp)]
  simp only [truncateTails_zero]
  exact ⟨_, rfl⟩

lemma Sparse.selfComposeLoop_ok (s : Sparse) (k : ℕ) (r : Sparse) (hd : r.disc = s.disc) (hp : r.pessimistic = s.pessimistic) :
    ∃ c, Sparse.selfComposeLoop s 0 k r = .ok c := by
  induction k generalizing r with
  | zero => exact ⟨r, rfl⟩
  | succ k ih =>
    rw [Sparse.selfComposeLoop, ite_self]
    obtain ⟨c, hc⟩ := Sparse.compose_ok_zero hd hp
    rw [hc]
    have sp := Sparse.compose_spec hc
    exact ih c (sp.disc.trans hd) (sp.pess.trans hp)

lemma Dense.selfCompose_ok (nfl : ℕ → ℕ) (d : Dense) (n : ℤ) (t : ℝ) (hn : 0 < n) (hnn : (Pmf.dense d).NonNeg)
    (hm : 0 < finiteMass d.points) (hi : d.infinityMass < 1) (ht : 0 ≤ t) : ∃ c, d.selfCompose nfl n t = .ok c := by
  have hs : 0 < d.probs.sum := by
    have h1 := wsum_const d.probs 1
    rw [mul_one] at h1
    rw [← h1]
    have : finiteMass d.points = wsum d.probs (fun _ => 1) := by
      unfold finiteMass; rw [expect_dense_wsum]
    rwa [← this]
  obtain ⟨r, hr⟩ := selfConvolve_ok nfl d.probs n.toNat t ((dense_nonneg_iff d).1 hnn.2) hs ht
  unfold Dense.selfCompose
  rw [if_neg (by omega), hr]
  simp only
  rw [if_neg (not_le.2 hi)]
  exact ⟨_, rfl⟩

/-- Untruncated self-composition always succeeds on a PMF with some finite mass. -/
lemma Pmf.selfCompose_ok (nfl : ℕ → ℕ) (m : Pmf) (n : ℤ) (hn : 0 < n) (hw : m.WF) (hnn : m.NonNeg)
    (hm : 0 < finiteMass m.points) (hi : m.infinityMass < 1) : ∃ c, m.selfCompose nfl n 0 = .ok c := by
  cases m with
  | dense d =>
    obtain ⟨c, hc⟩ := Dense.selfCompose_ok nfl d n 0 hn hnn hm hi (le_refl _)
    simp only [Pmf.selfCompose]
    rw [hc]; exact ⟨_, rfl⟩
  | sparse s =>
    simp only [Pmf.selfCompose]
    unfold Sparse.selfCompose
    rw [if_neg (by omega)]
    split_ifs
    · exact ⟨_, rfl⟩
    · have hne : (Pmf.sparse s).points ≠ [] := by
        intro h0; rw [h0] at hm; simp [finiteMass, expect] at hm
      obtain ⟨d, hd⟩ := Pmf.toDense_ok hne
      obtain ⟨t1, t2, t3, t4, t5, t6⟩ := Pmf.toDense_spec hd hw
      have e : finiteMass d.points = finiteMass (Pmf.sparse s).points := t4 _
      obtain ⟨c, hc⟩ := Dense.selfCompose_ok nfl d n 0 hn (t6 hnn) (by rw [e]; exact hm) (by rw [t2]; exact hi) (le_refl _)
      have hd' : s.toDense = .ok d := hd
      rw [hd']
      simp only
      rw [hc]; exact ⟨_, rfl⟩
    · obtain ⟨c, hc⟩ := Sparse.selfComposeLoop_ok s (n.toNat - 1) s rfl rfl
      rw [hc]; exact ⟨_, rfl⟩

end Verif
