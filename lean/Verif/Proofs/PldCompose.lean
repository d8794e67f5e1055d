import Verif.Proofs.PldTrunc

/-! Dictionaries, conversions and `compose`. -/

namespace Verif
open Spec PldPmf PldCommon

namespace PyDict

lemma expect_set (d : PyDict) (k : ℤ) (v : ℝ) (φ : ℤ → ℝ) :
    expect (d.set k (d.get k + v)) φ = expect d φ + v * φ k := by
  induction d with
  | nil => simp [set, get]
  | cons x d ih =>
    obtain ⟨k', v'⟩ := x
    by_cases h : k' = k
    · subst h; simp only [set, get, if_true, expect_cons]; ring
    · simp only [set, get, if_neg h, expect_cons, ih]; ring

lemma mem_keys_set (d : PyDict) (k : ℤ) (v : ℝ) (j : ℤ) : j ∈ (d.set k v).keys ↔ j = k ∨ j ∈ d.keys := by
  induction d with
  | nil => simp [set, keys]
  | cons x d ih =>
    obtain ⟨k', v'⟩ := x
    by_cases h : k' = k
    · subst h; simp only [set, if_true]; simp [keys]
    · simp only [set, if_neg h]
      have : keys ((k', v') :: set d k v) = k' :: keys (set d k v) := rfl
      rw [this, List.mem_cons, ih]
      have : keys ((k', v') :: d) = k' :: keys d := rfl
      rw [this, List.mem_cons]; tauto

lemma nodup_set {d : PyDict} (hd : d.keys.Nodup) (k : ℤ) (v : ℝ) : (d.set k v).keys.Nodup := by
  induction d with
  | nil => simp [set, keys]
  | cons x d ih =>
    obtain ⟨k', v'⟩ := x
    have e1 : keys ((k', v') :: d) = k' :: keys d := rfl
    rw [e1, List.nodup_cons] at hd
    by_cases h : k' = k
    · subst h; simp only [set, if_true]
      have e2 : keys ((k', v) :: d) = k' :: keys d := rfl
      rw [e2, List.nodup_cons]; exact hd
    · simp only [set, if_neg h]
      have e2 : keys ((k', v') :: set d k v) = k' :: keys (set d k v) := rfl
      rw [e2, List.nodup_cons, mem_keys_set]
      exact ⟨by rintro (h1 | h1); exacts [h h1, hd.1 h1], ih hd.2⟩

lemma get_nonneg {d : PyDict} (hd : ∀ x ∈ d, 0 ≤ x.2) (k : ℤ) : 0 ≤ d.get k := by
  induction d with
  | nil => simp [get]
  | cons x d ih =>
    obtain ⟨k', v'⟩ := x
    simp only [get]
    split_ifs
    · exact hd (k', v') (by simp)
    · exact ih (fun x hx => hd x (by simp [hx]))

lemma set_nonneg {d : PyDict} (hd : ∀ x ∈ d, 0 ≤ x.2) (k : ℤ) {v : ℝ} (hv : 0 ≤ v) : ∀ x ∈ d.set k v, 0 ≤ x.2 := by
  induction d with
  | nil => intro x hx; simp [set] at hx; subst hx; exact hv
  | cons y d ih =>
    obtain ⟨k', v'⟩ := y
    intro x hx
    simp only [set] at hx
    split_ifs at hx
    · rcases List.mem_cons.1 hx with rfl | hx
      · exact hv
      · exact hd x (by simp [hx])
    · rcases List.mem_cons.1 hx with rfl | hx
      · exact hd _ (by simp)
      · exact ih (fun x hx => hd x (by simp [hx])) x hx

lemma get_eq_zero {d : PyDict} {k : ℤ} (h : k ∉ d.keys) : d.get k = 0 := by
  induction d with
  | nil => rfl
  | cons x d ih =>
    obtain ⟨k', v'⟩ := x
    have e1 : keys ((k', v') :: d) = k' :: keys d := rfl
    rw [e1, List.mem_cons] at h
    push Not at h
    simp only [get, if_neg (Ne.symm h.1)]
    exact ih h.2

/-- summing `get` over an interval that contains all keys -/
lemma sum_get {d : PyDict} (hd : d.keys.Nodup) (lo : ℤ) (n : ℕ) (hk : ∀ k ∈ d.keys, lo ≤ k ∧ k < lo + n)
    (φ : ℤ → ℝ) : ∑ i ∈ Finset.range n, d.get (lo + i) * φ (lo + i) = expect d φ := by
  induction d with
  | nil => simp [get]
  | cons x d ih =>
    obtain ⟨k, v⟩ := x
    have e1 : keys ((k, v) :: d) = k :: keys d := rfl
    rw [e1] at hd hk
    rw [List.nodup_cons] at hd
    rw [expect_cons, ← ih hd.2 (fun j hj => hk j (by simp [hj]))]
    have hk0 := hk k (by simp)
    have hstep : ∀ i ∈ Finset.range n, get ((k, v) :: d) (lo + i) * φ (lo + i) =
        (if (k - lo).toNat = i then v * φ k else 0) + get d (lo + i) * φ (lo + i) := by
      intro i _
      by_cases h : k = lo + i
      · have : (k - lo).toNat = i := by omega
        rw [if_pos this]
        simp only [get, if_pos h]
        rw [← h, get_eq_zero hd.1]; ring
      · have : (k - lo).toNat ≠ i := by omega
        rw [if_neg this]
        simp only [get, if_neg h]; ring
    rw [Finset.sum_congr rfl hstep, Finset.sum_add_distrib, Finset.sum_ite_eq, if_pos]
    rw [Finset.mem_range]; omega

end PyDict

lemma minKey_le (m : ℤ) (l : List ℤ) : minKey m l ≤ m ∧ ∀ k ∈ l, minKey m l ≤ k := by
  induction l generalizing m with
  | nil => simp [minKey]
  | cons a l ih =>
    have := ih (min m a)
    simp only [minKey]
    refine ⟨le_trans this.1 (min_le_left _ _), ?_⟩
    intro k hk
    rcases List.mem_cons.1 hk with rfl | hk
    · exact le_trans this.1 (min_le_right _ _)
    · exact this.2 k hk

lemma le_maxKey (m : ℤ) (l : List ℤ) : m ≤ maxKey m l ∧ ∀ k ∈ l, k ≤ maxKey m l := by
  induction l generalizing m with
  | nil => simp [maxKey]
  | cons a l ih =>
    have := ih (max m a)
    simp only [maxKey]
    refine ⟨le_trans (le_max_left _ _) this.1, ?_⟩
    intro k hk
    rcases List.mem_cons.1 hk with rfl | hk
    · exact le_trans (le_max_right _ _) this.1
    · exact this.2 k hk

lemma minKey_mem (m : ℤ) (l : List ℤ) : minKey m l = m ∨ minKey m l ∈ l := by
  induction l generalizing m with
  | nil => simp [minKey]
  | cons a l ih =>
    simp only [minKey]
    rcases ih (min m a) with h | h
    · rcases min_choice m a with h2 | h2
      · left; rw [h, h2]
      · right; rw [h, h2]; simp
    · right; simp [h]

lemma maxKey_mem (m : ℤ) (l : List ℤ) : maxKey m l = m ∨ maxKey m l ∈ l := by
  induction l generalizing m with
  | nil => simp [maxKey]
  | cons a l ih =>
    simp only [maxKey]
    rcases ih (max m a) with h | h
    · rcases max_choice m a with h2 | h2
      · left; rw [h, h2]
      · right; rw [h, h2]; simp
    · right; simp [h]

/-- full description of `dictionary_to_list` -/
lemma dictionaryToList_spec {d : PyDict} {off : ℤ} {l : List ℝ} (h : dictionaryToList d = .ok (off, l)) :
    d ≠ [] ∧ off ∈ d.keys ∧ off + l.length - 1 ∈ d.keys ∧ 0 < l.length ∧
      (∀ k ∈ d.keys, off ≤ k ∧ k < off + l.length) ∧
      ∀ i : ℕ, i < l.length → l.getD i 0 = d.get (off + i) := by
  unfold dictionaryToList at h
  cases hk : d.keys with
  | nil => rw [hk] at h; simp at h
  | cons k ks =>
    rw [hk] at h
    simp only [Except.ok.injEq, Prod.mk.injEq] at h
    obtain ⟨rfl, rfl⟩ := h
    have h1 := minKey_le k ks
    have h2 := le_maxKey k ks
    have hlen : ((pyRange (minKey k ks) (maxKey k ks + 1)).map fun i => d.get i).length =
        (maxKey k ks + 1 - minKey k ks).toNat := by simp [pyRange]
    refine ⟨?_, ?_, ?_, ?_, ?_, ?_⟩
    · intro hd; subst hd; simp [PyDict.keys] at hk
    · rcases minKey_mem k ks with h | h <;> simp [h]
    · rw [hlen]
      have : minKey k ks + ((maxKey k ks + 1 - minKey k ks).toNat : ℤ) - 1 = maxKey k ks := by omega
      rw [this]
      rcases maxKey_mem k ks with h | h <;> simp [h]
    · rw [hlen]; omega
    · rw [hlen]
      intro j hj
      have hj1 : minKey k ks ≤ j := by
        rcases List.mem_cons.1 hj with rfl | hj
        · exact h1.1
        · exact h1.2 j hj
      have hj2 : j ≤ maxKey k ks := by
        rcases List.mem_cons.1 hj with rfl | hj
        · exact h2.1
        · exact h2.2 j hj
      omega
    · intro i hi
      rw [List.getD_eq_getElem _ _ hi]
      simp [pyRange]

lemma dictionaryToList_ok {d : PyDict} (h : d ≠ []) : ∃ off l, dictionaryToList d = .ok (off, l) := by
  unfold dictionaryToList
  cases d with
  | nil => exact absurd rfl h
  | cons x d => exact ⟨_, _, rfl⟩

lemma Sparse.toDense_spec {s : Sparse} {d : Dense} (h : s.toDense = .ok d) (hn : s.lossProbs.keys.Nodup) :
    d.disc = s.disc ∧ d.infinityMass = s.infinityMass ∧ d.pessimistic = s.pessimistic ∧ d.probs ≠ [] ∧
      (∀ φ, expect d.points φ = expect s.lossProbs φ) ∧
      ((∀ x ∈ s.lossProbs, 0 ≤ x.2) → ∀ v ∈ d.probs, 0 ≤ v) := by
  unfold Sparse.toDense at h
  cases hd : dictionaryToList s.lossProbs with
  | error e => rw [hd] at h; simp at h
  | ok r =>
    obtain ⟨off, l⟩ := r
    rw [hd] at h
    simp only [Except.ok.injEq] at h
    subst h
    obtain ⟨_, _, _, h4, h5, h6⟩ := dictionaryToList_spec hd
    refine ⟨rfl, rfl, rfl, ?_, ?_, ?_⟩
    · intro h0; simp only at h0; rw [h0] at h4; simp at h4
    · intro φ
      rw [expect_dense_wsum, wsum_eq_sum, ← PyDict.sum_get hn off l.length h5 φ]
      apply Finset.sum_congr rfl
      intro i hi
      simp only
      rw [h6 i (Finset.mem_range.1 hi)]
    · intro hnn v hv
      obtain ⟨i, hi, rfl⟩ := List.mem_iff_getElem.1 hv
      have := h6 i hi
      rw [List.getD_eq_getElem _ _ hi] at this
      rw [this]; exact PyDict.get_nonneg hnn _

lemma Pmf.toDense_spec {m : Pmf} {d : Dense} (h : m.toDense = .ok d) (hw : m.WF) :
    d.disc = m.disc ∧ d.infinityMass = m.infinityMass ∧ d.pessimistic = m.pessimistic ∧
      (∀ φ, expect d.points φ = expect m.points φ) ∧ (Pmf.dense d).WF ∧ (m.NonNeg → (Pmf.dense d).NonNeg) := by
  cases m with
  | dense d' =>
    simp only [Pmf.toDense, Except.ok.injEq] at h
    subst h
    exact ⟨rfl, rfl, rfl, fun _ => rfl, hw, id⟩
  | sparse s =>
    have hs := Sparse.toDense_spec h hw.2
    refine ⟨hs.1, hs.2.1, hs.2.2.1, hs.2.2.2.2.1, ?_, ?_⟩
    · show 0 < d.disc
      rw [hs.1]; exact hw.1
    · intro hn
      refine ⟨?_, ?_⟩
      · show 0 ≤ d.infinityMass
        rw [hs.2.1]; exact hn.1
      · intro x hx
        have h6 := hs.2.2.2.2.2 hn.2
        obtain ⟨i, hi, rfl⟩ := List.mem_map.1 hx
        have hi' := List.mem_range.1 hi
        simp only
        rw [List.getD_eq_getElem _ _ hi']
        exact h6 _ (List.getElem_mem _)

lemma dense_nonneg_iff (d : Dense) : (∀ x ∈ d.points, 0 ≤ x.2) ↔ ∀ v ∈ d.probs, 0 ≤ v := by
  constructor
  · intro h v hv
    obtain ⟨i, hi, rfl⟩ := List.mem_iff_getElem.1 hv
    have := h (d.lowerLoss + (i : ℤ), d.probs.getD i 0) (List.mem_map.2 ⟨i, List.mem_range.2 hi, rfl⟩)
    simpa [hi] using this
  · intro h x hx
    obtain ⟨i, hi, rfl⟩ := List.mem_map.1 hx
    have hi' := List.mem_range.1 hi
    simp only
    rw [List.getD_eq_getElem _ _ hi']
    exact h _ (List.getElem_mem _)

lemma fftconvolve_nonneg {a b : List ℝ} (ha : ∀ v ∈ a, 0 ≤ v) (hb : ∀ v ∈ b, 0 ≤ v) : ∀ v ∈ fftconvolve a b, 0 ≤ v := by
  have hg : ∀ (l : List ℝ) (_ : ∀ v ∈ l, 0 ≤ v) (i : ℕ), 0 ≤ l.getD i 0 := by
    intro l hl i
    by_cases h : i < l.length
    · rw [List.getD_eq_getElem _ _ h]; exact hl _ (List.getElem_mem _)
    · rw [List.getD_eq_default _ _ (not_lt.1 h)]
  intro v hv
  unfold fftconvolve at hv
  split_ifs at hv with h
  · simp at hv
  · obtain ⟨k, _, rfl⟩ := List.mem_map.1 hv
    exact Finset.sum_nonneg (fun i _ => mul_nonneg (hg a ha i) (hg b hb _))

/-! ### what composing means -/

/-- `E φ(X + Y)` over the finite parts. -/
noncomputable def convE (a b : List (ℤ × ℝ)) (φ : ℤ → ℝ) : ℝ := expect a fun i => expect b fun j => φ (i + j)

/-- The relation between inputs and result of a `compose` call with truncation `t`. -/
structure ComposeSpec (a b c : Pmf) (t : ℝ) : Prop where
  disc : c.disc = a.disc
  disc' : b.disc = a.disc
  pess : c.pessimistic = a.pessimistic
  pess' : b.pessimistic = a.pessimistic
  wf : a.WF → b.WF → c.WF
  exact_inf : t = 0 → c.infinityMass = a.infinityMass + b.infinityMass - a.infinityMass * b.infinityMass
  exact_dist : t = 0 → ∀ φ, expect c.points φ = convE a.points b.points φ
  nonneg : a.NonNeg → b.NonNeg → (∀ x ∈ c.points, 0 ≤ x.2) ∧
    a.infinityMass + b.infinityMass - a.infinityMass * b.infinityMass ≤ c.infinityMass
  up : a.NonNeg → b.NonNeg → a.pessimistic = true → ∀ φ : ℤ → ℝ, Monotone φ → (∀ k, 0 ≤ φ k) → (∀ k, φ k ≤ 1) →
    a.infinityMass + b.infinityMass - a.infinityMass * b.infinityMass + convE a.points b.points φ ≤
      c.infinityMass + expect c.points φ ∧
    c.infinityMass + expect c.points φ ≤
      a.infinityMass + b.infinityMass - a.infinityMass * b.infinityMass + convE a.points b.points φ + max 0 t
  down : a.NonNeg → b.NonNeg → a.pessimistic = false → ∀ φ : ℤ → ℝ, Monotone φ → (∀ k, 0 ≤ φ k) → (∀ k, φ k ≤ 1) →
    c.infinityMass + expect c.points φ ≤
      a.infinityMass + b.infinityMass - a.infinityMass * b.infinityMass + convE a.points b.points φ ∧
    a.infinityMass + b.infinityMass - a.infinityMass * b.infinityMass + convE a.points b.points φ ≤
      c.infinityMass + expect c.points φ + max 0 t
  mass : a.NonNeg → b.NonNeg → a.pessimistic = true →
    c.infinityMass + finiteMass c.points =
      a.infinityMass + b.infinityMass - a.infinityMass * b.infinityMass + finiteMass a.points * finiteMass b.points

lemma convE_const (a b : List (ℤ × ℝ)) : convE a b (fun _ => 1) = finiteMass a * finiteMass b := by
  unfold convE
  show expect a (fun _ => finiteMass b) = _
  rw [expect_const]

lemma Dense.compose_spec {a b c : Dense} {t : ℝ} (h : a.compose b t = .ok c) :
    ComposeSpec (.dense a) (.dense b) (.dense c) t := by
  unfold Dense.compose Dense.validateComposable at h
  by_cases hd : a.disc = b.disc
  swap
  · rw [if_pos hd] at h; simp at h
  rw [if_neg (not_not.2 hd)] at h
  by_cases hp : a.pessimistic = b.pessimistic
  swap
  · rw [if_pos hp] at h; simp at h
  rw [if_neg (not_not.2 hp)] at h
  simp only at h
  cases htr : truncateTails (fftconvolve a.probs b.probs) t a.pessimistic with
  | error e => rw [htr] at h; simp at h
  | ok r =>
    obtain ⟨off, ps, right⟩ := r
    rw [htr] at h
    simp only [Except.ok.injEq] at h
    have hconv : ∀ φ : ℤ → ℝ, wsum (fftconvolve a.probs b.probs) (fun i => φ (a.lowerLoss + b.lowerLoss + i)) =
        convE a.points b.points φ := by
      intro φ
      rw [wsum_pE, polyOf_fftconvolve, pE_mul]
      unfold convE
      rw [expect_dense]
      congr 1; ext i
      rw [expect_dense]
      congr 1; ext j
      congr 1; push_cast; ring
    have hE : ∀ φ : ℤ → ℝ, expect c.points φ =
        wsum ps (fun i => (fun j : ℕ => φ (a.lowerLoss + b.lowerLoss + j)) (i + off)) := by
      intro φ
      subst h
      rw [expect_dense_wsum]
      apply wsum_congr
      intro i _
      simp only
      congr 1; push_cast; ring
    have hc : c.disc = a.disc ∧ c.pessimistic = a.pessimistic ∧
        c.infinityMass = a.infinityMass + b.infinityMass - a.infinityMass * b.infinityMass + right := by
      subst h; exact ⟨rfl, rfl, rfl⟩
    have hcp : c.probs = ps := by subst h; rfl
    have hnn : (Pmf.dense a).NonNeg → (Pmf.dense b).NonNeg → ∀ v ∈ fftconvolve a.probs b.probs, 0 ≤ v :=
      fun ha hb => fftconvolve_nonneg ((dense_nonneg_iff a).1 ha.2) ((dense_nonneg_iff b).1 hb.2)
    have hmon : ∀ φ : ℤ → ℝ, Monotone φ → ∀ i j : ℕ, i ≤ j →
        φ (a.lowerLoss + b.lowerLoss + i) ≤ φ (a.lowerLoss + b.lowerLoss + j) := by
      intro φ hφ i j hij
      apply hφ
      have : (i : ℤ) ≤ j := by exact_mod_cast hij
      linarith
    refine ⟨hc.1, hd.symm, hc.2.1, hp.symm, ?_, ?_, ?_, ?_, ?_, ?_, ?_⟩
    · intro ha _
      show 0 < c.disc
      rw [hc.1]; exact ha
    · intro ht; subst ht
      rw [truncateTails_zero] at htr
      simp only [Except.ok.injEq, Prod.mk.injEq] at htr
      show c.infinityMass = _
      rw [hc.2.2, ← htr.2.2, add_zero]; rfl
    · intro ht φ; subst ht
      rw [truncateTails_zero] at htr
      simp only [Except.ok.injEq, Prod.mk.injEq] at htr
      show expect c.points φ = convE a.points b.points φ
      rw [hE, ← hconv, ← htr.1, ← htr.2.1]
      rfl
    · intro ha hb
      have := truncateTails_nonneg htr (hnn ha hb)
      refine ⟨(dense_nonneg_iff c).2 (by rw [hcp]; exact this.1), ?_⟩
      show _ ≤ c.infinityMass
      rw [hc.2.2]
      have h2 := this.2.1
      show a.infinityMass + b.infinityMass - a.infinityMass * b.infinityMass ≤ _
      linarith
    · intro ha hb hpe φ hφ h0 h1
      have hpe' : a.pessimistic = true := hpe
      rw [hpe'] at htr
      have := truncateTails_pess htr (hnn ha hb) (f := fun j : ℕ => φ (a.lowerLoss + b.lowerLoss + j))
        (fun i j hij _ => hmon φ hφ i j hij) (fun i _ => h0 _) (fun i _ => h1 _)
      rw [hconv] at this
      show a.infinityMass + b.infinityMass - a.infinityMass * b.infinityMass + convE a.points b.points φ ≤
        c.infinityMass + expect c.points φ ∧ c.infinityMass + expect c.points φ ≤
        a.infinityMass + b.infinityMass - a.infinityMass * b.infinityMass + convE a.points b.points φ + max 0 t
      rw [hc.2.2, hE]
      constructor <;> linarith [this.1, this.2]
    · intro ha hb hpe φ hφ h0 h1
      have hpe' : a.pessimistic = false := hpe
      rw [hpe'] at htr
      have := truncateTails_opt htr (hnn ha hb) (f := fun j : ℕ => φ (a.lowerLoss + b.lowerLoss + j))
        (fun i j hij _ => hmon φ hφ i j hij) (fun i _ => h0 _) (fun i _ => h1 _)
      rw [hconv] at this
      show c.infinityMass + expect c.points φ ≤
        a.infinityMass + b.infinityMass - a.infinityMass * b.infinityMass + convE a.points b.points φ ∧
        a.infinityMass + b.infinityMass - a.infinityMass * b.infinityMass + convE a.points b.points φ ≤
        c.infinityMass + expect c.points φ + max 0 t
      rw [hc.2.2, hE]
      constructor <;> linarith [this.1, this.2]
    · intro ha hb hpe
      have hpe' : a.pessimistic = true := hpe
      rw [hpe'] at htr
      have := truncateTails_mass htr (hnn ha hb)
      show c.infinityMass + finiteMass c.points = a.infinityMass + b.infinityMass - a.infinityMass * b.infinityMass +
        finiteMass a.points * finiteMass b.points
      rw [← convE_const, ← hconv, hc.2.2]
      unfold finiteMass
      rw [hE]
      simp only [wsum_const, mul_one]
      linarith

/-! ### sparse -/

lemma convolveInner_spec (k1 : ℤ) (v1 : ℝ) (conv other : PyDict) :
    (∀ φ, expect (Sparse.convolveInner k1 v1 conv other) φ = expect conv φ + v1 * expect other fun j => φ (k1 + j)) ∧
    (conv.keys.Nodup → (Sparse.convolveInner k1 v1 conv other).keys.Nodup) ∧
    (0 ≤ v1 → (∀ x ∈ other, 0 ≤ x.2) → (∀ x ∈ conv, 0 ≤ x.2) →
      ∀ x ∈ Sparse.convolveInner k1 v1 conv other, 0 ≤ x.2) := by
  induction other generalizing conv with
  | nil => simp [Sparse.convolveInner]
  | cons x rest ih =>
    obtain ⟨k2, v2⟩ := x
    simp only [Sparse.convolveInner]
    obtain ⟨h1, h2, h3⟩ := ih (conv.set (k1 + k2) (conv.get (k1 + k2) + v1 * v2))
    refine ⟨?_, ?_, ?_⟩
    · intro φ; rw [h1, PyDict.expect_set, expect_cons]; ring
    · intro hn; exact h2 (PyDict.nodup_set hn _ _)
    · intro hv ho hc
      refine h3 hv (fun x hx => ho x (by simp [hx])) (PyDict.set_nonneg hc _ ?_)
      have h4 := PyDict.get_nonneg hc (k1 + k2)
      have h5 := mul_nonneg hv (ho (k2, v2) (by simp))
      simp only at h5
      linarith

lemma convolve_spec (other conv a : PyDict) :
    (∀ φ, expect (Sparse.convolve other conv a) φ = expect conv φ + convE a other φ) ∧
    (conv.keys.Nodup → (Sparse.convolve other conv a).keys.Nodup) ∧
    ((∀ x ∈ a, 0 ≤ x.2) → (∀ x ∈ other, 0 ≤ x.2) → (∀ x ∈ conv, 0 ≤ x.2) →
      ∀ x ∈ Sparse.convolve other conv a, 0 ≤ x.2) := by
  induction a generalizing conv with
  | nil => simp [Sparse.convolve, convE]
  | cons x rest ih =>
    obtain ⟨k1, v1⟩ := x
    simp only [Sparse.convolve]
    obtain ⟨h1, h2, h3⟩ := ih (Sparse.convolveInner k1 v1 conv other)
    obtain ⟨g1, g2, g3⟩ := convolveInner_spec k1 v1 conv other
    refine ⟨?_, ?_, ?_⟩
    · intro φ; rw [h1, g1]; unfold convE; rw [expect_cons]; ring
    · intro hn; exact h2 (g2 hn)
    · intro ha ho hc
      exact h3 (fun x hx => ha x (by simp [hx])) ho (g3 (ha (k1, v1) (by simp)) ho hc)

lemma Sparse.compose_spec {a b c : Sparse} {t : ℝ} (h : a.compose b t = .ok c) :
    ComposeSpec (.sparse a) (.sparse b) (.sparse c) t := by
  unfold Sparse.compose Sparse.validateComposable at h
  by_cases hd : a.disc = b.disc
  swap
  · rw [if_pos hd] at h; simp at h
  rw [if_neg (not_not.2 hd)] at h
  by_cases hp : a.pessimistic = b.pessimistic
  swap
  · rw [if_pos hp] at h; simp at h
  rw [if_neg (not_not.2 hp)] at h
  simp only at h
  set conv := Sparse.convolve b.lossProbs [] a.lossProbs with hconvdef
  set sk := conv.sortedKeys with hsk
  obtain ⟨hc1, hc2, hc3⟩ := convolve_spec b.lossProbs [] a.lossProbs
  rw [← hconvdef] at hc1 hc2 hc3
  have hnd : conv.keys.Nodup := hc2 (by simp [PyDict.keys])
  cases htr : truncateTails (sk.map conv.get) t a.pessimistic with
  | error e => rw [htr] at h; simp at h
  | ok r =>
    obtain ⟨off, ps, right⟩ := r
    rw [htr] at h
    simp only [Except.ok.injEq] at h
    have hskn : sk.Nodup := (PyDict.sortedKeys_perm conv).nodup_iff.2 hnd
    have hskl : sk.length = (sk.map conv.get).length := by simp
    have hconv : ∀ φ : ℤ → ℝ, wsum (sk.map conv.get) (fun i => φ (sk.getD i 0)) =
        convE a.lossProbs b.lossProbs φ := by
      intro φ
      rw [← expect_zip_wsum sk _ (by simp)]
      have : sk.zip (sk.map conv.get) = sk.map fun k => (k, conv.get k) := by
        conv_lhs => rw [← List.map_id sk, List.map_map]
        exact List.zip_map'
      rw [this, expect_perm (PyDict.sorted_points_perm hnd), hc1]; simp
    have hlen_gen : (∀ v ∈ sk.map conv.get, 0 ≤ v) ∨ t = 0 → off + ps.length ≤ sk.length := by
      rintro (hnn | ht)
      · have := (truncateTails_nonneg htr hnn).2.2; rwa [← hskl] at this
      · subst ht
        rw [truncateTails_zero] at htr
        simp only [Except.ok.injEq, Prod.mk.injEq] at htr
        rw [← htr.1, ← htr.2.1]; simp
    have hE : ∀ φ : ℤ → ℝ, off + ps.length ≤ sk.length → expect c.lossProbs φ =
        wsum ps (fun i => (fun j : ℕ => φ (sk.getD j 0)) (i + off)) := by
      intro φ hlen
      subst h
      simp only
      rw [expect_zip_wsum _ _ (by simp; omega)]
      apply wsum_congr
      intro i hi
      congr 1
      rw [List.getD_eq_getElem _ _ (by simp; omega), List.getD_eq_getElem _ _ (by omega)]
      simp [add_comm]
    have hc : c.disc = a.disc ∧ c.pessimistic = a.pessimistic ∧
        c.infinityMass = a.infinityMass + b.infinityMass - a.infinityMass * b.infinityMass + right := by
      subst h; exact ⟨rfl, rfl, rfl⟩
    have hnn : (Pmf.sparse a).NonNeg → (Pmf.sparse b).NonNeg → ∀ v ∈ sk.map conv.get, 0 ≤ v := by
      intro ha hb v hv
      obtain ⟨k, _, rfl⟩ := List.mem_map.1 hv
      exact PyDict.get_nonneg (hc3 ha.2 hb.2 (by simp)) k
    have hmon : ∀ φ : ℤ → ℝ, Monotone φ → ∀ i j : ℕ, i ≤ j → j < (sk.map conv.get).length →
        φ (sk.getD i 0) ≤ φ (sk.getD j 0) := by
      intro φ hφ i j hij hj
      apply hφ
      rw [← hskl] at hj
      rw [List.getD_eq_getElem _ _ (by omega), List.getD_eq_getElem _ _ hj]
      rcases hij.lt_or_eq with h | h
      · exact List.pairwise_iff_getElem.1 (PyDict.sortedKeys_sorted conv) i j (hij.trans_lt hj) hj h
      · subst h; exact le_refl _
    refine ⟨hc.1, hd.symm, hc.2.1, hp.symm, ?_, ?_, ?_, ?_, ?_, ?_, ?_⟩
    · intro ha _
      refine ⟨?_, ?_⟩
      · rw [hc.1]; exact ha.1
      · subst h
        refine List.Nodup.sublist ?_ hskn
        unfold PyDict.keys
        refine List.Sublist.trans ?_ (List.Sublist.trans (List.drop_sublist off (sk.take (off + ps.length))) (List.take_sublist _ _))
        · clear hE hlen_gen htr
          generalize List.drop off (List.take (off + ps.length) sk) = ks
          induction ks generalizing ps with
          | nil => simp
          | cons k ks ih =>
            cases ps with
            | nil => simp
            | cons p ps => simpa using ih ps
    · intro ht; subst ht
      rw [truncateTails_zero] at htr
      simp only [Except.ok.injEq, Prod.mk.injEq] at htr
      show c.infinityMass = _
      rw [hc.2.2, ← htr.2.2, add_zero]; rfl
    · intro ht φ
      have hl := hlen_gen (Or.inr ht)
      subst ht
      rw [truncateTails_zero] at htr
      simp only [Except.ok.injEq, Prod.mk.injEq] at htr
      show expect c.lossProbs φ = convE a.lossProbs b.lossProbs φ
      rw [hE φ hl, ← hconv, ← htr.1, ← htr.2.1]
      rfl
    · intro ha hb
      have := truncateTails_nonneg htr (hnn ha hb)
      refine ⟨?_, ?_⟩
      · intro x hx
        subst h
        exact this.1 x.2 (List.of_mem_zip (a := x.1) (b := x.2) hx).2
      · show _ ≤ c.infinityMass
        rw [hc.2.2]
        have h2 := this.2.1
        show a.infinityMass + b.infinityMass - a.infinityMass * b.infinityMass ≤ _
        linarith
    · intro ha hb hpe φ hφ h0 h1
      have hl := hlen_gen (Or.inl (hnn ha hb))
      have hpe' : a.pessimistic = true := hpe
      rw [hpe'] at htr
      have := truncateTails_pess htr (hnn ha hb) (f := fun j : ℕ => φ (sk.getD j 0))
        (fun i j hij hj => hmon φ hφ i j hij hj) (fun i _ => h0 _) (fun i _ => h1 _)
      rw [hconv] at this
      show a.infinityMass + b.infinityMass - a.infinityMass * b.infinityMass + convE a.lossProbs b.lossProbs φ ≤
        c.infinityMass + expect c.lossProbs φ ∧ c.infinityMass + expect c.lossProbs φ ≤
        a.infinityMass + b.infinityMass - a.infinityMass * b.infinityMass + convE a.lossProbs b.lossProbs φ + max 0 t
      rw [hc.2.2, hE φ hl]
      constructor <;> linarith [this.1, this.2]
    · intro ha hb hpe φ hφ h0 h1
      have hl := hlen_gen (Or.inl (hnn ha hb))
      have hpe' : a.pessimistic = false := hpe
      rw [hpe'] at htr
      have := truncateTails_opt htr (hnn ha hb) (f := fun j : ℕ => φ (sk.getD j 0))
        (fun i j hij hj => hmon φ hφ i j hij hj) (fun i _ => h0 _) (fun i _ => h1 _)
      rw [hconv] at this
      show c.infinityMass + expect c.lossProbs φ ≤
        a.infinityMass + b.infinityMass - a.infinityMass * b.infinityMass + convE a.lossProbs b.lossProbs φ ∧
        a.infinityMass + b.infinityMass - a.infinityMass * b.infinityMass + convE a.lossProbs b.lossProbs φ ≤
        c.infinityMass + expect c.lossProbs φ + max 0 t
      rw [hc.2.2, hE φ hl]
      constructor <;> linarith [this.1, this.2]
    · intro ha hb hpe
      have hl := hlen_gen (Or.inl (hnn ha hb))
      have hpe' : a.pessimistic = true := hpe
      rw [hpe'] at htr
      have := truncateTails_mass htr (hnn ha hb)
      show c.infinityMass + finiteMass c.lossProbs = a.infinityMass + b.infinityMass - a.infinityMass * b.infinityMass +
        finiteMass a.lossProbs * finiteMass b.lossProbs
      rw [← convE_const, ← hconv, hc.2.2]
      unfold finiteMass
      rw [hE _ hl]
      simp only [wsum_const, mul_one]
      linarith

/-! ### `compose_pmfs` -/

lemma convE_congr {a a' b b' : List (ℤ × ℝ)} (ha : ∀ φ, expect a' φ = expect a φ) (hb : ∀ φ, expect b' φ = expect b φ)
    (φ : ℤ → ℝ) : convE a' b' φ = convE a b φ := by
  unfold convE; rw [ha]; congr 1; ext i; rw [hb]

/-- `ComposeSpec` only depends on what the inputs mean. -/
lemma ComposeSpec.congr {a a' b b' c : Pmf} {t : ℝ} (h : ComposeSpec a' b' c t)
    (ha : a'.disc = a.disc ∧ a'.infinityMass = a.infinityMass ∧ a'.pessimistic = a.pessimistic ∧
      (∀ φ, expect a'.points φ = expect a.points φ) ∧ a'.WF ∧ (a.NonNeg → a'.NonNeg))
    (hb : b'.disc = b.disc ∧ b'.infinityMass = b.infinityMass ∧ b'.pessimistic = b.pessimistic ∧
      (∀ φ, expect b'.points φ = expect b.points φ) ∧ b'.WF ∧ (b.NonNeg → b'.NonNeg)) :
    ComposeSpec a b c t := by
  obtain ⟨a1, a2, a3, a4, a5, a6⟩ := ha
  obtain ⟨b1, b2, b3, b4, b5, b6⟩ := hb
  have hE := fun φ => convE_congr (φ := φ) a4 b4
  have hm : ∀ {x y : Pmf}, (∀ φ, expect x.points φ = expect y.points φ) → finiteMass x.points = finiteMass y.points :=
    fun h => h _
  constructor
  · rw [← a1]; exact h.disc
  · rw [← a1, ← b1]; exact h.disc'
  · rw [← a3]; exact h.pess
  · rw [← a3, ← b3]; exact h.pess'
  · intro _ _; exact h.wf a5 b5
  · intro ht; rw [← a2, ← b2]; exact h.exact_inf ht
  · intro ht φ; rw [← hE]; exact h.exact_dist ht φ
  · intro x y; rw [← a2, ← b2]; exact h.nonneg (a6 x) (b6 y)
  · intro x y hp φ h1 h2 h3; rw [← a2, ← b2, ← hE]; exact h.up (a6 x) (b6 y) (a3.trans hp) φ h1 h2 h3
  · intro x y hp φ h1 h2 h3; rw [← a2, ← b2, ← hE]; exact h.down (a6 x) (b6 y) (a3.trans hp) φ h1 h2 h3
  · intro x y hp; rw [← a2, ← b2, ← hm a4, ← hm b4]; exact h.mass (a6 x) (b6 y) (a3.trans hp)

lemma composeAsDense_spec {a b c : Pmf} {t : ℝ} (h : composeAsDense a b t = .ok c) (ha : a.WF) (hb : b.WF) :
    ComposeSpec a b c t := by
  unfold composeAsDense at h
  cases h1 : a.toDense with
  | error e => rw [h1] at h; simp at h
  | ok a' =>
    rw [h1] at h
    simp only at h
    cases h2 : b.toDense with
    | error e => rw [h2] at h; simp at h
    | ok b' =>
      rw [h2] at h
      simp only at h
      cases h3 : a'.compose b' t with
      | error e => rw [h3] at h; simp at h
      | ok r =>
        rw [h3] at h
        simp only [Except.ok.injEq] at h
        subst h
        exact (Dense.compose_spec h3).congr (Pmf.toDense_spec h1 ha) (Pmf.toDense_spec h2 hb)

lemma composePmfs_spec {a b c : Pmf} {t : ℝ} (h : composePmfs a b t = .ok c) (ha : a.WF) (hb : b.WF) :
    ComposeSpec a b c t := by
  unfold composePmfs at h
  cases a with
  | dense a => exact composeAsDense_spec h ha hb
  | sparse a =>
    cases b with
    | dense b => exact composeAsDense_spec h ha hb
    | sparse b =>
      simp only at h
      split_ifs at h
      · cases h3 : a.compose b t with
        | error e => rw [h3] at h; simp at h
        | ok r =>
          rw [h3] at h
          simp only [Except.ok.injEq] at h
          subst h
          exact Sparse.compose_spec h3
      · exact composeAsDense_spec h ha hb

end Verif
