import Verif.Proofs.PldSelfCompose

/-! `dictionary_to_list`, `list_to_dictionary`, `convolve_dictionary`, `self_convolve_dictionary`. -/

namespace Verif
open Spec PldPmf PldCommon

lemma dropCount_eq (θ s : ℝ) (l : List ℝ) : dropCount θ s l = findPrefix θ s l := by
  induction l generalizing s with
  | nil => rfl
  | cons v vs ih =>
    rw [dropCount, findPrefix, ih]

lemma collectPositive_keys (off : ℤ) (lo hi i : ℕ) (l : List ℝ) :
    ∀ k ∈ (collectPositive off lo hi i l).keys, off + i ≤ k := by
  induction l generalizing i with
  | nil => simp [collectPositive, PyDict.keys]
  | cons v vs ih =>
    intro k hk
    rw [collectPositive] at hk
    split_ifs at hk
    · rcases List.mem_cons.1 hk with h | h
      · rw [h]; simp only; omega
      · have := ih (i + 1) k h; push_cast at this; omega
    · have := ih (i + 1) k hk; push_cast at this; omega

lemma collectPositive_nodup (off : ℤ) (lo hi i : ℕ) (l : List ℝ) : (collectPositive off lo hi i l).keys.Nodup := by
  induction l generalizing i with
  | nil => simp [collectPositive, PyDict.keys]
  | cons v vs ih =>
    rw [collectPositive]
    split_ifs
    · refine List.nodup_cons.2 ⟨fun hmem => ?_, ih (i + 1)⟩
      have := collectPositive_keys off lo hi (i + 1) vs _ hmem
      push_cast at this; omega
    · exact ih (i + 1)

lemma collectPositive_pos (off : ℤ) (lo hi i : ℕ) (l : List ℝ) : ∀ x ∈ collectPositive off lo hi i l, 0 < x.2 := by
  induction l generalizing i with
  | nil => simp [collectPositive]
  | cons v vs ih =>
    intro x hx
    rw [collectPositive] at hx
    split_ifs at hx with h
    · rcases List.mem_cons.1 hx with rfl | hx
      · exact h.2.2
      · exact ih (i + 1) x hx
    · exact ih (i + 1) x hx

lemma collectPositive_get (off : ℤ) (lo hi i : ℕ) (l : List ℝ) (j : ℕ) (hij : i ≤ j) :
    (collectPositive off lo hi i l).get (off + j) =
      if lo ≤ j ∧ j < hi ∧ 0 < l.getD (j - i) 0 then l.getD (j - i) 0 else 0 := by
  classical
  induction l generalizing i with
  | nil => simp [collectPositive, PyDict.get]
  | cons v vs ih =>
    rw [collectPositive]
    rcases hij.lt_or_eq with hlt | rfl
    · have hs : j - i = (j - (i + 1)) + 1 := by omega
      have ih' := ih (i + 1) (by omega)
      rw [hs, List.getD_cons_succ]
      split_ifs at ih' ⊢ <;> first
        | exact ih'
        | (simp only [PyDict.get]; rw [if_neg (by omega)]; exact ih')
    · have hnot : PyDict.get (collectPositive off lo hi (i + 1) vs) (off + (i : ℤ)) = 0 := by
        apply PyDict.get_eq_zero
        intro hmem
        have := collectPositive_keys off lo hi (i + 1) vs _ hmem
        push_cast at this; omega
      simp only [Nat.sub_self, List.getD_cons_zero]
      by_cases h : lo ≤ i ∧ i < hi ∧ v > 0
      · rw [if_pos h, if_pos h]
        simp only [PyDict.get]; rw [if_pos (by ring)]
      · rw [if_neg h, if_neg h]; exact hnot

lemma collectPositive_expect (off : ℤ) (lo hi i : ℕ) (l : List ℝ) (hl : ∀ v ∈ l, 0 ≤ v) (φ : ℤ → ℝ) :
    expect (collectPositive off lo hi i l) φ =
      wsum l (fun m => if lo ≤ i + m ∧ i + m < hi then φ (off + ((i + m : ℕ) : ℤ)) else 0) := by
  induction l generalizing i with
  | nil => simp [collectPositive]
  | cons v vs ih =>
    have hrec := ih (i + 1) (fun v hv => hl v (by simp [hv]))
    have hst : ∀ m, i + 1 + m = i + (m + 1) := by intro m; omega
    simp only [hst] at hrec
    rw [collectPositive, wsum_cons]
    by_cases h : lo ≤ i ∧ i < hi ∧ v > 0
    · rw [if_pos h, expect_cons, hrec, add_zero, if_pos ⟨h.1, h.2.1⟩]
      congr 2
      rw [add_comm]
    · rw [if_neg h, hrec, add_zero]
      by_cases h2 : lo ≤ i ∧ i < hi
      · have hv : v = 0 := by
          have h3 : ¬ v > 0 := fun hv => h ⟨h2.1, h2.2, hv⟩
          exact le_antisymm (not_lt.1 h3) (hl v (by simp))
        rw [hv]; ring
      · rw [if_neg h2]; ring

/-- What `list_to_dictionary` does, for non-negative lists. -/
lemma listToDictionary_spec (l : List ℝ) (hl : ∀ v ∈ l, 0 ≤ v) (off : ℤ) (t : ℝ) (ht : 0 ≤ t) :
    ∃ lo hi : ℕ, lo ≤ l.length ∧ hi ≤ l.length ∧ (l.take lo).sum ≤ t / 2 ∧ (l.drop hi).sum ≤ t / 2 ∧
      (∀ j : ℕ, (listToDictionary l off t).get (off + j) = if lo ≤ j ∧ j < hi then l.getD j 0 else 0) ∧
      (∀ φ, expect (listToDictionary l off t) φ = wsum l (fun m => if lo ≤ m ∧ m < hi then φ (off + m) else 0)) := by
  have ht2 : (0 : ℝ) ≤ t / 2 := by linarith
  refine ⟨dropCount (t / 2) 0 l, l.length - dropCount (t / 2) 0 l.reverse, ?_, by omega, ?_, ?_, ?_, ?_⟩
  · rw [dropCount_eq]; exact findPrefix_le _ _ _
  · have := findPrefix_sum (t / 2) 0 l ht2
    rw [dropCount_eq]; linarith
  · have := findPrefix_sum (t / 2) 0 l.reverse ht2
    rw [← dropCount_eq, List.take_reverse, List.sum_reverse] at this
    linarith
  · intro j
    unfold listToDictionary
    simp only
    rw [collectPositive_get _ _ _ 0 _ j (by omega)]
    simp only [Nat.sub_zero]
    by_cases h : 0 < l.getD j 0
    · simp only [h, and_true]
    · have hz : l.getD j 0 = 0 := by
        apply le_antisymm (not_lt.1 h)
        by_cases hj : j < l.length
        · rw [List.getD_eq_getElem _ _ hj]; exact hl _ (List.getElem_mem _)
        · rw [List.getD_eq_default _ _ (not_lt.1 hj)]
      rw [hz]; simp
  · intro φ
    unfold listToDictionary
    simp only
    rw [collectPositive_expect _ _ _ 0 l hl]
    simp only [Nat.zero_add]

lemma sum_nonneg_zero {l : List ℝ} (hl : ∀ v ∈ l, 0 ≤ v) (h : l.sum ≤ 0) : ∀ i, l.getD i 0 = 0 := by
  intro i
  by_cases hi : i < l.length
  · rw [List.getD_eq_getElem _ _ hi]
    have h1 := List.single_le_sum hl (l[i]) (List.getElem_mem _)
    exact le_antisymm (h1.trans h) (hl _ (List.getElem_mem _))
  · rw [List.getD_eq_default _ _ (not_lt.1 hi)]

lemma listToDictionary_zero (l : List ℝ) (hl : ∀ v ∈ l, 0 ≤ v) (off : ℤ) :
    (∀ j : ℕ, (listToDictionary l off 0).get (off + j) = l.getD j 0) ∧
    (∀ φ, expect (listToDictionary l off 0) φ = wsum l (fun m => φ (off + m))) := by
  obtain ⟨lo, hi, h1, h2, h3, h4, h5, h6⟩ := listToDictionary_spec l hl off 0 (le_refl _)
  rw [zero_div] at h3 h4
  have z1 := sum_nonneg_zero (fun v hv => hl v (List.mem_of_mem_take hv)) h3
  have z2 := sum_nonneg_zero (fun v hv => hl v (List.mem_of_mem_drop hv)) h4
  have hz : ∀ j, ¬ (lo ≤ j ∧ j < hi) → l.getD j 0 = 0 := by
    intro j hj
    by_cases hlen : j < l.length
    · by_cases hlo : lo ≤ j
      · have hhi : hi ≤ j := by by_contra hc; exact hj ⟨hlo, by omega⟩
        have := z2 (j - hi)
        rw [List.getD_eq_getElem _ _ (by simp; omega)] at this
        rw [List.getD_eq_getElem _ _ hlen]
        simp only [List.getElem_drop] at this
        have e : hi + (j - hi) = j := by omega
        simpa only [e] using this
      · have := z1 j
        rw [List.getD_eq_getElem _ _ (by simp; omega)] at this
        rw [List.getD_eq_getElem _ _ hlen]
        simpa using this
    · rw [List.getD_eq_default _ _ (not_lt.1 hlen)]
  constructor
  · intro j
    rw [h5]
    by_cases h : lo ≤ j ∧ j < hi
    · rw [if_pos h]
    · rw [if_neg h, hz j h]
  · intro φ
    rw [h6, wsum_eq_sum, wsum_eq_sum]
    apply Finset.sum_congr rfl
    intro j _
    by_cases h : lo ≤ j ∧ j < hi
    · rw [if_pos h]
    · rw [if_neg h, hz j h]; ring

lemma listToDictionary_get_outside (l : List ℝ) (off : ℤ) (t : ℝ) (k : ℤ) (hk : k < off) :
    (listToDictionary l off t).get k = 0 := by
  apply PyDict.get_eq_zero
  intro hmem
  have := collectPositive_keys _ _ _ _ _ k hmem
  push_cast at this; omega

lemma dictionaryToList_expect {d : PyDict} {off : ℤ} {l : List ℝ} (h : dictionaryToList d = .ok (off, l))
    (hd : d.keys.Nodup) (φ : ℤ → ℝ) : wsum l (fun m => φ (off + m)) = expect d φ := by
  obtain ⟨_, _, _, h4, h5, h6⟩ := dictionaryToList_spec h
  rw [wsum_eq_sum, ← PyDict.sum_get hd off l.length h5 φ]
  apply Finset.sum_congr rfl
  intro i hi
  rw [h6 i (Finset.mem_range.1 hi)]

lemma dictionaryToList_nonneg {d : PyDict} {off : ℤ} {l : List ℝ} (h : dictionaryToList d = .ok (off, l))
    (hd : ∀ x ∈ d, 0 ≤ x.2) : ∀ v ∈ l, 0 ≤ v := by
  obtain ⟨_, _, _, h4, h5, h6⟩ := dictionaryToList_spec h
  intro v hv
  obtain ⟨i, hi, rfl⟩ := List.mem_iff_getElem.1 hv
  have := h6 i hi
  rw [List.getD_eq_getElem _ _ hi] at this
  rw [this]; exact PyDict.get_nonneg hd _

lemma convolveDictionary_exact {d1 d2 r : PyDict} (h : convolveDictionary d1 d2 0 = .ok r)
    (h1 : d1.keys.Nodup) (h2 : d2.keys.Nodup) (n1 : ∀ x ∈ d1, 0 ≤ x.2) (n2 : ∀ x ∈ d2, 0 ≤ x.2) (φ : ℤ → ℝ) :
    expect r φ = convE d1 d2 φ := by
  unfold convolveDictionary at h
  cases e1 : dictionaryToList d1 with
  | error e => rw [e1] at h; simp [bind, Except.bind] at h
  | ok r1 =>
    obtain ⟨m1, l1⟩ := r1
    cases e2 : dictionaryToList d2 with
    | error e => rw [e1, e2] at h; simp [bind, Except.bind] at h
    | ok r2 =>
      obtain ⟨m2, l2⟩ := r2
      rw [e1, e2] at h
      simp only [bind, Except.bind, Except.ok.injEq] at h
      subst h
      have hn := fftconvolve_nonneg (dictionaryToList_nonneg e1 n1) (dictionaryToList_nonneg e2 n2)
      rw [(listToDictionary_zero _ hn _).2, wsum_pE, polyOf_fftconvolve, pE_mul]
      unfold convE
      rw [← dictionaryToList_expect e1 h1, wsum_pE]
      congr 1; ext i
      rw [← dictionaryToList_expect e2 h2, wsum_pE]
      congr 1; ext j
      congr 1; push_cast; ring

lemma selfConvolveDictionary_exact {nfl : ℕ → ℕ} (hnfl : ∀ k, k ≤ nfl k) {d r : PyDict} {n : ℕ}
    (h : selfConvolveDictionary nfl d n 0 = .ok r) (h1 : d.keys.Nodup) (n1 : ∀ x ∈ d, 0 ≤ x.2) (φ : ℤ → ℝ) :
    expect r φ = nfold d n φ := by
  unfold selfConvolveDictionary at h
  cases e1 : dictionaryToList d with
  | error e => rw [e1] at h; simp [bind, Except.bind] at h
  | ok r1 =>
    obtain ⟨m1, l1⟩ := r1
    rw [e1] at h
    simp only [bind, Except.bind] at h
    cases e2 : selfConvolve nfl l1 n 0 with
    | error e => rw [e2] at h; simp at h
    | ok r2 =>
      obtain ⟨lo, ps⟩ := r2
      rw [e2] at h
      simp only [Except.ok.injEq] at h
      subst h
      have hn1 := dictionaryToList_nonneg e1 n1
      rw [(listToDictionary_zero _ (selfConvolve_nonneg hnfl e2 hn1) _).2]
      obtain ⟨rfl, _, hs⟩ := selfConvolve_exact hnfl e2
      rw [hs]
      have hE : ∀ ψ, expect d ψ = expect (Dense.points ⟨1, m1, l1, 0, true⟩) ψ := by
        intro ψ; rw [expect_dense_wsum]; exact (dictionaryToList_expect e1 h1 ψ).symm
      rw [nfold_congr hE, nfold_dense]
      congr 1; ext s; simp

end Verif
