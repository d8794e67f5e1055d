import Verif.Proofs.PldConv

/-! `_truncate_tails`. -/

namespace Verif
open Spec PldPmf

/-- `Σ_i l[i] f(i)` -/
noncomputable def wsum : List ℝ → (ℕ → ℝ) → ℝ
  | [], _ => 0
  | v :: vs, f => v * f 0 + wsum vs (fun i => f (i + 1))

@[simp] lemma wsum_nil (f : ℕ → ℝ) : wsum [] f = 0 := rfl
@[simp] lemma wsum_cons (v : ℝ) (vs : List ℝ) (f : ℕ → ℝ) : wsum (v :: vs) f = v * f 0 + wsum vs (fun i => f (i + 1)) := rfl

lemma wsum_append (a b : List ℝ) (f : ℕ → ℝ) : wsum (a ++ b) f = wsum a f + wsum b (fun i => f (i + a.length)) := by
  induction a generalizing f with
  | nil => simp
  | cons v vs ih =>
    simp only [List.cons_append, wsum_cons, ih, List.length_cons]
    rw [add_assoc]
    congr 2

lemma wsum_eq_sum (l : List ℝ) (f : ℕ → ℝ) : wsum l f = ∑ i ∈ Finset.range l.length, l.getD i 0 * f i := by
  induction l generalizing f with
  | nil => simp
  | cons v vs ih =>
    rw [wsum_cons, ih, List.length_cons, Finset.sum_range_succ']
    simp only [List.getD_cons_succ, List.getD_cons_zero]
    ring

lemma wsum_pE (l : List ℝ) (f : ℕ → ℝ) : wsum l f = pE (polyOf l) f := by rw [wsum_eq_sum, pE_polyOf]

lemma wsum_const (l : List ℝ) (c : ℝ) : wsum l (fun _ => c) = l.sum * c := by
  induction l with
  | nil => simp
  | cons v vs ih => simp only [wsum_cons, ih, List.sum_cons]; ring

lemma wsum_mono {l : List ℝ} (hl : ∀ v ∈ l, 0 ≤ v) {f g : ℕ → ℝ} (h : ∀ i < l.length, f i ≤ g i) :
    wsum l f ≤ wsum l g := by
  induction l generalizing f g with
  | nil => simp
  | cons v vs ih =>
    simp only [wsum_cons]
    have h1 := mul_le_mul_of_nonneg_left (h 0 (by simp)) (hl v (by simp))
    have h2 := ih (fun v hv => hl v (by simp [hv])) (f := fun i => f (i + 1)) (g := fun i => g (i + 1))
      (fun i hi => h (i + 1) (by simpa using hi))
    linarith

lemma wsum_congr {l : List ℝ} {f g : ℕ → ℝ} (h : ∀ i < l.length, f i = g i) : wsum l f = wsum l g := by
  induction l generalizing f g with
  | nil => simp
  | cons v vs ih =>
    simp only [wsum_cons]
    rw [h 0 (by simp), ih (f := fun i => f (i + 1)) (g := fun i => g (i + 1)) (fun i hi => h (i + 1) (by simpa using hi))]

lemma expect_dense_wsum (d : Dense) (φ : ℤ → ℝ) : expect d.points φ = wsum d.probs (fun i => φ (d.lowerLoss + i)) := by
  rw [expect_dense, wsum_pE]

lemma expect_zip_wsum (ks : List ℤ) (ps : List ℝ) (h : ps.length ≤ ks.length) (φ : ℤ → ℝ) :
    expect (ks.zip ps) φ = wsum ps (fun i => φ (ks.getD i 0)) := by
  induction ps generalizing ks with
  | nil => simp
  | cons v vs ih =>
    cases ks with
    | nil => simp at h
    | cons k ks =>
      simp only [List.zip_cons_cons, expect_cons, wsum_cons, List.getD_cons_zero, List.getD_cons_succ]
      rw [ih ks (by simpa using h)]

lemma findPrefix_le (θ : ℝ) (s : ℝ) (l : List ℝ) : findPrefix θ s l ≤ l.length := by
  induction l generalizing s with
  | nil => simp [findPrefix]
  | cons v vs ih =>
    rw [findPrefix]
    split_ifs
    · simp
    · simpa using ih (s + v)

lemma findPrefix_sum (θ : ℝ) (s : ℝ) (l : List ℝ) (hs : s ≤ θ) : s + (l.take (findPrefix θ s l)).sum ≤ θ := by
  induction l generalizing s with
  | nil => simpa [findPrefix] using hs
  | cons v vs ih =>
    rw [findPrefix]
    split_ifs with h
    · simpa using hs
    · rw [List.take_succ_cons, List.sum_cons, ← add_assoc]
      exact ih (s + v) (not_lt.1 h)

/-- the prefix is the longest possible -/
lemma findPrefix_max (θ : ℝ) (s : ℝ) (l : List ℝ) (h : findPrefix θ s l < l.length) :
    θ < s + (l.take (findPrefix θ s l + 1)).sum := by
  induction l generalizing s with
  | nil => simp at h
  | cons v vs ih =>
    rw [findPrefix] at h ⊢
    split_ifs at h ⊢ with hc
    · simpa using hc
    · rw [List.take_succ_cons, List.sum_cons, ← add_assoc]
      exact ih (s + v) (by simpa using h)

lemma findPrefix_neg (θ : ℝ) (l : List ℝ) (hl : ∀ v ∈ l, 0 ≤ v) (hθ : θ < 0) : findPrefix θ 0 l = 0 := by
  cases l with
  | nil => rfl
  | cons v vs =>
    rw [findPrefix, if_pos]
    have := hl v (by simp)
    linarith

lemma list_sum_nonneg {l : List ℝ} (hl : ∀ v ∈ l, 0 ≤ v) : 0 ≤ l.sum := List.sum_nonneg hl

lemma addLast_eq (x : ℝ) (M : List ℝ) (h : M ≠ []) : addLast x M = .ok (M.dropLast ++ [M.getLast h + x]) := by
  induction M with
  | nil => exact absurd rfl h
  | cons v vs ih =>
    cases vs with
    | nil => rfl
    | cons w ws =>
      rw [addLast, ih (by simp)]
      rfl

lemma truncateTails_spec {probs : List ℝ} {t : ℝ} {pess : Bool} {off : ℕ} {ps : List ℝ} {right : ℝ}
    (h : truncateTails probs t pess = .ok (off, ps, right)) (hp : ∀ v ∈ probs, 0 ≤ v) (ht : t ≠ 0) :
    ∃ (A : List ℝ) (m : ℝ) (M B : List ℝ), probs = A ++ (m :: M) ++ B ∧ off = A.length ∧
      A.sum ≤ max 0 (t / 2) ∧ B.sum ≤ max 0 (t / 2) ∧
      (pess = true → ps = (m + A.sum) :: M ∧ right = B.sum) ∧
      (pess = false → (∃ M' l, m :: M = M' ++ [l] ∧ ps = M' ++ [l + B.sum]) ∧ right = 0) := by
  unfold truncateTails at h
  rw [if_neg ht] at h
  simp only at h
  set Lx := findPrefix (t / 2) 0 probs with hLx
  set Rx := max (probs.length - findPrefix (t / 2) 0 probs.reverse) (Lx + 1) with hRx
  have hLle : Lx ≤ probs.length := findPrefix_le _ _ _
  have hne : (probs.take Rx).drop Lx ≠ [] := by
    intro h0
    rw [h0] at h
    cases pess <;> simp [addFirst, addLast, Except.map] at h
  have hsplit : probs = probs.take Lx ++ (probs.take Rx).drop Lx ++ probs.drop Rx := by
    have h1 : probs.take Lx = (probs.take Rx).take Lx := by
      rw [List.take_take, min_eq_left]; omega
    rw [h1, List.take_append_drop, List.take_append_drop]
  have hA : (probs.take Lx).sum ≤ max 0 (t / 2) := by
    rcases le_or_gt 0 (t / 2) with h0 | h0
    · rw [max_eq_right h0]
      have := findPrefix_sum (t / 2) 0 probs h0
      rw [zero_add] at this; exact this
    · have : Lx = 0 := findPrefix_neg _ _ hp h0
      rw [this]; simp
  have hB : (probs.drop Rx).sum ≤ max 0 (t / 2) := by
    rcases le_or_gt 0 (t / 2) with h0 | h0
    · rw [max_eq_right h0]
      have h1 := findPrefix_sum (t / 2) 0 probs.reverse h0
      rw [zero_add] at h1
      set k := findPrefix (t / 2) 0 probs.reverse with hk
      have hkle : k ≤ probs.length := by simpa using findPrefix_le (t / 2) 0 probs.reverse
      have h2 : (probs.reverse.take k).sum = (probs.drop (probs.length - k)).sum := by
        rw [List.take_reverse, List.sum_reverse]
      rw [h2] at h1
      have h3 : (probs.drop Rx).sum ≤ (probs.drop (probs.length - k)).sum := by
        obtain ⟨e, he⟩ : ∃ e, Rx = (probs.length - k) + e := ⟨Rx - (probs.length - k), by omega⟩
        rw [he, ← List.drop_drop]
        set q := probs.drop (probs.length - k)
        have hq : ∀ v ∈ q, 0 ≤ v := fun v hv => hp v (List.mem_of_mem_drop hv)
        conv_rhs => rw [← List.take_append_drop e q]
        rw [List.sum_append]
        have := list_sum_nonneg (l := q.take e) (fun v hv => hq v (List.mem_of_mem_take hv))
        linarith
      linarith
    · have h1 : findPrefix (t / 2) 0 probs.reverse = 0 :=
        findPrefix_neg _ _ (fun v hv => hp v (List.mem_reverse.1 hv)) h0
      have : probs.length ≤ Rx := by rw [hRx, h1]; omega
      rw [List.drop_eq_nil_of_le this]; simp
  obtain ⟨m, M, hmM⟩ := List.exists_cons_of_ne_nil hne
  refine ⟨probs.take Lx, m, M, probs.drop Rx, by rw [← hmM]; exact hsplit, ?_, hA, hB, ?_, ?_⟩
  · cases pess
    · rw [hmM, addLast_eq _ _ (by simp)] at h
      simp only [Bool.false_eq_true, if_false, Except.map, Except.ok.injEq, Prod.mk.injEq] at h
      rw [← h.1, List.length_take]; omega
    · rw [hmM] at h
      simp only [if_true, addFirst, Except.map, Except.ok.injEq, Prod.mk.injEq] at h
      rw [← h.1, List.length_take]; omega
  · intro hpess
    subst hpess
    rw [hmM] at h
    simp only [if_true, addFirst, Except.map, Except.ok.injEq, Prod.mk.injEq] at h
    exact ⟨h.2.1.symm, h.2.2.symm⟩
  · intro hpess
    subst hpess
    rw [hmM, addLast_eq _ _ (by simp)] at h
    simp only [Bool.false_eq_true, if_false, Except.map, Except.ok.injEq, Prod.mk.injEq] at h
    exact ⟨⟨_, _, (List.dropLast_append_getLast (by simp)).symm, h.2.1.symm⟩, h.2.2.symm⟩

lemma truncateTails_zero (probs : List ℝ) (pess : Bool) : truncateTails probs 0 pess = .ok (0, probs, 0) := by
  simp [truncateTails]

/-- `_truncate_tails` moves mass towards larger losses (pessimistic) by at most `t`. -/
lemma truncateTails_pess {probs : List ℝ} {t : ℝ} {off : ℕ} {ps : List ℝ} {right : ℝ}
    (h : truncateTails probs t true = .ok (off, ps, right)) (hp : ∀ v ∈ probs, 0 ≤ v)
    {f : ℕ → ℝ} (hf : ∀ i j, i ≤ j → j < probs.length → f i ≤ f j) (hf0 : ∀ i < probs.length, 0 ≤ f i)
    (hf1 : ∀ i < probs.length, f i ≤ 1) :
    wsum probs f ≤ right + wsum ps (fun i => f (i + off)) ∧
      right + wsum ps (fun i => f (i + off)) ≤ wsum probs f + max 0 t := by
  by_cases ht : t = 0
  · subst ht
    rw [truncateTails_zero] at h
    simp only [Except.ok.injEq, Prod.mk.injEq] at h
    obtain ⟨rfl, rfl, rfl⟩ := h
    simp
  · obtain ⟨A, m, M, B, rfl, rfl, hA, hB, h1, -⟩ := truncateTails_spec h hp ht
    obtain ⟨rfl, rfl⟩ := h1 rfl
    have hpA : ∀ v ∈ A, 0 ≤ v := fun v hv => hp v (by simp [hv])
    have hpB : ∀ v ∈ B, 0 ≤ v := fun v hv => hp v (by simp [hv])
    have hlen : (A ++ m :: M ++ B).length = A.length + (M.length + 1) + B.length := by simp; omega
    rw [wsum_append, wsum_append]
    simp only [wsum_cons, List.length_append, List.length_cons, zero_add]
    have a1 : wsum A f ≤ A.sum * f A.length := by
      rw [← wsum_const]
      exact wsum_mono hpA (fun i hi => hf i A.length hi.le (by omega))
    have a2 : 0 ≤ wsum A f := by
      have := wsum_mono hpA (f := fun _ => 0) (g := f) (fun i hi => hf0 i (by omega))
      rwa [wsum_const, mul_zero] at this
    have b1 : wsum B (fun i => f (i + (A.length + (M.length + 1)))) ≤ B.sum := by
      have := wsum_mono hpB (f := fun i => f (i + (A.length + (M.length + 1)))) (g := fun _ => 1)
        (fun i hi => hf1 _ (by omega))
      rwa [wsum_const, mul_one] at this
    have b2 : 0 ≤ wsum B (fun i => f (i + (A.length + (M.length + 1)))) := by
      have := wsum_mono hpB (f := fun _ => 0) (g := fun i => f (i + (A.length + (M.length + 1))))
        (fun i hi => hf0 _ (by omega))
      rwa [wsum_const, mul_zero] at this
    have hAs := list_sum_nonneg hpA
    have hfA : A.sum * f A.length ≤ A.sum * 1 := mul_le_mul_of_nonneg_left (hf1 _ (by omega)) hAs
    have hmx : max 0 (t / 2) + max 0 (t / 2) = max 0 t := by
      rcases le_or_gt 0 t with h0 | h0
      · rw [max_eq_right (by linarith), max_eq_right h0]; ring
      · rw [max_eq_left (by linarith), max_eq_left h0.le]; ring
    constructor <;> nlinarith

/-- the optimistic variant moves mass towards smaller losses by at most `t` -/
lemma truncateTails_opt {probs : List ℝ} {t : ℝ} {off : ℕ} {ps : List ℝ} {right : ℝ}
    (h : truncateTails probs t false = .ok (off, ps, right)) (hp : ∀ v ∈ probs, 0 ≤ v)
    {f : ℕ → ℝ} (hf : ∀ i j, i ≤ j → j < probs.length → f i ≤ f j) (hf0 : ∀ i < probs.length, 0 ≤ f i)
    (hf1 : ∀ i < probs.length, f i ≤ 1) :
    right + wsum ps (fun i => f (i + off)) ≤ wsum probs f ∧
      wsum probs f ≤ right + wsum ps (fun i => f (i + off)) + max 0 t := by
  by_cases ht : t = 0
  · subst ht
    rw [truncateTails_zero] at h
    simp only [Except.ok.injEq, Prod.mk.injEq] at h
    obtain ⟨rfl, rfl, rfl⟩ := h
    simp
  · obtain ⟨A, m, M, B, rfl, rfl, hA, hB, -, h1⟩ := truncateTails_spec h hp ht
    obtain ⟨⟨M', l, hM, rfl⟩, rfl⟩ := h1 rfl
    rw [hM] at hp hf hf0 hf1 ⊢
    have hpA : ∀ v ∈ A, 0 ≤ v := fun v hv => hp v (by simp [hv])
    have hpB : ∀ v ∈ B, 0 ≤ v := fun v hv => hp v (by simp [hv])
    have hlen : (A ++ (M' ++ [l]) ++ B).length = A.length + (M'.length + 1) + B.length := by simp; omega
    simp only [wsum_append, wsum_cons, wsum_nil, List.length_append, List.length_cons, List.length_nil, zero_add,
      add_zero]
    have e1 : M'.length + A.length = A.length + M'.length := by omega
    rw [e1]
    have a1 : wsum A f ≤ A.sum := by
      have := wsum_mono hpA (f := f) (g := fun _ => 1) (fun i hi => hf1 _ (by omega))
      rwa [wsum_const, mul_one] at this
    have a2 : 0 ≤ wsum A f := by
      have := wsum_mono hpA (f := fun _ => 0) (g := f) (fun i hi => hf0 i (by omega))
      rwa [wsum_const, mul_zero] at this
    have b1 : wsum B (fun i => f (i + (A.length + (M'.length + 1)))) ≤ B.sum := by
      have := wsum_mono hpB (f := fun i => f (i + (A.length + (M'.length + 1)))) (g := fun _ => 1)
        (fun i hi => hf1 _ (by omega))
      rwa [wsum_const, mul_one] at this
    have b2 : B.sum * f (A.length + M'.length) ≤ wsum B (fun i => f (i + (A.length + (M'.length + 1)))) := by
      rw [← wsum_const]
      exact wsum_mono hpB (fun i hi => hf _ _ (by omega) (by omega))
    have hBs := list_sum_nonneg hpB
    have hfl := hf0 (A.length + M'.length) (by omega)
    have hBf : 0 ≤ B.sum * f (A.length + M'.length) := mul_nonneg hBs hfl
    have hmx : max 0 (t / 2) + max 0 (t / 2) = max 0 t := by
      rcases le_or_gt 0 t with h0 | h0
      · rw [max_eq_right (by linarith), max_eq_right h0]; ring
      · rw [max_eq_left (by linarith), max_eq_left h0.le]; ring
    constructor <;> nlinarith

/-- truncation keeps entries non-negative and does not lengthen the list -/
lemma truncateTails_nonneg {probs : List ℝ} {t : ℝ} {pess : Bool} {off : ℕ} {ps : List ℝ} {right : ℝ}
    (h : truncateTails probs t pess = .ok (off, ps, right)) (hp : ∀ v ∈ probs, 0 ≤ v) :
    (∀ v ∈ ps, 0 ≤ v) ∧ 0 ≤ right ∧ off + ps.length ≤ probs.length := by
  by_cases ht : t = 0
  · subst ht
    rw [truncateTails_zero] at h
    simp only [Except.ok.injEq, Prod.mk.injEq] at h
    obtain ⟨rfl, rfl, rfl⟩ := h
    exact ⟨hp, le_refl _, by simp⟩
  · obtain ⟨A, m, M, B, rfl, rfl, hA, hB, h1, h2⟩ := truncateTails_spec h hp ht
    have hAs : 0 ≤ A.sum := list_sum_nonneg (fun v hv => hp v (by simp [hv]))
    have hBs : 0 ≤ B.sum := list_sum_nonneg (fun v hv => hp v (by simp [hv]))
    cases pess with
    | true =>
      obtain ⟨rfl, rfl⟩ := h1 rfl
      refine ⟨?_, hBs, by simp⟩
      intro v hv
      rcases List.mem_cons.1 hv with rfl | hv
      · have := hp m (by simp); linarith
      · exact hp v (by simp [hv])
    | false =>
      obtain ⟨⟨M', l, hM, rfl⟩, rfl⟩ := h2 rfl
      rw [hM] at hp ⊢
      refine ⟨?_, le_refl _, by simp⟩
      intro v hv
      rcases List.mem_append.1 hv with hv | hv
      · exact hp v (by simp [hv])
      · simp at hv; rw [hv]
        have := hp l (by simp); linarith

/-- pessimistic truncation keeps the total mass -/
lemma truncateTails_mass {probs : List ℝ} {t : ℝ} {off : ℕ} {ps : List ℝ} {right : ℝ}
    (h : truncateTails probs t true = .ok (off, ps, right)) (hp : ∀ v ∈ probs, 0 ≤ v) :
    right + ps.sum = probs.sum := by
  by_cases ht : t = 0
  · subst ht
    rw [truncateTails_zero] at h
    simp only [Except.ok.injEq, Prod.mk.injEq] at h
    obtain ⟨rfl, rfl, rfl⟩ := h
    simp
  · obtain ⟨A, m, M, B, rfl, rfl, hA, hB, h1, -⟩ := truncateTails_spec h hp ht
    obtain ⟨rfl, rfl⟩ := h1 rfl
    simp; ring

end Verif
