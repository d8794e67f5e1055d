import Verif.Proofs.RdpSelect
import Verif.Props.RdpRandomizedResponse
import Verif.Props.RdpLaplace
import Verif.Props.RepeatSelect
import Verif.Spec.Accounting

/-! # The RDP functions of the library never return a negative value -/

namespace Verif.Rdp
open Verif Verif.Spec Verif.Pld LogDomain MeasureTheory ProbabilityTheory

lemma halfInvSq_nonneg (z : PyNum) : 0 ≤ halfInvSq z := by
  cases z <;> simp only [halfInvSq] <;> positivity

lemma toEReal_nonneg {x : LogProb} (h : 1 ≤ expLog x) : 0 ≤ toEReal x := by
  rw [toEReal_of_expLog rfl (by linarith)]
  exact_mod_cast Real.log_nonneg h

lemma logAInt_nonneg {q : ℝ} (h0 : 0 < q) (h1 : q < 1) (sigma : PyNum) (m : ℕ) : 0 ≤ toEReal (logAInt q sigma m) := by
  refine toEReal_nonneg ?_
  unfold logAInt
  rw [expLog_fold]
  have e : ((m : ℤ) + 1).toNat = m + 1 := by omega
  rw [e]
  have hb : expLog (⊥ : LogProb) = 0 := rfl
  rw [hb, zero_add, sum_map_range]
  have hs : ∑ k ∈ Finset.range (m + 1), (m.choose k : ℝ) * (1 - q) ^ (m - k) * q ^ k = 1 := by
    have := add_pow q (1 - q) m
    rw [add_sub_cancel, one_pow] at this
    refine Eq.trans ?_ this.symm
    exact Finset.sum_congr rfl fun k _ => by ring
  rw [← hs]
  refine Finset.sum_le_sum fun k hk => ?_
  rw [Finset.mem_range] at hk
  rw [exp_term h0 h1 sigma m k (by omega)]
  refine le_mul_of_one_le_right (by have := sub_pos.2 h1; positivity) ?_
  rw [Real.one_le_exp_iff]
  refine mul_nonneg ?_ (halfInvSq_nonneg _)
  have : (k : ℝ) ≤ (k : ℝ) ^ 2 := by exact_mod_cast Nat.le_self_pow (by norm_num) k
  linarith

lemma poisson_nonneg {frac : ℝ → PyNum → ℝ → EReal} {q α : ℝ} {sigma : PyNum} {r : EReal} (h0 : 0 ≤ q) (h1 : q ≤ 1) (hα : 1 ≤ α)
    (hz : 0 ≤ sigma.val) (hf : (¬ ∃ m : ℤ, α = m) → 0 < q → q < 1 → 0 < sigma.val → 0 ≤ frac q sigma α)
    (h : poissonOneOrder frac q sigma (α : EReal) = .ok r) : 0 ≤ r := by
  have hα0 : (0 : EReal) ≤ (α : EReal) := by exact_mod_cast (by linarith : (0 : ℝ) ≤ α)
  unfold poissonOneOrder at h
  split_ifs at h with c1 c2 c3 c4
  · simp only [Except.ok.injEq] at h; rw [← h]
  · simp only [Except.ok.injEq] at h; rw [← h]; exact le_top
  · simp only [Except.ok.injEq] at h; rw [← h]
    exact EReal.mul_nonneg hα0 (by exact_mod_cast halfInvSq_nonneg _)
  · simp only [Except.ok.injEq] at h; rw [← h, EReal.toReal_coe]
    have hq0 := lt_of_le_of_ne h0 (Ne.symm c1)
    have hq1 := lt_of_le_of_ne h1 c3
    refine EReal.mul_nonneg ?_ ?_
    · unfold logA
      split_ifs with hi
      · have hs := hi.choose_spec
        obtain ⟨m, hm⟩ : ∃ m : ℕ, hi.choose = m := by
          refine ⟨hi.choose.toNat, (Int.toNat_of_nonneg ?_).symm⟩
          have : (0 : ℝ) ≤ (hi.choose : ℝ) := by rw [← hs]; linarith
          exact_mod_cast this
        rw [hm]
        exact logAInt_nonneg hq0 hq1 sigma m
      · exact hf hi hq0 hq1 (lt_of_le_of_ne hz fun e => c2 (Or.inr e.symm))
    · have : (0 : ℝ) ≤ (α - 1)⁻¹ := inv_nonneg.2 (by linarith)
      exact_mod_cast this

lemma expLog_nonneg (x : LogProb) : 0 ≤ expLog x := by
  cases x using WithBot.recBotCoe with
  | bot => simp [expLog]
  | coe x => rw [expLog_coe]; positivity

lemma expLog_fold_ge (l : List ℕ) (t : ℕ → LogProb) (acc : LogProb) : expLog acc ≤ expLog (l.foldl (fun a i => logAdd a (t i)) acc) := by
  induction l generalizing acc with
  | nil => simp
  | cons i l ih =>
    rw [List.foldl_cons]
    refine le_trans ?_ (ih _)
    rw [Props.C29_log_add]
    have := expLog_nonneg (t i)
    linarith

lemma worInt_nonneg {q : ℝ} {sigma : PyNum} {a : ℕ} {x : LogProb} (h : worInt q sigma a = .ok x) : 0 ≤ toEReal x := by
  refine toEReal_nonneg ?_
  have hz : expLog ((0 : ℝ) : LogProb) = 1 := by rw [expLog_coe, Real.exp_zero]
  unfold worInt at h
  split_ifs at h
  · simp only [Except.ok.injEq] at h; rw [← h, hz]
  · simp only [Except.ok.injEq] at h; rw [← h, ← hz]
    exact expLog_fold_ge _ _ _

lemma worScalar_nonneg {q : ℝ} {sigma : PyNum} {α : ℝ} {r : EReal} (h : worScalar q sigma (α : EReal) = .ok r) : 0 ≤ r := by
  unfold worScalar at h
  by_cases c0 : ¬ (q ≤ 1 ∧ 0 ≤ q ∧ 1 ≤ (α : EReal))
  · rw [if_pos c0] at h; simp at h
  rw [if_neg c0] at h
  push Not at c0
  have hα : 1 ≤ α := by exact_mod_cast c0.2.2
  have hα0 : (0 : EReal) ≤ (α : EReal) := by exact_mod_cast (by linarith : (0 : ℝ) ≤ α)
  have hinv : (0 : EReal) ≤ (((α - 1)⁻¹ : ℝ) : EReal) := by exact_mod_cast inv_nonneg.2 (by linarith : 0 ≤ α - 1)
  dsimp only at h
  by_cases c1 : q = 0
  · rw [if_pos c1] at h; simp only [Except.ok.injEq] at h; rw [← h]
  rw [if_neg c1] at h
  by_cases c2 : q = 1
  · rw [if_pos c2] at h
    split_ifs at h
    · simp only [Except.ok.injEq] at h; rw [← h]; exact le_top
    · simp only [Except.ok.injEq] at h; rw [← h]
      exact EReal.mul_nonneg hα0 (by exact_mod_cast halfInvSq_nonneg _)
  rw [if_neg c2] at h
  by_cases c3 : (α : EReal) = ⊤
  · rw [if_pos c3] at h; simp only [Except.ok.injEq] at h; rw [← h]; exact le_top
  rw [if_neg c3] at h
  by_cases c4 : (α : EReal) = 1
  · rw [if_pos c4] at h; simp at h
  rw [if_neg c4] at h
  · by_cases c5 : ∃ m : ℕ, (α : EReal).toReal = m
    · rw [if_pos c5, EReal.toReal_coe] at h
      cases hw : worInt q sigma ⌊α⌋₊ with
      | error e => rw [hw] at h; simp at h
      | ok x =>
        rw [hw] at h
        simp only [Except.ok.injEq] at h
        rw [← h]
        exact EReal.mul_nonneg (worInt_nonneg hw) hinv
    · rw [if_neg c5, EReal.toReal_coe] at h
      cases hw : worInt q sigma ⌊α⌋₊ with
      | error e => rw [hw] at h; simp at h
      | ok x =>
        cases hw' : worInt q sigma ⌈α⌉₊ with
        | error e => rw [hw, hw'] at h; simp at h
        | ok y =>
          rw [hw, hw'] at h
          simp only [Except.ok.injEq] at h
          rw [← h]
          have f1 : (⌊α⌋₊ : ℝ) ≤ α := Nat.floor_le (by linarith)
          have f2 := Nat.lt_floor_add_one α
          refine EReal.mul_nonneg (add_nonneg (EReal.mul_nonneg ?_ (worInt_nonneg hw)) (EReal.mul_nonneg ?_ (worInt_nonneg hw'))) hinv
          · exact_mod_cast (by linarith : (0 : ℝ) ≤ 1 - (α - ⌊α⌋₊))
          · exact_mod_cast (by linarith : (0 : ℝ) ≤ α - ⌊α⌋₊)

lemma tree_nonneg {n : ℕ} {orders : Fin n → ℝ} (ho : ∀ i, 1 ≤ orders i) {noise : PyNum} {s : ℤ ⊕ List ℤ} {a : Arr n}
    (h : tree (fun i => (orders i : EReal)) noise s = .ok a) (i : Fin n) : 0 ≤ a i := by
  unfold tree at h
  split_ifs at h with c1 c2 c3 c4
  · simp only [Except.ok.injEq] at h; rw [← h]; exact le_top
  · simp only at h
    split_ifs at h with c4
    simp only [Except.ok.injEq] at h; rw [← h]
    have hmax : ∀ l : List ℤ, 0 ≤ l.foldr max 0 := by
      intro l
      induction l with
      | nil => simp
      | cons x l ih => simp [ih]
    refine EReal.mul_nonneg (EReal.mul_nonneg ?_ ?_) ?_
    · exact_mod_cast (by linarith [ho i] : (0 : ℝ) ≤ orders i)
    · rw [EReal.coe_nonneg, Int.cast_nonneg_iff]
      refine Int.ceil_nonneg (Real.logb_nonneg (by norm_num) ?_)
      refine le_add_of_nonneg_left ?_
      rw [Int.cast_nonneg_iff]
      exact hmax _
    · exact_mod_cast halfInvSq_nonneg _

lemma laplace_nonneg {eps α : ℝ} (hα : 1 ≤ α) {r : EReal} (h : laplaceRdp eps (α : EReal) = .ok r) : 0 ≤ r := by
  have he : 0 ≤ eps := by
    by_contra hc
    unfold laplaceRdp at h
    rw [if_pos (not_le.1 hc)] at h; simp at h
  have hp : ∀ m : ℝ, IsProbabilityMeasure (laplace m 1) := fun m => laplace_prob m one_pos
  have := hp eps
  have := hp 0
  have hn : 0 ≤ renyiDiv α (laplace eps 1) (laplace 0 1) := RdpConv.renyi_nonneg hα
  by_cases h1 : α = 1 ∨ 1.1 ≤ α
  · have := Props.C40_exact eps 1 one_pos he α h1
    rw [div_one, h, Except.ok.injEq] at this
    rw [this]; exact hn
  · push Not at h1
    obtain ⟨r', d, e1, e2, e3, -⟩ := Props.C40_near_one eps 1 one_pos he α (lt_of_le_of_ne hα (Ne.symm h1.1)) h1.2
    rw [div_one, h, Except.ok.injEq] at e1
    rw [e2] at hn
    rw [e1]
    exact hn.trans (by exact_mod_cast e3)

lemma rr_nonneg {n : ℕ} {orders : Fin n → ℝ} {p : PyNum} {k : ℤ} {nr : NeighborRel} {a : Arr n}
    (h : randomizedResponse (fun i => (orders i : EReal)) p k nr = .ok a) (i : Fin n) : 0 ≤ a i := by
  have hk : 1 ≤ k := by
    by_contra hc
    unfold randomizedResponse at h
    rw [if_pos (by omega : k < 1)] at h
    split_ifs at h
  obtain ⟨k, rfl⟩ := Int.eq_ofNat_of_zero_le (by omega : 0 ≤ k)
  obtain ⟨h0, h1, h2⟩ := Props.rr_ok h
  have h3 := h2 i
  have hk0 : 0 < k := by omega
  have hu := uniform_prob (k := k) hk0
  by_cases hnr : nr = .replaceOne
  · rw [if_pos hnr] at h3
    by_cases hα : 1 < orders i
    swap
    · rw [rrReplaceOne, if_pos (by exact_mod_cast not_lt.1 hα)] at h3; simp at h3
    by_cases hk1 : k = 1
    · rw [rrReplaceOne, if_neg (by rw [not_le]; exact_mod_cast hα), if_pos (Or.inl (by omega)), Except.ok.injEq] at h3
      rw [← h3]
    · have x : Fin k := ⟨0, hk0⟩
      have hxy : (⟨0, hk0⟩ : Fin k) ≠ ⟨1, by omega⟩ := by simp
      rw [Props.C38_replace_one_exact _ h0 h1 k _ _ hxy _ hα, Except.ok.injEq] at h3
      have := rr_prob h0 h1 (⟨0, hk0⟩ : Fin k)
      have := rr_prob h0 h1 (⟨1, by omega⟩ : Fin k)
      rw [← h3]
      exact RdpConv.renyi_nonneg hα.le
  · rw [if_neg hnr] at h3
    by_cases hα : 1 < orders i
    swap
    · rw [rrReplaceSpecial, if_pos (by exact_mod_cast not_lt.1 hα)] at h3; simp at h3
    rw [Props.C38_replace_special_exact _ h0 h1 k ⟨0, hk0⟩ _ hα, Except.ok.injEq] at h3
    have := rr_prob h0 h1 (⟨0, hk0⟩ : Fin k)
    rw [← h3]
    exact le_max_of_le_left (RdpConv.renyi_nonneg hα.le)

lemma ras_nonneg {n : ℕ} {orders : Fin n → ℝ} (ho : ∀ i, 1 ≤ orders i) {rdp a : Arr n} {mean shape : PyNum} (hr : ∀ i, 0 ≤ rdp i)
    (h : RepeatSelect.repeatAndSelect orders rdp mean shape = .ok a) (i : Fin n) : 0 ≤ a i := by
  have hm1 : ¬ mean.val < 1 := by
    intro hc
    unfold RepeatSelect.repeatAndSelect at h
    split_ifs at h
  have hlog : ∀ m, mean.real? = some m → 0 ≤ Real.log m := by
    intro m hm
    refine Real.log_nonneg ?_
    rw [RepeatSelect.val_real hm, not_lt] at hm1
    exact_mod_cast hm1
  cases hs : shape.real? with
  | none =>
    unfold RepeatSelect.repeatAndSelect at h
    rw [hs] at h
    by_cases hsh : shape.val < 0
    · rw [if_pos hsh] at h; simp at h
    rw [if_neg hsh, if_neg hm1] at h
    have h3 := collect_ok h i
    unfold RepeatSelect.poissonEntry at h3
    split_ifs at h3 with c1
    · simp only [Except.ok.injEq] at h3; rw [← h3]; exact le_top
    · have c1 := not_le.1 c1
      cases hd : RdpConv.computeDelta (List.ofFn orders) (List.ofFn rdp) (Real.log (1 + 1 / (orders i - 1))) with
      | error e => rw [hd] at h3; simp at h3
      | ok da =>
        obtain ⟨d, aa⟩ := da
        rw [hd] at h3
        simp only at h3
        cases hm : mean.real? with
        | none => rw [hm] at h3; simp only [Except.ok.injEq] at h3; rw [← h3]; exact le_top
        | some m =>
          rw [hm] at h3; simp only [Except.ok.injEq] at h3; rw [← h3]
          have hm0 : 0 ≤ m := by
            rw [RepeatSelect.val_real hm, not_lt] at hm1
            have : (1 : ℝ) ≤ m := by exact_mod_cast hm1
            linarith
          have hd0 : 0 ≤ d := by
            obtain ⟨-, -, -, x, -, -, hx, -⟩ := RdpConv.computeDelta_ok hd
            rw [hx]
            exact le_min ENNReal.toReal_nonneg zero_le_one
          refine add_nonneg (add_nonneg (hr i) ?_) ?_
          · exact_mod_cast mul_nonneg hm0 hd0
          · exact_mod_cast div_nonneg (hlog m hm) (by linarith)
  | some s =>
    obtain ⟨g, m, hg, hm, hl, -⟩ := Props.C44_monotone orders rdp a mean shape s hs h
    obtain ⟨j, -, hj⟩ := (hl i).1
    have hs0 : 0 ≤ s := by
      by_contra hc
      unfold RepeatSelect.repeatAndSelect at h
      rw [if_pos (by rw [RepeatSelect.val_real hs]; exact_mod_cast not_le.1 hc)] at h
      simp at h
    obtain ⟨g0, g1, -⟩ := Props.C44_gamma_conservative s m g mean hm hg
    rw [hj]
    split_ifs with c1
    · refine add_nonneg (add_nonneg (hr j) ?_) ?_
      · exact_mod_cast div_nonneg (hlog m hm) (by linarith)
      · unfold RepeatSelect.constTerm
        split_ifs
        · exact le_top
        · refine EReal.mul_nonneg (by exact_mod_cast (by linarith : (0 : ℝ) ≤ 1 + s)) (Finset.le_inf fun l _ => ?_)
          rw [sub_eq_add_neg, ← EReal.coe_neg]
          have hol := ho l
          refine add_nonneg (EReal.mul_nonneg ?_ (hr l)) ?_
          · have : 1 / orders l ≤ 1 := by rw [div_le_one (by linarith)]; exact hol
            exact_mod_cast (by linarith : (0 : ℝ) ≤ 1 - 1 / orders l)
          · have : Real.log g / orders l ≤ 0 := div_nonpos_of_nonpos_of_nonneg (Real.log_nonpos g0.le g1) (by linarith)
            exact_mod_cast (by linarith : (0 : ℝ) ≤ -(Real.log g / orders l))
    · exact le_top

/-- The functions of the library return no negative values, if `frac` (the series of `_compute_log_a_frac`) does not at the orders that
are not integers. -/
theorem libFns_nonneg {n : ℕ} (orders : Fin n → ℝ) (ho : ∀ i, 1 ≤ orders i) (frac : ℝ → PyNum → ℝ → EReal)
    (hf : ∀ i, (¬ ∃ m : ℤ, orders i = m) → ∀ q sigma, 0 < q → q < 1 → 0 < sigma.val → 0 ≤ frac q sigma (orders i)) :
    NonNegFns (Props.libFns orders frac) where
  poissonGaussian := by
    intro q z a h i
    simp only [Props.libFns, fns, poissonGaussian] at h
    by_cases c : ¬ (0 ≤ q.val ∧ q.val ≤ 1)
    · rw [if_pos c] at h; simp at h
    · rw [if_neg c] at h
      push Not at c
      cases z with
      | num z =>
        simp only at h
        split_ifs at h with cz
        have hq : q.val ≠ ⊤ := fun e => by rw [e] at c; exact absurd c.2 (by rw [not_le]; exact EReal.coe_lt_top 1)
        have hq' : q.val ≠ ⊥ := fun e => by rw [e] at c; exact absurd c.1 (by simp)
        refine poisson_nonneg (q := q.val.toReal) (EReal.toReal_nonneg c.1) ?_ (ho i) (not_lt.1 cz) (fun hi h0 h1 h2 => hf i hi _ _ h0 h1 h2)
          (collect_ok h i)
        have := EReal.toReal_le_toReal c.2 hq' (EReal.coe_ne_top 1)
        simpa using this
      | _ => simp at h
  sampleWor := by
    intro q z a h i
    simp only [Props.libFns, fns, wor] at h
    cases z with
    | num z => exact worScalar_nonneg (collect_ok h i)
    | _ => simp at h
  tree := fun z s a h i => tree_nonneg ho h i
  laplace := fun e a h i => laplace_nonneg (ho i) (collect_ok h i)
  repeatAndSelect := fun r m s a hr h i => ras_nonneg ho hr h i
  randomizedResponse := fun p k nr a h i => rr_nonneg h i

end Verif.Rdp
