import Verif.Proofs.WorBound

/-! # Sampling without replacement as a mixture in which one record is replaced -/

namespace Verif.Wor
open MeasureTheory ProbabilityTheory Verif.Spec Finset
open scoped ENNReal NNReal

/-- Counting the pairs of a set and one of its elements in two ways. -/
lemma sum_insert_powersetCard {α M : Type*} [DecidableEq α] [AddCommMonoid M] (U : Finset α) (m : ℕ) (F : Finset α → M) :
    ∑ T ∈ U.powersetCard m, ∑ j ∈ U \ T, F (insert j T) = (m + 1) • ∑ S ∈ U.powersetCard (m + 1), F S := by
  rw [Finset.sum_sigma', Finset.smul_sum]
  have e : ∀ S ∈ U.powersetCard (m + 1), (m + 1) • F S = ∑ _j ∈ S, F S := fun S hS => by
    rw [Finset.sum_const, (mem_powersetCard.1 hS).2]
  rw [Finset.sum_congr rfl e, Finset.sum_sigma']
  refine Finset.sum_bij' (fun x _ => ⟨insert x.2 x.1, x.2⟩) (fun x _ => ⟨x.1.erase x.2, x.2⟩) ?_ ?_ ?_ ?_ ?_
  · rintro ⟨T, j⟩ h
    simp only [mem_sigma, mem_powersetCard, mem_sdiff] at h ⊢
    refine ⟨⟨insert_subset h.2.1 h.1.1, ?_⟩, mem_insert_self _ _⟩
    rw [card_insert_of_notMem h.2.2, h.1.2]
  · rintro ⟨S, j⟩ h
    simp only [mem_sigma, mem_powersetCard, mem_sdiff] at h ⊢
    refine ⟨⟨(erase_subset _ _).trans h.1.1, ?_⟩, h.1.1 h.2, notMem_erase _ _⟩
    rw [card_erase_of_mem h.2, h.1.2]; rfl
  · rintro ⟨T, j⟩ h
    simp only [mem_sigma, mem_powersetCard, mem_sdiff] at h
    simp [h.2.2]
  · rintro ⟨S, j⟩ h
    simp only [mem_sigma, mem_powersetCard] at h
    simp [insert_erase h.2]
  · rintro ⟨T, j⟩ _
    rfl

variable {n : ℕ}

/-- The positions other than `i`. -/
def others (i : Fin n) : Finset (Fin n) := univ.erase i

lemma card_others (i : Fin n) : (others i).card = n - 1 := by
  rw [others, card_erase_of_mem (mem_univ i), card_univ, Fintype.card_fin]

lemma insert_others (i : Fin n) : insert i (others i) = univ := insert_erase (mem_univ i)

/-- Subsets without and with `i`. -/
lemma sum_split {M : Type*} [AddCommMonoid M] (i : Fin n) (m : ℕ) (F : Finset (Fin n) → M) :
    ∑ S ∈ (univ : Finset (Fin n)).powersetCard (m + 1), F S =
      ∑ S ∈ (others i).powersetCard (m + 1), F S + ∑ T ∈ (others i).powersetCard m, F (insert i T) := by
  have hi : i ∉ others i := notMem_erase _ _
  rw [← insert_others i, powersetCard_succ_insert hi, sum_union]
  · congr 1
    refine sum_image ?_
    intro T hT T' hT' h
    have h1 : i ∉ T := fun hc => hi ((mem_powersetCard.1 hT).1 hc)
    have h2 : i ∉ T' := fun hc => hi ((mem_powersetCard.1 hT').1 hc)
    have := congrArg (fun s => Finset.erase s i) h
    simpa [erase_insert h1, erase_insert h2] using this
  · refine disjoint_left.2 fun S hS hS' => ?_
    rw [mem_image] at hS'
    obtain ⟨T, _, rfl⟩ := hS'
    exact hi ((mem_powersetCard.1 hS).1 (mem_insert_self _ _))

/-- The index of the mixture: the `m` positions of the sample other than `i`, and the position that is replaced by `i`. -/
def couple (i : Fin n) (m : ℕ) : Finset ((_ : Finset (Fin n)) × Fin n) := ((others i).powersetCard m).sigma fun T => others i \ T

lemma card_couple (i : Fin n) (m : ℕ) : (couple i m).card = (n - 1).choose m * (n - 1 - m) := by
  rw [couple, card_sigma, sum_congr rfl (g := fun _ => n - 1 - m)]
  · rw [sum_const, card_powersetCard, card_others, smul_eq_mul]
  · intro T hT
    rw [card_sdiff_of_subset (mem_powersetCard.1 hT).1, card_others, (mem_powersetCard.1 hT).2]

variable {R : Type} {d : ℕ}

/-- The weight. -/
noncomputable def coupleW (n m : ℕ) : ℝ := 1 / ((n - 1).choose m * (n - 1 - m) : ℕ)

lemma couple_weights (i : Fin n) (m : ℕ) (h : m + 1 < n) : ∑ _k ∈ couple i m, coupleW n m = 1 := by
  have h1 : 0 < (n - 1).choose m * (n - 1 - m) := Nat.mul_pos (Nat.choose_pos (by omega)) (by omega)
  rw [sum_const, card_couple, nsmul_eq_mul, coupleW]
  have : (((n - 1).choose m * (n - 1 - m) : ℕ) : ℝ) ≠ 0 := by exact_mod_cast h1.ne'
  field_simp

lemma choose_rel (n m : ℕ) (h : m + 1 < n) :
    (1 - ((m + 1 : ℕ) : ℝ) / n) * coupleW n m * ((m + 1 : ℕ) : ℝ) = 1 / (n.choose (m + 1) : ℝ) ∧
      (((m + 1 : ℕ) : ℝ) / n) * coupleW n m * ((n - 1 - m : ℕ) : ℝ) = 1 / (n.choose (m + 1) : ℝ) := by
  obtain ⟨k, rfl⟩ : ∃ k, n = m + 2 + k := ⟨n - (m + 2), by omega⟩
  have e1 := Nat.add_one_mul_choose_eq (m + 1 + k) m
  have e : m + 2 + k - 1 = m + 1 + k := by omega
  have e' : m + 1 + k - m = k + 1 := by omega
  have e3 : m + 1 + k + 1 = m + 2 + k := by omega
  rw [e3] at e1
  have hc : (0 : ℝ) < ((m + 1 + k).choose m : ℝ) := by exact_mod_cast Nat.choose_pos (by omega)
  have hc' : (0 : ℝ) < ((m + 2 + k).choose (m + 1) : ℝ) := by exact_mod_cast Nat.choose_pos (by omega)
  have e1' : ((m : ℝ) + 2 + k) * ((m + 1 + k).choose m : ℝ) = ((m + 2 + k).choose (m + 1) : ℝ) * (m + 1) := by exact_mod_cast e1
  unfold coupleW
  rw [e, e']
  push_cast
  have hn : (0 : ℝ) < (m : ℝ) + 2 + k := by positivity
  have hk : (0 : ℝ) < (k : ℝ) + 1 := by positivity
  have hm : (0 : ℝ) < (m : ℝ) + 1 := by positivity
  have key : ((m + 2 + k).choose (m + 1) : ℝ) = ((m : ℝ) + 2 + k) * ((m + 1 + k).choose m : ℝ) / (m + 1) := by
    rw [e1', mul_div_assoc, div_self hm.ne', mul_one]
  rw [key]
  constructor
  · field_simp
    ring
  · field_simp

/-- The mechanism as a mixture. -/
lemma wor_mix (m : ℕ) (h : m + 1 < n) (σ : ℝ) (f : Multiset R → Vec d) (D D' : Fin n → R) (i : Fin n) (hD : ∀ k ≠ i, D' k = D k) :
    worGaussianMech (m + 1) σ f D' = mixMeasure σ (couple i m) (fun _ => coupleW n m) (((m + 1 : ℕ) : ℝ) / n)
      (fun k => f (D k.2 ::ₘ k.1.val.map (fun l => if l = i then D k.2 else D l)))
      (fun k => f (D' i ::ₘ k.1.val.map (fun l => if l = i then D k.2 else D l))) := by
  have hn : (0 : ℝ) < n := by exact_mod_cast (by omega : 0 < n)
  have hq1 : ((m + 1 : ℕ) : ℝ) / n ≤ 1 := by rw [div_le_one hn]; exact_mod_cast h.le
  have hq0 : 0 ≤ ((m + 1 : ℕ) : ℝ) / n := by positivity
  have hw : 0 ≤ coupleW n m := by unfold coupleW; positivity
  obtain ⟨c1, c2⟩ := choose_rel n m h
  have hval : ∀ (T : Finset (Fin n)) (c : R), i ∉ T → T.val.map (fun l => if l = i then c else D l) = T.val.map D' := by
    intro T c hT
    refine Multiset.map_congr rfl fun l hl => ?_
    have : l ≠ i := fun hc => hT (by rw [← hc]; exact hl)
    rw [if_neg this, hD l this]
  have hi : ∀ T ∈ (others i).powersetCard m, i ∉ T := fun T hT hc => (notMem_erase i univ) ((mem_powersetCard.1 hT).1 hc)
  unfold worGaussianMech mixMeasure
  rw [sum_split i m, couple, sum_sigma]
  have e : ∀ T ∈ (others i).powersetCard m, ∑ j ∈ others i \ T, ENNReal.ofReal (coupleW n m) •
      (ENNReal.ofReal (1 - ((m + 1 : ℕ) : ℝ) / n) • gaussianVec (f (D j ::ₘ T.val.map (fun l => if l = i then D j else D l))) σ +
        ENNReal.ofReal (((m + 1 : ℕ) : ℝ) / n) • gaussianVec (f (D' i ::ₘ T.val.map (fun l => if l = i then D j else D l))) σ) =
      (∑ j ∈ others i \ T, ENNReal.ofReal ((1 - ((m + 1 : ℕ) : ℝ) / n) * coupleW n m) • gaussianVec (f ((insert j T).val.map D')) σ) +
        ENNReal.ofReal (1 / (n.choose (m + 1) : ℝ)) • gaussianVec (f ((insert i T).val.map D')) σ := by
    intro T hT
    have hiT := hi T hT
    have e1 : ∀ j ∈ others i \ T, D j ::ₘ T.val.map (fun l => if l = i then D j else D l) = (insert j T).val.map D' := by
      intro j hj
      rw [mem_sdiff] at hj
      have hji : j ≠ i := fun hc => by rw [hc] at hj; exact notMem_erase i univ hj.1
      rw [hval T _ hiT, insert_val_of_notMem hj.2, Multiset.map_cons, hD j hji]
    have e2 : ∀ j, D' i ::ₘ T.val.map (fun l => if l = i then D j else D l) = (insert i T).val.map D' := by
      intro j
      rw [hval T _ hiT, insert_val_of_notMem hiT, Multiset.map_cons]
    have e3 : ∀ j ∈ others i \ T, ENNReal.ofReal (coupleW n m) •
        (ENNReal.ofReal (1 - ((m + 1 : ℕ) : ℝ) / n) • gaussianVec (f (D j ::ₘ T.val.map (fun l => if l = i then D j else D l))) σ +
        ENNReal.ofReal (((m + 1 : ℕ) : ℝ) / n) • gaussianVec (f (D' i ::ₘ T.val.map (fun l => if l = i then D j else D l))) σ) =
        ENNReal.ofReal ((1 - ((m + 1 : ℕ) : ℝ) / n) * coupleW n m) • gaussianVec (f ((insert j T).val.map D')) σ +
          ENNReal.ofReal ((((m + 1 : ℕ) : ℝ) / n) * coupleW n m) • gaussianVec (f ((insert i T).val.map D')) σ := by
      intro j hj
      rw [e1 j hj, e2 j, smul_add, smul_smul, smul_smul, ← ENNReal.ofReal_mul hw, ← ENNReal.ofReal_mul hw, mul_comm (coupleW n m),
        mul_comm (coupleW n m)]
    rw [sum_congr rfl e3, sum_add_distrib, sum_const, card_sdiff_of_subset (mem_powersetCard.1 hT).1, card_others, (mem_powersetCard.1 hT).2]
    congr 1
    rw [← c2, ENNReal.ofReal_mul (p := ((m + 1 : ℕ) : ℝ) / n * coupleW n m) (mul_nonneg hq0 hw), ENNReal.ofReal_natCast, ← Nat.cast_smul_eq_nsmul ℝ≥0∞, smul_smul]
    congr 1
    exact mul_comm _ _
  rw [sum_congr rfl e, sum_add_distrib]
  congr 1
  rw [sum_insert_powersetCard (others i) m (fun S => ENNReal.ofReal ((1 - ((m + 1 : ℕ) : ℝ) / n) * coupleW n m) • gaussianVec (f (S.val.map D')) σ)]
  rw [← Nat.cast_smul_eq_nsmul ℝ≥0∞, smul_sum]
  refine sum_congr rfl fun S _ => ?_
  rw [smul_smul, ← c1, ENNReal.ofReal_mul (mul_nonneg (by linarith) hw), ENNReal.ofReal_natCast, mul_comm]

/-- All records are sampled. -/
lemma wor_full (σ : ℝ) (f : Multiset R → Vec d) (D : Fin n → R) :
    worGaussianMech n σ f D = gaussianVec (f ((univ : Finset (Fin n)).val.map D)) σ := by
  unfold worGaussianMech
  have : (univ : Finset (Fin n)).powersetCard n = {univ} := by
    have := powersetCard_self (univ : Finset (Fin n))
    rwa [card_univ, Fintype.card_fin] at this
  rw [this]
  simp

lemma wor_none (σ : ℝ) (f : Multiset R → Vec d) (D : Fin n → R) : worGaussianMech 0 σ f D = gaussianVec (f 0) σ := by
  unfold worGaussianMech
  simp

/-- The bound computed by the code. -/
noncomputable def worMoment (B : ℕ → ℝ) (q : ℝ) (a : ℕ) : ℝ := 1 + ∑ j ∈ Finset.Icc 2 a, (a.choose j : ℝ) * q ^ j * B j

lemma wor_moment_nat {z Δ : ℝ} (hz : 0 < z) (hΔ : 0 < Δ) (m : ℕ) (h : m + 1 < n) (f : Multiset R → Vec d)
    (hf : ∀ (s : Multiset R) (a b : R), ‖f (a ::ₘ s) - f (b ::ₘ s)‖ ≤ Δ) (D : Fin n → R) (i : Fin n) (x : R) (a : ℕ) (B : ℕ → ℝ)
    (hB : ∀ j, 2 ≤ j → j ≤ a → ternaryBound z j ≤ B j) :
    worGaussianMech (m + 1) (z * Δ) f D ≪ worGaussianMech (m + 1) (z * Δ) f (Function.update D i x) ∧
    renyiMoment a (worGaussianMech (m + 1) (z * Δ) f D) (worGaussianMech (m + 1) (z * Δ) f (Function.update D i x)) ≤
      ENNReal.ofReal (worMoment B (((m + 1 : ℕ) : ℝ) / n) a) := by
  have hn : (0 : ℝ) < n := by exact_mod_cast (by omega : 0 < n)
  have hq1 : ((m + 1 : ℕ) : ℝ) / n ≤ 1 := by rw [div_le_one hn]; exact_mod_cast h.le
  have hq0 : 0 ≤ ((m + 1 : ℕ) : ℝ) / n := by positivity
  have hw : ∀ k ∈ couple i m, 0 ≤ coupleW n m := fun _ _ => by unfold coupleW; positivity
  rw [wor_mix m h (z * Δ) f D D i (fun _ _ => rfl), wor_mix m h (z * Δ) f D (Function.update D i x) i (fun k hk => Function.update_of_ne hk _ _)]
  refine ⟨(mix_renyiMoment (by positivity) _ _ hw (couple_weights i m h) hq0 hq1 _ _ _ a (by positivity)).1, ?_⟩
  exact mix_moment_nat hz hΔ _ _ hw (couple_weights i m h) hq0 hq1 _ _ _ (fun k => hf _ _ _) (fun k => hf _ _ _) (fun k => hf _ _ _) a B hB

end Verif.Wor
