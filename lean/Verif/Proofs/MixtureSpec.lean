import Verif.Proofs.MixtureFrom

/-! # Mixtures of Gaussians: the model in terms of the specification -/

namespace Verif.Mixture
open Verif Spec Pld MeasureTheory ProbabilityTheory Mech

namespace Obj
variable {m : Obj}

open Classical in
lemma zeroProb_eq (h : m.Good) : zeroProb m.comps = 1 - m.q := by
  have h2 := sum_filter m.comps (fun c => 0 < c.1) Prod.snd
  rw [h.dist.sum] at h2
  rw [q_eq h]
  have e : (m.comps.filter fun c => c.1 = 0) = m.comps.filter fun c => ¬ 0 < c.1 := by
    refine List.filter_congr fun c hc => ?_
    have := h.dist.sens c hc
    simp only [decide_eq_decide, not_lt]
    constructor
    · intro h; rw [h]
    · intro h; exact le_antisymm h this
  unfold zeroProb
  rw [e]
  unfold pos
  linarith

lemma near_iff (h : m.Good) (e : ℝ) : NearLimit m.comps m.adj e ↔ ¬ m.Finite e := by
  unfold NearLimit Finite limit mixLimit
  rw [zeroProb_eq h]
  by_cases hq : m.q < 1
  · rw [if_pos hq]
    have : 0 < 1 - m.q := by linarith
    rw [sub_eq_add_neg] at this ⊢
    simp only [this, true_and]
    cases m.adj <;> simp [NpClose]
  · rw [if_neg hq]
    have : ¬ 0 < 1 - m.q := by linarith
    simp [this]

lemma inRange_iff (h : m.Good) (e : ℝ) : m.InRange e ↔ ∃ z, m.privacyLoss z = e :=
  ⟨exists_inverse h, fun ⟨z, hz⟩ => hz ▸ inRange_of_loss h z⟩

lemma tol_le (h : m.Good) {S : ℝ} (hS : ∀ c ∈ m.comps, c.1 ≤ S) : max (m.slack 1e-6) m.window ≤ mixError m.σ S m.comps := by
  unfold mixError
  refine max_le_max ?_ ?_
  · unfold slack peak
    have hmax : m.maxSens ≤ S := by
      have := listMax_spec (l := m.pos.map Prod.fst) (by
        obtain ⟨c, hc, h0⟩ := h.dist.pos
        have : c ∈ m.pos := List.mem_filter.2 ⟨hc, decide_eq_true h0⟩
        exact List.ne_nil_of_mem (List.mem_map_of_mem this))
      obtain ⟨c, hc, he⟩ := List.mem_map.1 this.1
      have e : m.maxSens = c.1 := he.symm
      rw [e]
      exact hS c (List.mem_filter.1 hc).1
    have := h.v0
    refine mul_le_mul_of_nonneg_left ?_ (by positivity)
    have : Real.exp (m.maxSens * 1e-6 / m.σ ^ 2) ≤ Real.exp (S * 1e-6 / m.σ ^ 2) :=
      Real.exp_le_exp.2 (div_le_div_of_nonneg_right (mul_le_mul_of_nonneg_right hmax (by norm_num)) this.le)
    linarith
  · unfold window limit
    rw [zeroProb_eq h]
    by_cases hq : m.q < 1
    · rw [if_pos hq, if_pos (by linarith)]
      cases m.adj <;> simp [sub_eq_add_neg]
    · rw [if_neg hq]
      simp only []
      split_ifs <;> positivity

lemma pdf_term {σ : ℝ} (hσ : 0 < σ) (s x : ℝ) : gaussianPDFReal s (Real.toNNReal (σ ^ 2)) x =
    gaussianPDFReal 0 (Real.toNNReal (σ ^ 2)) x * term (σ ^ 2) s x := by
  unfold gaussianPDFReal term
  rw [Real.coe_toNNReal _ (sq_nonneg σ), mul_assoc (√(2 * Real.pi * σ ^ 2))⁻¹, ← Real.exp_add]
  congr 2
  field_simp
  ring

lemma mixPdf_eq {σ : ℝ} (hσ : 0 < σ) (cs : List (ℝ × ℝ)) (x : ℝ) :
    mixPdf σ cs x = gaussianPDFReal 0 (Real.toNNReal (σ ^ 2)) x * lr σ cs x := by
  unfold mixPdf lr
  rw [← List.sum_map_mul_left]
  congr 1
  refine List.map_congr_left fun c _ => ?_
  rw [pdf_term hσ]; ring

lemma lr_neg (σ : ℝ) (cs : List (ℝ × ℝ)) (x : ℝ) : lr σ (cs.map fun c => (-c.1, c.2)) x = lr σ cs (-x) := by
  unfold lr
  rw [List.map_map]
  congr 1
  refine List.map_congr_left fun c _ => ?_
  simp only [Function.comp, term]
  congr 3
  ring

lemma loss_pdf (h : m.Good) (x : ℝ) :
    m.privacyLoss x = Real.log (mixUpperPdf m.σ m.comps m.adj x / mixLowerPdf m.σ m.comps m.adj x) := by
  have hg : 0 < gaussianPDFReal 0 (Real.toNNReal (m.σ ^ 2)) x := gaussianPDFReal_pos _ _ _ (toNNReal_ne h.σ0)
  rw [privacyLoss_eq h]
  unfold mixUpperPdf mixLowerPdf
  cases m.adj
  · simp only []
    rw [mixPdf_eq h.σ0, ← div_div, div_self hg.ne', one_div, Real.log_inv]
    rfl
  · simp only []
    rw [mixPdf_eq h.σ0, lr_neg, mul_div_cancel_left₀ _ hg.ne']
    rfl

lemma anchored_covered (h : m.Good) {F : List ℝ} (hF : ∀ e ∈ F, ∃ z, m.privacyLoss z = e) (ha : Anchored m.comps m.adj m.privacyLoss F) :
    m.Covered F := by
  have anti := (privacyLoss_strictAnti h).antitone
  have hne : m.pos.map Prod.fst ≠ [] := by
    obtain ⟨c, hc, h0⟩ := h.dist.pos
    have : c ∈ m.pos := List.mem_filter.2 ⟨hc, decide_eq_true h0⟩
    exact List.ne_nil_of_mem (List.mem_map_of_mem this)
  have hmin : ∃ c ∈ m.comps, 0 < c.1 ∧ m.minSens = c.1 := by
    obtain ⟨c, hc, he⟩ := List.mem_map.1 (listMin_spec hne).1
    exact ⟨c, (List.mem_filter.1 hc).1, of_decide_eq_true (List.mem_filter.1 hc).2, he.symm⟩
  have hmax : ∃ c ∈ m.comps, 0 < c.1 ∧ m.maxSens = c.1 := by
    obtain ⟨c, hc, he⟩ := List.mem_map.1 (listMax_spec hne).1
    exact ⟨c, (List.mem_filter.1 hc).1, of_decide_eq_true (List.mem_filter.1 hc).2, he.symm⟩
  obtain ⟨c1, hc1, p1, e1⟩ := hmin
  obtain ⟨c2, hc2, p2, e2⟩ := hmax
  unfold Anchored at ha
  unfold Covered
  cases hadj : m.adj
  · simp only [hadj] at ha ⊢
    rcases ha with ⟨z, hz, hle⟩ | hall
    · exact .inl ⟨_, hz, anti (e1 ▸ hle c1 hc1 p1)⟩
    · refine .inr fun l hl => ?_
      obtain ⟨z, rfl⟩ := hF l hl
      exact anti (e2 ▸ hall z hl c2 hc2 p2)
  · simp only [hadj] at ha ⊢
    rcases ha with ⟨z, hz, hle⟩ | hall
    · exact .inl ⟨_, hz, anti (e1 ▸ hle c1 hc1 p1)⟩
    · refine .inr fun l hl => ?_
      obtain ⟨z, rfl⟩ := hF l hl
      exact anti (e2 ▸ hall z hl c2 hc2 p2)

end Obj

lemma zeroProb_kept (sens probs : List ℝ) : zeroProb (kept sens probs) = zeroProb (sens.zip probs) := by
  classical
  unfold zeroProb kept
  generalize sens.zip probs = l
  induction l with
  | nil => rfl
  | cons c l ih =>
    by_cases h : c.2 = 0
    · rw [List.filter_cons_of_neg (by simp [h]), ih]
      by_cases h1 : c.1 = 0
      · rw [List.filter_cons_of_pos (p := fun c : ℝ × ℝ => decide (c.1 = 0)) (by simp [h1]), List.map_cons, List.sum_cons, h, zero_add]
      · rw [List.filter_cons_of_neg (p := fun c : ℝ × ℝ => decide (c.1 = 0)) (by simp [h1])]
    · rw [List.filter_cons_of_pos (by simp [h])]
      by_cases h1 : c.1 = 0
      · rw [List.filter_cons_of_pos (p := fun c : ℝ × ℝ => decide (c.1 = 0)) (by simp [h1]),
          List.filter_cons_of_pos (p := fun c : ℝ × ℝ => decide (c.1 = 0)) (by simp [h1]), List.map_cons, List.sum_cons, ih, List.map_cons,
          List.sum_cons]
      · rw [List.filter_cons_of_neg (p := fun c : ℝ × ℝ => decide (c.1 = 0)) (by simp [h1]), ih,
          List.filter_cons_of_neg (p := fun c : ℝ × ℝ => decide (c.1 = 0)) (by simp [h1])]

lemma kept_neg (sens probs : List ℝ) (σ : ℝ) : gaussMixture σ ((kept sens probs).map fun c => (-c.1, c.2)) =
    gaussMixture σ ((sens.zip probs).map fun c => (-c.1, c.2)) := by
  unfold kept
  generalize sens.zip probs = l
  induction l with
  | nil => rfl
  | cons c l ih =>
    by_cases h : c.2 = 0
    · rw [List.filter_cons_of_neg (by simp [h]), ih]
      simp [gaussMixture, h]
    · rw [List.filter_cons_of_pos (by simp [h])]
      simp only [gaussMixture, List.map_cons, List.sum_cons] at ih ⊢
      rw [ih]

lemma mixUpper_kept (σ : ℝ) (sens probs : List ℝ) (adj : Adj) : mixUpper σ (kept sens probs) adj = mixUpper σ (sens.zip probs) adj := by
  cases adj
  · rfl
  · exact kept_neg sens probs σ

lemma mixLower_kept (σ : ℝ) (sens probs : List ℝ) (adj : Adj) : mixLower σ (kept sens probs) adj = mixLower σ (sens.zip probs) adj := by
  cases adj
  · exact kept_idem sens probs σ
  · rfl

lemma sum_kept (sens probs : List ℝ) (f : ℝ × ℝ → ℝ) (hf : ∀ c, c.2 = 0 → f c = 0) :
    ((kept sens probs).map f).sum = ((sens.zip probs).map f).sum := by
  unfold kept
  generalize sens.zip probs = l
  induction l with
  | nil => rfl
  | cons c l ih =>
    rw [List.map_cons, List.sum_cons, ← ih]
    by_cases h : c.2 = 0
    · rw [List.filter_cons_of_neg (by simp [h]), hf c h, zero_add]
    · rw [List.filter_cons_of_pos (by simp [h]), List.map_cons, List.sum_cons]

lemma mixPdf_kept (σ : ℝ) (sens probs : List ℝ) (x : ℝ) : mixPdf σ (kept sens probs) x = mixPdf σ (sens.zip probs) x :=
  sum_kept _ _ _ fun c hc => by rw [hc, zero_mul]

lemma mixPdf_neg_kept (σ : ℝ) (sens probs : List ℝ) (x : ℝ) : mixPdf σ ((kept sens probs).map fun c => (-c.1, c.2)) x =
    mixPdf σ ((sens.zip probs).map fun c => (-c.1, c.2)) x := by
  unfold mixPdf
  rw [List.map_map, List.map_map]
  exact sum_kept _ _ _ fun c hc => by simp [hc]

/-- Gaussian tail. -/
lemma gcdf_tail {a : ℝ} (ha : 0 ≤ a) : gcdf 1 (-a) ≤ Real.exp (-(a ^ 2 / 2)) := by
  unfold gcdf
  have hi : Integrable (fun x => Real.exp (-a * id x)) (gaussianReal 0 (Real.toNNReal (1 ^ 2))) := integrable_exp_mul_gaussianReal (-a)
  have := measure_le_le_exp_mul_mgf (μ := gaussianReal 0 (Real.toNNReal (1 ^ 2))) (X := id) (-a) (t := -a) (by linarith) hi
  rw [mgf_id_gaussianReal, ← Real.exp_add] at this
  refine this.trans (le_of_eq ?_)
  congr 1
  simp
  ring

end Verif.Mixture
