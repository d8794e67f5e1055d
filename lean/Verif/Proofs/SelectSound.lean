import Verif.Proofs.GammaSearch3
import Verif.Proofs.TnbRenyi
import Verif.Proofs.PoissonRenyi2
import Verif.Proofs.RenyiMono
import Verif.Proofs.RdpFns
import Verif.Props.RdpConversion

/-! # Proofs: soundness of `_compute_rdp_repeat_and_select` -/

namespace Verif.RepeatSelect
open Verif Verif.Spec MeasureTheory

variable {n : ℕ} (orders : Fin n → ℝ) {Y : Type*} [MeasurableSpace Y] {score : Y → ℝ}

lemma add_real_le {a : EReal} {x y : ℝ} (h : a ≤ ((x : ℝ) : EReal)) (hxy : x ≤ y) : a ≤ ((y : ℝ) : EReal) :=
  h.trans (EReal.coe_le_coe_iff.2 hxy)

/-- One order, truncated negative binomial: `γ` is the true parameter, `g` the one used in the formula. -/
lemma perOrder_sound (ho : ∀ i, 1 ≤ orders i) {s γ g m e : ℝ} (hs : 0 ≤ s) (h0 : 0 < γ) (h1 : γ ≤ 1) (hg1 : g ≤ 1) (hg0 : 0 < g)
    (hm : Spec.tnbMean s γ = m) (he : 0 ≤ e) (hlog : Real.log g ≤ Real.log γ + e) (rdp : Arr n)
    (hsc : Measurable score) (P Q : Measure Y) [IsProbabilityMeasure P] [IsProbabilityMeasure Q] (hPQ : ∀ i, renyiDiv (orders i) P Q ≤ rdp i)
    (hQP : ∀ i, renyiDiv (orders i) Q P ≤ rdp i) (i : Fin n) :
    renyiDiv (orders i) (repeatSelect (tnb s γ) score P) (repeatSelect (tnb s γ) score Q) ≤
      perOrder orders rdp m (constTerm orders rdp s g) i + (((1 + s) * e : ℝ) : EReal) := by
  unfold perOrder
  split_ifs with hi
  swap
  · rw [EReal.top_add_coe]; exact le_top
  have hrn : ∀ j, 0 ≤ rdp j := fun j => (RdpConv.renyi_nonneg (ho j)).trans (hPQ j)
  have hlg : Real.log g ≤ 0 := Real.log_nonpos hg0.le hg1
  unfold constTerm
  split_ifs with hex
  · cases hri : rdp i using EReal.rec with
    | bot => have := hrn i; rw [hri] at this; simp at this
    | top => rw [EReal.top_add_coe, EReal.top_add_top, EReal.top_add_coe]; exact le_top
    | coe r => rw [← EReal.coe_add, EReal.coe_add_top, EReal.top_add_coe]; exact le_top
  push Not at hex
  obtain ⟨j, -, hj⟩ := Finset.exists_mem_eq_inf (Finset.univ : Finset (Fin n)) ⟨i, Finset.mem_univ i⟩
    (fun j => ((1 - 1 / orders j : ℝ) : EReal) * rdp j - ((Real.log g / orders j : ℝ) : EReal))
  rw [hj]
  have hoj := ho j
  have hs1 : 0 < 1 + s := by linarith
  have hcoef : 0 ≤ 1 - 1 / orders j := by
    rw [sub_nonneg, div_le_one (by linarith)]; exact hoj
  cases hri : rdp i using EReal.rec with
  | bot => have := hrn i; rw [hri] at this; simp at this
  | top =>
    have hT : (⊥ : EReal) < ((1 + s : ℝ) : EReal) * (((1 - 1 / orders j : ℝ) : EReal) * rdp j - ((Real.log g / orders j : ℝ) : EReal)) := by
      refine lt_of_lt_of_le (EReal.bot_lt_coe 0) ?_
      refine mul_nonneg (by exact_mod_cast hs1.le) ?_
      rw [sub_eq_add_neg, ← EReal.coe_neg]
      refine add_nonneg (mul_nonneg (by exact_mod_cast hcoef) (hrn j)) ?_
      have : 0 ≤ -(Real.log g / orders j) := by
        rw [neg_nonneg]; exact div_nonpos_of_nonpos_of_nonneg hlg (by linarith)
      exact_mod_cast this
    rw [EReal.top_add_coe, EReal.top_add_of_ne_bot hT.ne', EReal.top_add_coe]
    exact le_top
  | coe r =>
    cases hrj : rdp j using EReal.rec with
    | bot => have := hrn j; rw [hrj] at this; simp at this
    | top =>
      have hne : orders j ≠ 1 := fun h => (hex j h) hrj
      have hpos : 0 < 1 - 1 / orders j := by
        rw [sub_pos, div_lt_one (by linarith)]
        exact lt_of_le_of_ne hoj (Ne.symm hne)
      rw [EReal.coe_mul_top_of_pos hpos, EReal.top_sub_coe, EReal.coe_mul_top_of_pos hs1, ← EReal.coe_add,
        EReal.coe_add_top, EReal.top_add_coe]
      exact le_top
    | coe r' =>
      have h := tnb_renyi hsc P Q hs h0 h1 hi hoj (r := r) (r' := r') (by rw [← hri]; exact hPQ i) (fun _ => by rw [← hrj]; exact hQP j)
      rw [hm] at h
      rw [← EReal.coe_mul, ← EReal.coe_sub, ← EReal.coe_mul, ← EReal.coe_add, ← EReal.coe_add, ← EReal.coe_add]
      refine add_real_le h ?_
      have h2 : -(Real.log γ / orders j) ≤ -(Real.log g / orders j) + e := by
        have hj0 : 0 < orders j := by linarith
        have : e / orders j ≤ e := div_le_self he hoj
        have h3 : Real.log g / orders j ≤ (Real.log γ + e) / orders j := by gcongr
        rw [add_div] at h3
        linarith
      have h3 : (1 + s) * ((1 - 1 / orders j) * r' - Real.log γ / orders j) ≤ (1 + s) * ((1 - 1 / orders j) * r' - Real.log g / orders j + e) := by
        refine mul_le_mul_of_nonneg_left ?_ hs1.le
        linarith
      linarith

/-- What a successful call computes for a finite shape. -/
lemma repeatAndSelect_tnb {rdp out : Arr n} {mean shape : PyNum} {s : ℝ} (hs : shape.real? = some s) (h : repeatAndSelect orders rdp mean shape = .ok out) :
    ∃ g m, gammaTnb s mean = .ok g ∧ mean.real? = some m ∧ 0 < g ∧ out = monoAll orders (perOrder orders rdp m (constTerm orders rdp s g)) := by
  unfold repeatAndSelect at h
  by_cases h1 : shape.val < 0
  · rw [if_pos h1] at h; cases h
  rw [if_neg h1] at h
  by_cases h2 : mean.val < 1
  · rw [if_pos h2] at h; cases h
  rw [if_neg h2, hs] at h
  simp only at h
  cases hg : gammaTnb s mean with
  | error e => rw [hg] at h; cases h
  | ok g =>
    rw [hg] at h
    simp only at h
    by_cases h3 : g ≤ 0
    · rw [if_pos h3] at h; cases h
    rw [if_neg h3] at h
    by_cases h4 : n = 0
    · rw [if_pos h4] at h; cases h
    rw [if_neg h4] at h
    cases hm : mean.real? with
    | none => rw [hm] at h; cases h
    | some m =>
      rw [hm] at h
      simp only [Except.ok.injEq] at h
      exact ⟨g, m, rfl, rfl, not_le.1 h3, by rw [← h, monotonise_eq]⟩

lemma monoAll_le (out : Arr n) {i j : Fin n} (h : orders i ≤ orders j) : monoAll orders out i ≤ out j := by
  classical
  exact Finset.inf_le (by simp [h])

lemma monoAll_attained (out : Arr n) (i : Fin n) : ∃ j, orders i ≤ orders j ∧ monoAll orders out i = out j := by
  classical
  unfold monoAll
  obtain ⟨j, hj, h⟩ := Finset.exists_mem_eq_inf (Finset.univ.filter fun j => orders i ≤ orders j) ⟨i, by simp⟩ out
  exact ⟨j, (Finset.mem_filter.1 hj).2, h⟩

theorem repeatAndSelect_sound (ho : ∀ i, 1 ≤ orders i) {rdp out : Arr n} {mean shape : PyNum} {s m γ e : ℝ} (hs : shape.real? = some s)
    (hmr : mean.real? = some m) (h : repeatAndSelect orders rdp mean shape = .ok out) (h0 : 0 < γ) (h1 : γ ≤ 1) (hm : Spec.tnbMean s γ = m) (he : 0 ≤ e)
    (hlog : ∀ g, gammaTnb s mean = .ok g → Real.log g ≤ Real.log γ + e) (hmv : mean.val = m)
    (hsc : Measurable score) (P Q : Measure Y) [IsProbabilityMeasure P] [IsProbabilityMeasure Q] (hPQ : ∀ i, renyiDiv (orders i) P Q ≤ rdp i)
    (hQP : ∀ i, renyiDiv (orders i) Q P ≤ rdp i) (i : Fin n) :
    renyiDiv (orders i) (repeatSelect (tnb s γ) score P) (repeatSelect (tnb s γ) score Q) ≤ out i + (((1 + s) * e : ℝ) : EReal) := by
  obtain ⟨g, m', hg, hm', hg0, rfl⟩ := repeatAndSelect_tnb orders hs h
  rw [hmr] at hm'
  cases hm'
  obtain ⟨hs0, -, -, hg1, -⟩ := gammaTnb_spec hmr hmv hg
  obtain ⟨j, hij, hj⟩ := monoAll_attained orders (perOrder orders rdp m (constTerm orders rdp s g)) i
  rw [hj]
  have pP := repeatSelect_prob (tnb_nonneg hs0 h0 h1) (tnb_hasSum hs0 h0 h1) hsc P
  have pQ := repeatSelect_prob (tnb_nonneg hs0 h0 h1) (tnb_hasSum hs0 h0 h1) hsc Q
  refine (renyi_mono (ho i) hij _ _).trans ?_
  exact perOrder_sound orders ho hs0 h0 h1 hg1 hg0 hm he (hlog g hg) rdp hsc P Q hPQ hQP j

theorem repeatAndSelect_poisson {rdp out : Arr n} {mean shape : PyNum} {m : ℝ} (hs : shape.real? = none)
    (hmr : mean.real? = some m) (hmv : mean.val = m) (h : repeatAndSelect orders rdp mean shape = .ok out)
    (hsc : Measurable score) (P Q : Measure Y) [IsProbabilityMeasure P] [IsProbabilityMeasure Q] (hPQ : ∀ i, renyiDiv (orders i) P Q ≤ rdp i)
    (hQP : ∀ i, renyiDiv (orders i) Q P ≤ rdp i) (i : Fin n) :
    renyiDiv (orders i) (repeatSelect (poisson m) score P) (repeatSelect (poisson m) score Q) ≤ out i := by
  unfold repeatAndSelect at h
  by_cases h1 : shape.val < 0
  · rw [if_pos h1] at h; cases h
  rw [if_neg h1] at h
  by_cases h2 : mean.val < 1
  · rw [if_pos h2] at h; cases h
  rw [if_neg h2, hs] at h
  have hm1 : 1 ≤ m := by rw [hmv] at h2; exact_mod_cast not_lt.1 h2
  have hi := Rdp.collect_ok h i
  unfold poissonEntry at hi
  by_cases h3 : orders i ≤ 1
  · rw [if_pos h3, Except.ok.injEq] at hi; rw [← hi]; exact le_top
  rw [if_neg h3] at hi
  cases hd : RdpConv.computeDelta (List.ofFn orders) (List.ofFn rdp) (Real.log (1 + 1 / (orders i - 1))) with
  | error e => rw [hd] at hi; cases hi
  | ok v =>
    obtain ⟨d, a⟩ := v
    rw [hd, hmr] at hi
    simp only [Except.ok.injEq] at hi
    rw [← hi]
    have hc : Props.RdpCurve (List.ofFn orders) (List.ofFn rdp) Q P := by
      intro x hx
      obtain ⟨k, hk, hx⟩ := List.getElem_of_mem hx
      rw [List.getElem_zip, List.getElem_ofFn, List.getElem_ofFn] at hx
      rw [← hx]
      exact hQP _
    have hI := (Props.C35_compute_delta_sound _ _ _ _ _ hd).2.2.2 Q P hc
    have hrn : 0 ≤ rdp i := (RdpConv.renyi_nonneg (not_le.1 h3).le).trans (hPQ i)
    cases hri : rdp i using EReal.rec with
    | bot => rw [hri] at hrn; simp at hrn
    | top => rw [EReal.top_add_coe, EReal.top_add_coe]; exact le_top
    | coe r =>
      have := poisson_renyi (not_le.1 h3) hm1 P Q hsc (r := r) (by rw [← hri]; exact hPQ i) hI
      rw [← EReal.coe_add, ← EReal.coe_add]
      exact this

end Verif.RepeatSelect
