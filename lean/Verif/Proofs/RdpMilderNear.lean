import Verif.Proofs.RdpFracSlack
import Verif.Props.RdpNear
import Verif.Props.RdpParam

/-! # From the truncated series to the exact moments and back -/

namespace Verif.Props
open Verif Verif.Spec Verif.Rdp Verif.RdpConv Verif.Frac MeasureTheory ProbabilityTheory

variable {n : ℕ}

open Classical in
/-- The exact moments where the series is a series, and the values of the library elsewhere. -/
noncomputable def exactMoments (q : ℝ) (sigma : PyNum) (α : ℝ) : EReal :=
  if 0 < q ∧ q < 1 ∧ 0 < sigma.val ∧ sigma.val ≠ ⊤ then ((α - 1 : ℝ) : EReal) * sampledDiv q sigma.val.toReal α else logAFrac q sigma α

lemma exactMoments_val {q z α : ℝ} {sigma : PyNum} (h0 : 0 < q) (h1 : q < 1) (hz : 0 < z) (hs : sigma.val = (z : EReal)) (hα : α ≠ 1) :
    exactMoments q sigma α * (((α - 1)⁻¹ : ℝ) : EReal) = sampledDiv q z α := by
  unfold exactMoments
  rw [if_pos ⟨h0, h1, by rw [hs]; exact_mod_cast hz, by rw [hs]; exact EReal.coe_ne_top z⟩, hs, EReal.toReal_coe, mul_comm, ← mul_assoc,
    ← EReal.coe_mul, inv_mul_cancel₀ (sub_ne_zero.2 hα), EReal.coe_one, one_mul]

lemma exactMoments_nonneg {orders : Fin n → ℝ} (ho : ∀ i, 1 ≤ orders i) : FracNonneg orders exactMoments := by
  intro i hi q sigma h0 h1 hs
  unfold exactMoments
  split_ifs with h
  · exact EReal.mul_nonneg (by exact_mod_cast (by linarith [ho i] : (0 : ℝ) ≤ orders i - 1)) (sampledDiv_nonneg h0.le h1.le (ho i) _)
  · have ht : sigma.val = ⊤ := by
      by_contra hc
      exact h ⟨h0, h1, hs, hc⟩
    cases sigma with
    | int => simp [PyNum.val] at ht
    | float => simp [PyNum.val] at ht
    | inf => exact le_top

lemma exactMoments_exact (orders : Fin n → ℝ) : FracExact orders exactMoments := by
  intro i hi q z sigma h0 h1 hz hs
  exact exactMoments_val h0 h1 hz hs fun h => hi ⟨1, by rw [h]; simp⟩

lemma oneOrder_exact (q : ℝ) (sigma : PyNum) {α : ℝ} (hα : 1 ≤ α) :
    Near (orderSlack α) (poissonOneOrder logAFrac q sigma α) (poissonOneOrder exactMoments q sigma α) := by
  have hs := orderSlack_nonneg hα
  have triv : ∀ x : EReal, Near (orderSlack α) (.ok x) (.ok x) := fun x => ⟨x, rfl, by
    nth_rewrite 1 [← add_zero x]; exact add_le_add_right (by exact_mod_cast hs) x⟩
  unfold poissonOneOrder
  split_ifs with h1 h2 h3 h4
  · exact triv _
  · exact triv _
  · exact triv _
  · rfl
  · simp only [EReal.toReal_coe]
    unfold logA
    by_cases hi : ∃ m : ℤ, α = m
    · rw [dif_pos hi, dif_pos hi]; exact triv _
    · rw [dif_neg hi, dif_neg hi]
      have hα1 : α ≠ 1 := fun h => hi ⟨1, by simpa using h⟩
      by_cases hc : 0 < q ∧ q < 1 ∧ 0 < sigma.val ∧ sigma.val ≠ ⊤
      · obtain ⟨c0, c1, c2, c3⟩ := hc
        rcases val_cases sigma with ht | ⟨z, hz⟩
        · exact absurd ht c3
        have hz0 : 0 < z := by rw [hz] at c2; exact_mod_cast c2
        refine ⟨_, rfl, ?_⟩
        rw [exactMoments_val c0 c1 hz0 hz hα1]
        refine (C62_series_bound_partial q z α sigma c0 c1 hz0 hz (lt_of_le_of_ne hα hα1.symm) hi).trans ?_
        unfold orderSlack
        rw [if_neg hi]
        have hinv : 0 < (α - 1)⁻¹ := inv_pos.2 (by have := lt_of_le_of_ne hα hα1.symm; linarith)
        generalize logAFrac q sigma α = y
        cases y using EReal.rec with
        | bot => rw [EReal.bot_add, EReal.bot_mul_coe_of_pos hinv]; exact bot_le
        | top => rw [EReal.top_mul_coe_of_pos hinv, EReal.top_add_coe]; exact le_top
        | coe y =>
          rw [← EReal.coe_add, ← EReal.coe_mul, ← EReal.coe_mul, ← EReal.coe_add, add_mul]
      · have : exactMoments q sigma α = logAFrac q sigma α := by unfold exactMoments; rw [if_neg hc]
        rw [this]
        exact triv _

lemma poissonGaussian_exact {orders : Fin n → ℝ} (ho : ∀ i, 1 ≤ orders i) {q : PyNum} {noise : EffNoise} {a : Arr n}
    (h : poissonGaussian logAFrac (fun i => (orders i : EReal)) q noise = .ok a) :
    ∃ a', poissonGaussian exactMoments (fun i => (orders i : EReal)) q noise = .ok a' ∧ ∀ i, a' i ≤ a i + (orderSlack (orders i) : EReal) := by
  unfold poissonGaussian at h ⊢
  split_ifs at h ⊢ with h1
  cases noise with
  | num z =>
    simp only at h ⊢
    split_ifs at h ⊢ with h2
    exact collect_near (fun i => oneOrder_exact _ _ (ho i)) h
  | complex => simp at h
  | badEvent => simp at h

/-- One elementary event, with the exact moments and with the series. -/
lemma atom_exact {orders : Fin n → ℝ} (ho : ∀ i, 1 < orders i) (nr : NeighborRel) {e : DpEvent} (he : RdpAccountant.Elementary e)
    (hrep : ∀ e' m s, e ≠ .repeatAndSelect e' m s) (hok : RdpAccountant.Ok (libFns orders logAFrac) nr e) :
    RdpAccountant.Ok (libFns orders exactMoments) nr e ∧ ∀ i,
      RdpAccountant.curve (libFns orders exactMoments) nr e i ≤
        RdpAccountant.curve (libFns orders logAFrac) nr e i + ((poissonEvents [e] * orderSlack (orders i) : ℝ) : EReal) ∧
      ((∀ q e', e = .poissonSampled q e' → GaussianQueries e') → RdpAccountant.curve (libFns orders logAFrac) nr e i ≠ ⊤ →
        RdpAccountant.curve (libFns orders logAFrac) nr e i ≤
          RdpAccountant.curve (libFns orders exactMoments) nr e i + ((sampleExcess (orders i) e : ℝ) : EReal)) := by
  have same : (∀ α, 0 ≤ sampleExcess α e) →
      RdpAccountant.maybeCompose (libFns orders exactMoments) nr e 1 true (fun _ => 0) =
      RdpAccountant.maybeCompose (libFns orders logAFrac) nr e 1 true (fun _ => 0) → RdpAccountant.Ok (libFns orders exactMoments) nr e ∧ ∀ i,
      RdpAccountant.curve (libFns orders exactMoments) nr e i ≤
        RdpAccountant.curve (libFns orders logAFrac) nr e i + ((poissonEvents [e] * orderSlack (orders i) : ℝ) : EReal) ∧
      ((∀ q e', e = .poissonSampled q e' → GaussianQueries e') → RdpAccountant.curve (libFns orders logAFrac) nr e i ≠ ⊤ →
        RdpAccountant.curve (libFns orders logAFrac) nr e i ≤
          RdpAccountant.curve (libFns orders exactMoments) nr e i + ((sampleExcess (orders i) e : ℝ) : EReal)) := by
    intro hx h
    unfold RdpAccountant.Ok RdpAccountant.curve at *
    rw [h]
    refine ⟨hok, fun i => ⟨le_add_of_nonneg_right ?_, fun _ _ => le_add_of_nonneg_right ?_⟩⟩
    · have := mul_nonneg (Nat.cast_nonneg (α := ℝ) (poissonEvents [e])) (orderSlack_nonneg (ho i).le)
      exact_mod_cast this
    · exact_mod_cast hx _
  cases e with
  | repeatAndSelect e' m s => exact absurd rfl (hrep e' m s)
  | noOp => exact absurd he (by simp [RdpAccountant.Elementary])
  | selfComposed => exact absurd he (by simp [RdpAccountant.Elementary])
  | composed => exact absurd he (by simp [RdpAccountant.Elementary])
  | gaussian z =>
    refine same (fun _ => le_rfl) ?_
    simp only [RdpAccountant.maybeCompose, if_true, libFns, fns]
    rw [poissonGaussian_one exactMoments logAFrac]
  | poissonSampled q e =>
    clear same
    have hc : poissonEvents [DpEvent.poissonSampled q e] = 1 := rfl
    rw [hc, Nat.cast_one]
    simp only [one_mul]
    unfold RdpAccountant.Ok RdpAccountant.curve at *
    simp only [RdpAccountant.maybeCompose, if_true] at hok ⊢
    by_cases hnr : nr = .addOrRemoveOne ∨ nr = .replaceSpecial
    swap
    · rw [if_neg hnr] at hok; simp at hok
    rw [if_pos hnr] at hok ⊢
    rw [if_pos hnr]
    cases hn : effNoise e with
    | error err => rw [hn] at hok; simp at hok
    | ok s =>
      rw [hn] at hok
      have key : (RdpAccountant.addTo (fun _ => 0) 1 (poissonGaussian logAFrac (fun i => (orders i : EReal)) q s)).2 = .ok none →
          (RdpAccountant.addTo (fun _ => 0) 1 (poissonGaussian exactMoments (fun i => (orders i : EReal)) q s)).2 = .ok none ∧
          ∀ i, (RdpAccountant.addTo (fun _ => 0) 1 (poissonGaussian exactMoments (fun i => (orders i : EReal)) q s)).1 i ≤
            (RdpAccountant.addTo (fun _ => 0) 1 (poissonGaussian logAFrac (fun i => (orders i : EReal)) q s)).1 i + (orderSlack (orders i) : EReal) ∧
          ((∀ q' e', DpEvent.poissonSampled q e = .poissonSampled q' e' → GaussianQueries e') →
            (RdpAccountant.addTo (fun _ => 0) 1 (poissonGaussian logAFrac (fun i => (orders i : EReal)) q s)).1 i ≠ ⊤ →
            (RdpAccountant.addTo (fun _ => 0) 1 (poissonGaussian logAFrac (fun i => (orders i : EReal)) q s)).1 i ≤
            (RdpAccountant.addTo (fun _ => 0) 1 (poissonGaussian exactMoments (fun i => (orders i : EReal)) q s)).1 i +
              ((sampleExcess (orders i) (.poissonSampled q e) : ℝ) : EReal)) := by
        intro hok
        obtain ⟨a, ha, hca⟩ := addTo_curve hok
        obtain ⟨a', ha', hle⟩ := poissonGaussian_exact (fun i => (ho i).le) ha
        have hok' : (RdpAccountant.addTo (fun _ => 0) 1 (poissonGaussian exactMoments (fun i => (orders i : EReal)) q s)).2 = .ok none := by
          rw [ha']; rfl
        obtain ⟨b, hb, hcb⟩ := addTo_curve hok'
        obtain rfl : a' = b := by rw [ha'] at hb; exact Except.ok.inj hb
        rw [hca, hcb]
        refine ⟨hok', fun i => ⟨hle i, fun hg hfin => ?_⟩⟩
        obtain ⟨sigma, z, hen, hs, hz, hpos, hsum⟩ := effNoise_covered (hg _ _ rfl)
        obtain rfl : s = .num sigma := by rw [hn] at hen; exact Except.ok.inj hen
        obtain ⟨h0, h1, -, hr⟩ := poissonGaussian_ok ha i
        obtain ⟨-, -, -, hr'⟩ := poissonGaussian_ok ha' i
        have hx := eventExcess_nonneg (ho i) (.poissonSampled q e)
        have triv : a i = a' i → a i ≤ a' i + ((sampleExcess (orders i) (.poissonSampled q e) : ℝ) : EReal) := by
          intro h
          rw [h]
          exact le_add_of_nonneg_right (by exact_mod_cast hx)
        by_cases hi : ∃ m : ℤ, orders i = m
        · refine triv ?_
          have : poissonOneOrder logAFrac q.val.toReal sigma (orders i : EReal) = poissonOneOrder exactMoments q.val.toReal sigma (orders i : EReal) := by
            unfold poissonOneOrder
            simp only [EReal.toReal_coe]
            unfold logA
            simp only [dif_pos hi]
          rw [hr, hr'] at this
          exact Except.ok.inj this
        by_cases hq0 : q.val.toReal = 0
        · refine triv ?_
          rw [poissonOneOrder, if_pos hq0, Except.ok.injEq] at hr hr'
          rw [← hr, ← hr']
        by_cases hq1 : q.val.toReal = 1
        · refine triv ?_
          have hz0 : ¬ ((orders i : EReal) = ⊤ ∨ sigma.val = 0) := by
            rw [hs]; push Not; exact ⟨EReal.coe_ne_top _, by exact_mod_cast hz.ne'⟩
          rw [poissonOneOrder, if_neg hq0, if_neg hz0, if_pos hq1, Except.ok.injEq] at hr hr'
          rw [← hr, ← hr']
        have hq0' := lt_of_le_of_ne h0 (Ne.symm hq0)
        have hq1' := lt_of_le_of_ne h1 hq1
        have he' : a' i = sampledDiv q.val.toReal z (orders i) := by
          have hz0 : ¬ ((orders i : EReal) = ⊤ ∨ sigma.val = 0) := by
            rw [hs]; push Not; exact ⟨EReal.coe_ne_top _, by exact_mod_cast hz.ne'⟩
          have hne : ¬ (orders i : EReal) = 1 := by intro hc; exact (ho i).ne' (by exact_mod_cast hc)
          rw [poissonOneOrder, if_neg hq0, if_neg hz0, if_neg hq1, if_neg hne, EReal.toReal_coe, logA, dif_neg hi, Except.ok.injEq] at hr'
          rw [← hr', exactMoments_val hq0' hq1' hz hs (ho i).ne']
        obtain ⟨-, k2⟩ := poissonNear (ho i) hs hz hq0' hq1' hi hr
        rw [he']
        simp only [sampleExcess, eventExcess, if_pos (And.intro hq0' hq1'), ← hsum]
        rcases min_choice (fracExcess q.val.toReal (1 / z ^ 2) (orders i) 0) (fracExcess q.val.toReal (1 / z ^ 2) (orders i) (⌈orders i⌉₊ + 1)) with hmin | hmin
        · rw [hmin]; exact k2 hfin 0 le_rfl (by positivity)
        · rw [hmin]; exact k2 hfin _ (by positivity) le_rfl
      cases s with
      | badEvent b => simp at hok
      | num z => exact key hok
      | complex => exact key hok
  | _ => exact same (fun _ => le_rfl) rfl

end Verif.Props
