import Verif.Props.RdpFrac

/-! # The increase at fractional orders, through the accountant -/

namespace Verif.Props
open Verif Verif.Spec Verif.Rdp Verif.RdpConv Verif.Frac MeasureTheory ProbabilityTheory

variable {n : ℕ}

lemma orderSlack_nonneg {α : ℝ} (hα : 1 ≤ α) : 0 ≤ orderSlack α := by
  unfold orderSlack
  split_ifs
  · exact le_rfl
  · refine mul_nonneg (Real.log_nonneg ?_) (inv_nonneg.2 (by linarith))
    have := Real.exp_pos (-30)
    have : 0 < (2 : ℝ) ^ (⌈α⌉₊ + 1) * Real.exp (-30) := by positivity
    linarith

/-- The same exception, or values that differ by at most `c`. -/
def Near (c : ℝ) : Except Err EReal → Except Err EReal → Prop
  | .error e, r => r = .error e
  | .ok x, r => ∃ y, r = .ok y ∧ y ≤ x + (c : EReal)

lemma oneOrder_near (q : ℝ) (sigma : PyNum) {α : ℝ} (hα : 1 ≤ α) :
    Near (orderSlack α) (poissonOneOrder logAFrac q sigma α) (poissonOneOrder logAFracSafe q sigma α) := by
  have hs := orderSlack_nonneg hα
  have triv : ∀ x : EReal, Near (orderSlack α) (.ok x) (.ok x) := fun x => ⟨x, rfl, by
    nth_rewrite 1 [← add_zero x]; exact add_le_add_right (by exact_mod_cast hs) x⟩
  unfold poissonOneOrder
  split_ifs with h1 h2 h3 h4
  · exact triv _
  · exact triv _
  · exact triv _
  · rfl
  · simp only [EReal.toReal_coe]
    unfold logA
    by_cases hi : ∃ m : ℤ, α = m
    · rw [dif_pos hi, dif_pos hi]; exact triv _
    · rw [dif_neg hi, dif_neg hi]
      refine ⟨_, rfl, ?_⟩
      unfold logAFracSafe orderSlack
      rw [if_neg hi]
      have hα1 : α ≠ 1 := fun h => hi ⟨1, by simpa using h⟩
      have hinv : 0 < (α - 1)⁻¹ := inv_pos.2 (by have := lt_of_le_of_ne hα hα1.symm; linarith)
      generalize logAFrac q sigma α = y
      cases y using EReal.rec with
      | bot => rw [EReal.bot_add, EReal.bot_mul_coe_of_pos hinv]; exact bot_le
      | top => rw [EReal.top_mul_coe_of_pos hinv, EReal.top_add_coe]; exact le_top
      | coe y =>
        rw [← EReal.coe_add, ← EReal.coe_mul, ← EReal.coe_mul, ← EReal.coe_add, add_mul]

lemma collect_of_ok {f : Fin n → Except Err EReal} {a : Arr n} (h : ∀ i, f i = .ok (a i)) : collect f = .ok a := by
  unfold collect
  split
  · rename_i e he
    obtain ⟨x, hx, hxe⟩ := List.exists_of_findSome?_eq_some he
    obtain ⟨i, rfl⟩ := List.mem_ofFn.1 hx
    rw [h i] at hxe
    simp at hxe
  · simp only [h]

lemma collect_near {f f' : Fin n → Except Err EReal} {c : Fin n → ℝ} (h : ∀ i, Near (c i) (f i) (f' i)) {a : Arr n} (hf : collect f = .ok a) :
    ∃ a', collect f' = .ok a' ∧ ∀ i, a' i ≤ a i + (c i : EReal) := by
  have h1 := collect_ok hf
  have h2 : ∀ i, ∃ y, f' i = .ok y ∧ y ≤ a i + (c i : EReal) := fun i => by
    have := h i
    rw [h1 i] at this; exact this
  choose a' ha' hle using h2
  exact ⟨a', collect_of_ok ha', hle⟩

lemma poissonGaussian_near {orders : Fin n → ℝ} (ho : ∀ i, 1 ≤ orders i) {q : PyNum} {noise : EffNoise} {a : Arr n}
    (h : poissonGaussian logAFrac (fun i => (orders i : EReal)) q noise = .ok a) :
    ∃ a', poissonGaussian logAFracSafe (fun i => (orders i : EReal)) q noise = .ok a' ∧ ∀ i, a' i ≤ a i + (orderSlack (orders i) : EReal) := by
  unfold poissonGaussian at h ⊢
  split_ifs at h ⊢ with h1
  cases noise with
  | num z =>
    simp only at h ⊢
    split_ifs at h ⊢ with h2
    exact collect_near (fun i => oneOrder_near _ _ (ho i)) h
  | complex => simp at h
  | badEvent => simp at h

lemma poissonGaussian_one (frac frac' : ℝ → PyNum → ℝ → EReal) (orders : Fin n → EReal) (noise : EffNoise) :
    poissonGaussian frac orders (.float 1) noise = poissonGaussian frac' orders (.float 1) noise := by
  have e : ∀ (f : ℝ → PyNum → ℝ → EReal) z α, poissonOneOrder f (PyNum.float 1).val.toReal z α =
      if (1 : ℝ) = 0 then .ok 0 else if α = ⊤ ∨ z.val = 0 then .ok ⊤ else .ok (α * ((halfInvSq z : ℝ) : EReal)) := by
    intro f z α
    have : (PyNum.float 1).val.toReal = 1 := by simp [PyNum.val]
    rw [this, poissonOneOrder]
    simp
  unfold poissonGaussian
  simp only [e]

/-- One elementary event. -/
lemma atom_near {orders : Fin n → ℝ} (ho : ∀ i, 1 ≤ orders i) (nr : NeighborRel) {e : DpEvent} (he : RdpAccountant.Elementary e)
    (hrep : ∀ e' m s, e ≠ .repeatAndSelect e' m s) (hok : RdpAccountant.Ok (libFns orders logAFrac) nr e) :
    RdpAccountant.Ok (libFns orders logAFracSafe) nr e ∧ ∀ i, RdpAccountant.curve (libFns orders logAFracSafe) nr e i ≤
      RdpAccountant.curve (libFns orders logAFrac) nr e i + ((poissonEvents [e] * orderSlack (orders i) : ℝ) : EReal) := by
  have same : RdpAccountant.maybeCompose (libFns orders logAFracSafe) nr e 1 true (fun _ => 0) =
      RdpAccountant.maybeCompose (libFns orders logAFrac) nr e 1 true (fun _ => 0) → RdpAccountant.Ok (libFns orders logAFracSafe) nr e ∧
      ∀ i, RdpAccountant.curve (libFns orders logAFracSafe) nr e i ≤
      RdpAccountant.curve (libFns orders logAFrac) nr e i + ((poissonEvents [e] * orderSlack (orders i) : ℝ) : EReal) := by
    intro h
    unfold RdpAccountant.Ok RdpAccountant.curve at *
    rw [h]
    refine ⟨hok, fun i => ?_⟩
    nth_rewrite 1 [← add_zero ((RdpAccountant.maybeCompose (libFns orders logAFrac) nr e 1 true fun _ => 0).1 i)]
    refine add_le_add_right ?_ _
    have := mul_nonneg (Nat.cast_nonneg (α := ℝ) (poissonEvents [e])) (orderSlack_nonneg (ho i))
    exact_mod_cast this
  cases e with
  | repeatAndSelect e' m s => exact absurd rfl (hrep e' m s)
  | noOp => exact absurd he (by simp [RdpAccountant.Elementary])
  | selfComposed => exact absurd he (by simp [RdpAccountant.Elementary])
  | composed => exact absurd he (by simp [RdpAccountant.Elementary])
  | gaussian z =>
    refine same ?_
    simp only [RdpAccountant.maybeCompose, if_true, libFns, fns]
    rw [poissonGaussian_one logAFracSafe logAFrac]
  | poissonSampled q e =>
    have hc : poissonEvents [DpEvent.poissonSampled q e] = 1 := rfl
    rw [hc]
    unfold RdpAccountant.Ok RdpAccountant.curve at *
    simp only [RdpAccountant.maybeCompose, if_true, libFns, fns] at hok ⊢
    split_ifs at hok ⊢ with h1
    swap
    · simp at hok
    cases hn : effNoise e with
    | error err => rw [hn] at hok; simp at hok
    | ok s =>
      rw [hn] at hok
      have key : ∀ a, poissonGaussian logAFrac (fun i => (orders i : EReal)) q s = .ok a →
          (RdpAccountant.addTo (fun _ => 0) 1 (poissonGaussian logAFracSafe (fun i => (orders i : EReal)) q s)).2 = .ok none ∧
          ∀ i, (RdpAccountant.addTo (fun _ => 0) 1 (poissonGaussian logAFracSafe (fun i => (orders i : EReal)) q s)).1 i ≤
          (RdpAccountant.addTo (fun _ => 0) 1 (poissonGaussian logAFrac (fun i => (orders i : EReal)) q s)).1 i +
            (((1 : ℕ) * orderSlack (orders i) : ℝ) : EReal) := by
        intro a ha
        obtain ⟨a', ha', hle⟩ := poissonGaussian_near ho ha
        rw [ha, ha']
        refine ⟨rfl, fun i => ?_⟩
        simpa [RdpAccountant.addTo] using hle i
      cases hp : poissonGaussian logAFrac (fun i => (orders i : EReal)) q s with
      | error err => cases s <;> simp [hp, RdpAccountant.addTo] at hok
      | ok a =>
        cases s with
        | badEvent b => simp at hok
        | num z => exact key a hp
        | complex => exact key a hp
  | _ => exact same rfl

end Verif.Props

namespace Verif.Props
open Verif Verif.Spec Verif.Rdp Verif.RdpConv Verif.Frac MeasureTheory ProbabilityTheory

variable {Ω : Type*} [MeasurableSpace Ω]

/-- Total variation from a Rényi bound that exceeds `r` by `η`. -/
lemma tv_slack {P Q : Measure Ω} [IsProbabilityMeasure P] [IsProbabilityMeasure Q] {a r η e d : ℝ} (ha : 1 ≤ a) (he : 0 ≤ e) (hη : 0 ≤ η)
    (hd : 1 - Real.exp (-r) ≤ d ^ 2) (h : renyiDiv a P Q ≤ (r : EReal) + (η : EReal)) : Indist P Q e (Real.sqrt (d ^ 2 + η)) := by
  rw [← EReal.coe_add] at h
  refine indist_weaken ?_ (indist_of_tv he fun S hS => (tv_of_renyi ha h hS).2)
  refine Real.sqrt_le_sqrt ?_
  rw [neg_add, Real.exp_add]
  have h1 := Real.add_one_le_exp (-η)
  have h2 := Real.exp_pos (-r)
  rcases le_or_gt 0 r with hr | hr
  · have h3 : Real.exp (-r) ≤ 1 := Real.exp_le_one_iff.2 (by linarith)
    nlinarith
  · have hd0 := sq_nonneg d
    have h4 := (renyi_nonneg ha).trans h
    have h4' : 0 ≤ r + η := by exact_mod_cast h4
    have h5 := Real.add_one_le_exp (-(r + η))
    rw [← Real.exp_add]
    rw [show -r + -η = -(r + η) by ring]
    linarith

lemma epsFor_slack {P Q : Measure Ω} [IsProbabilityMeasure P] [IsProbabilityMeasure Q] {a delta η : ℝ} {r : EReal} (ha : 1 ≤ a)
    (hd : 0 < delta) (hη : 0 ≤ η) (h : renyiDiv a P Q ≤ r + (η : EReal)) (x : ℝ) (hx : max 0 (epsFor a r delta) = (x : EReal)) :
    (0 < x → Indist P Q (x + η) delta) ∧ Indist P Q (x + η) (Real.sqrt (delta ^ 2 + η)) := by
  have hx0 : 0 ≤ x := by
    have : (0 : EReal) ≤ (x : EReal) := hx ▸ le_max_left _ _
    exact_mod_cast this
  have hsq : delta ≤ Real.sqrt (delta ^ 2 + η) := Real.le_sqrt_of_sq_le (by linarith)
  have hr := (renyi_nonneg ha).trans h
  unfold epsFor at hx
  cases r using EReal.rec with
  | bot => rw [EReal.bot_add] at hr; simp at hr
  | top =>
    rw [if_neg (by simp)] at hx
    split_ifs at hx with h1 h2
    · simp only [EReal.neg_top, mexp_bot, zero_sub] at h1
      have : Indist P Q (x + η) delta := indist_weaken (by nlinarith) (indist_one _)
      exact ⟨fun _ => this, indist_weaken hsq this⟩
    · exfalso
      rw [EReal.top_add_coe, EReal.top_sub_coe] at hx
      simp at hx
    · simp at hx
  | coe r =>
    rw [← EReal.coe_neg, mexp_coe] at hx
    split_ifs at hx with h0 h1 h2
    · have hx1 : x = 0 := by simpa using hx.symm
      refine ⟨fun h => absurd hx1 h.ne', tv_slack ha (by linarith) hη ?_ h⟩
      have : r < 0 := by exact_mod_cast h0
      have := Real.add_one_le_exp (-r)
      have := sq_nonneg delta
      linarith
    · have hx1 : x = 0 := by simpa using hx.symm
      exact ⟨fun h => absurd hx1 h.ne', tv_slack ha (by linarith) hη (by linarith) h⟩
    · have ha' : (1 : ℝ) < a := by norm_num at h2 ⊢; linarith
      rw [neg_div, ← sub_eq_add_neg] at hx
      norm_cast at hx
      rw [← EReal.coe_zero, ← EReal.coe_strictMono.monotone.map_max] at hx
      norm_cast at hx
      rw [← EReal.coe_add] at h
      have h3 := indist_of_renyi ha' h (x + η)
      have key : Indist P Q (x + η) delta := by
        refine indist_weaken ?_ h3
        have h4 : r + Real.log (1 - 1 / a) - Real.log (delta * a) / (a - 1) ≤ x := by rw [← hx]; exact le_max_right _ _
        have ha0 : 0 < a - 1 := by linarith
        have h5 : (a - 1) * (r - x + Real.log (1 - 1 / a)) ≤ Real.log (delta * a) := by
          have : r - x + Real.log (1 - 1 / a) ≤ Real.log (delta * a) / (a - 1) := by linarith
          rw [le_div_iff₀ ha0] at this
          linarith
        rw [Real.log_mul hd.ne' (by linarith)] at h5
        rw [show r + η - (x + η) = r - x by ring]
        calc _ ≤ Real.exp (Real.log delta) := Real.exp_le_exp.2 (by linarith)
          _ = delta := Real.exp_log hd
      exact ⟨fun _ => key, indist_weaken hsq key⟩
    · simp at hx

lemma logDelta_slack {P Q : Measure Ω} [IsProbabilityMeasure P] [IsProbabilityMeasure Q] {a eps η : ℝ} {r : EReal} (ha : 1 ≤ a)
    (he : 0 ≤ eps) (hη : 0 ≤ η) (h : renyiDiv a P Q ≤ r + (η : EReal)) :
    Indist P Q (eps + η) (Real.sqrt (min (mexp (logDelta a r eps)) 1 ^ 2 + η)) := by
  have hr := (renyi_nonneg ha).trans h
  have hone : 1 ≤ mexp (logDelta a r eps) → Indist P Q (eps + η) (Real.sqrt (min (mexp (logDelta a r eps)) 1 ^ 2 + η)) := by
    intro h1
    rw [min_eq_right h1]
    exact indist_weaken (Real.le_sqrt_of_sq_le (by linarith)) (indist_one _)
  by_cases h1 : 1 ≤ mexp (logDelta a r eps)
  · exact hone h1
  rw [min_eq_left (not_le.1 h1).le]
  have htv : ∀ r : ℝ, renyiDiv a P Q ≤ (r : EReal) + (η : EReal) → Indist P Q (eps + η) (Real.sqrt (mexp (tvLog r) ^ 2 + η)) := by
    intro r h
    refine tv_slack ha (by linarith) hη ?_ h
    rcases le_or_gt 0 r with hr | hr
    · rw [mexp_tvLog hr, Real.sq_sqrt]
      have := Real.exp_le_one_iff.2 (by linarith : -r ≤ 0)
      linarith
    · have := Real.add_one_le_exp (-r)
      have := sq_nonneg (mexp (tvLog r))
      linarith
  cases r using EReal.rec with
  | bot => rw [EReal.bot_add] at hr; simp at hr
  | top =>
    exfalso
    apply h1
    have e1 : tvLog ⊤ = 0 := by simp [tvLog, mexp_bot]
    have : logDelta a ⊤ eps = 0 := by
      rw [logDelta_eq, e1]
      split_ifs with h2
      · have ha' : (1 : ℝ) < a := by norm_num at h2 ⊢; linarith
        have : rdpLog a ⊤ eps = ⊤ := by
          unfold rdpLog
          rw [EReal.top_sub_coe, EReal.top_add_coe, EReal.coe_mul_top_of_pos (by linarith), EReal.top_sub_coe]
        rw [this]; simp
      · rfl
    rw [this]; simp [mexp]
  | coe r =>
    rw [logDelta_eq]
    split_ifs with h2
    · have ha' : (1 : ℝ) < a := by norm_num at h2 ⊢; linarith
      rcases le_total (tvLog r) (rdpLog a r eps) with h3 | h3
      · rw [min_eq_left h3]; exact htv r h
      · rw [min_eq_right h3, rdpLog_coe, mexp_coe]
        rw [← EReal.coe_add] at h
        have h4 := indist_of_renyi ha' h (eps + η)
        rw [show r + η - (eps + η) = r - eps by ring] at h4
        exact indist_weaken (Real.le_sqrt_of_sq_le (by linarith)) h4
    · exact htv r h

end Verif.Props
