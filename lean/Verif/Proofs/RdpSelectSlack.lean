import Verif.Spec.RdpSelectSlack
import Verif.Proofs.RdpFracSlack
import Verif.Proofs.RdpParamEvents

/-! # Errors of RDP values through repetition and selection -/

namespace Verif.Props
open Verif Verif.Spec Verif.Rdp Verif.RdpConv Verif.RepeatSelect Verif.Frac MeasureTheory ProbabilityTheory

variable {n : ℕ}

lemma mexp_min {x y : EReal} (hx : x ≠ ⊤) (hy : y ≠ ⊤) : mexp (min x y) = min (mexp x) (mexp y) := by
  rcases le_total x y with h | h
  · rw [min_eq_left h, min_eq_left (mexp_mono h hy)]
  · rw [min_eq_right h, min_eq_right (mexp_mono h hx)]

lemma tv_near (r : ℝ) {c : ℝ} (hc : 0 ≤ c) : mexp (tvLog ((r + c : ℝ) : EReal)) ≤ mexp (tvLog (r : EReal)) + Real.sqrt c := by
  have hs := Real.sqrt_nonneg c
  have h0 := mexp_nonneg (tvLog (r : EReal))
  rcases lt_or_ge (r + c) 0 with h | h
  · have : tvLog ((r + c : ℝ) : EReal) = ⊥ := by unfold tvLog; rw [if_pos (by exact_mod_cast h)]
    rw [this, mexp_bot]; linarith
  rw [mexp_tvLog h]
  rcases lt_or_ge r 0 with hr | hr
  · have : Real.sqrt (1 - Real.exp (-(r + c))) ≤ Real.sqrt c := by
      refine Real.sqrt_le_sqrt ?_
      have := Real.add_one_le_exp (-(r + c))
      linarith
    linarith
  · rw [mexp_tvLog hr]
    refine (Real.sqrt_le_sqrt (?_ : _ ≤ (1 - Real.exp (-r)) + c)).trans (?_ : Real.sqrt ((1 - Real.exp (-r)) + c) ≤ Real.sqrt (1 - Real.exp (-r)) + Real.sqrt c)
    swap
    · have h3 : Real.exp (-r) ≤ 1 := Real.exp_le_one_iff.2 (by linarith)
      have k1 := Real.sq_sqrt (by linarith : 0 ≤ 1 - Real.exp (-r))
      have k2 := Real.sq_sqrt hc
      have k3 := Real.sqrt_nonneg (1 - Real.exp (-r))
      rw [Real.sqrt_le_left (by positivity)]
      nlinarith [mul_nonneg k3 hs]
    have h1 := Real.add_one_le_exp (-c)
    have h2 : Real.exp (-(r + c)) = Real.exp (-r) * Real.exp (-c) := by rw [← Real.exp_add]; ring_nf
    have h3 : Real.exp (-r) ≤ 1 := Real.exp_le_one_iff.2 (by linarith)
    have h4 := Real.exp_pos (-r)
    have h5 : Real.exp (-c) ≤ 1 := Real.exp_le_one_iff.2 (by linarith)
    rw [h2]
    nlinarith

lemma logDelta_near {a A : ℝ} (ha : 1 ≤ a) (hA : a ≤ A) (r : EReal) {c : ℝ} (hc : 0 ≤ c) (eps : ℝ) :
    min (mexp (logDelta a (r + (c : EReal)) eps)) 1 ≤ min (mexp (logDelta a r eps)) 1 + (Real.sqrt c + (Real.exp ((A - 1) * c) - 1)) := by
  have hs := Real.sqrt_nonneg c
  have he : 0 ≤ Real.exp ((A - 1) * c) - 1 := by
    rw [sub_nonneg]; exact Real.one_le_exp (mul_nonneg (by linarith) hc)
  cases r using EReal.rec with
  | bot => rw [EReal.bot_add]; linarith
  | top => rw [EReal.top_add_coe]; linarith
  | coe r =>
    rw [← EReal.coe_add, logDelta_eq, logDelta_eq]
    have ht := tv_near r hc
    have nt : ∀ r : EReal, tvLog r ≠ ⊤ := fun r => ne_top_of_le_ne_top EReal.zero_ne_top (tvLog_le_zero r)
    by_cases h : a > 1.01
    · rw [if_pos h, if_pos h, rdpLog_coe, rdpLog_coe, mexp_min (nt _) (EReal.coe_ne_top _), mexp_min (nt _) (EReal.coe_ne_top _), mexp_coe, mexp_coe]
      set T' := mexp (tvLog ((r + c : ℝ) : EReal))
      set T := mexp (tvLog (r : EReal))
      set x := (a - 1) * (r - eps + Real.log (1 - 1 / a)) - Real.log a
      have hx : (a - 1) * (r + c - eps + Real.log (1 - 1 / a)) - Real.log a = x + (a - 1) * c := by simp only [x]; ring
      rw [hx, Real.exp_add]
      have hB := Real.exp_pos x
      have hac : Real.exp ((a - 1) * c) ≤ Real.exp ((A - 1) * c) := Real.exp_le_exp.2 (by nlinarith)
      have h1 : 1 ≤ Real.exp ((a - 1) * c) := Real.one_le_exp (mul_nonneg (by linarith) hc)
      rcases le_total (min T (Real.exp x)) 1 with hm | hm
      · rw [min_eq_left hm]
        rcases le_total T (Real.exp x) with hT | hT
        · rw [min_eq_left hT]
          exact (min_le_left _ _).trans ((min_le_left _ _).trans (by linarith))
        · rw [min_eq_right hT] at hm ⊢
          refine (min_le_left _ _).trans ((min_le_right _ _).trans ?_)
          nlinarith
      · rw [min_eq_right hm]
        exact (min_le_right _ _).trans (by linarith)
    · rw [if_neg h, if_neg h]
      rcases le_total (mexp (tvLog (r : EReal))) 1 with hm | hm
      · rw [min_eq_left hm]; exact (min_le_left _ _).trans (by linarith)
      · rw [min_eq_right hm]; exact (min_le_right _ _).trans (by linarith)

/-- `compute_delta` with values that exceed others by at most `c`. -/
lemma computeDelta_near {orders : Fin n → ℝ} {A : ℝ} (hA : ∀ i, orders i ≤ A) {rdp rdp' : Arr n} {c : ℝ} (hc : 0 ≤ c)
    (hr : ∀ i, rdp' i ≤ rdp i + (c : EReal)) {eps d o : ℝ} (h : computeDelta (List.ofFn orders) (List.ofFn rdp) eps = .ok (d, o)) :
    ∃ d' o', computeDelta (List.ofFn orders) (List.ofFn rdp') eps = .ok (d', o') ∧ d' ≤ d + (Real.sqrt c + (Real.exp ((A - 1) * c) - 1)) := by
  obtain ⟨h0, -, h1, x, hx, -, hd, -⟩ := computeDelta_ok h
  have hn : 0 < n := by
    rcases Nat.eq_zero_or_pos n with rfl | hn
    · simp at hx
    · exact hn
  have hor : ∀ i, 1 ≤ orders i := by
    intro i
    have : ((List.ofFn orders).zip (List.ofFn rdp))[(i : ℕ)]'(by simp) ∈ (List.ofFn orders).zip (List.ofFn rdp) := List.getElem_mem _
    have := h1 _ this
    simpa using this
  have total : ∀ rdp : Arr n, ∃ d o, computeDelta (List.ofFn orders) (List.ofFn rdp) eps = .ok (d, o) := by
    intro rdp
    unfold computeDelta
    rw [if_neg (not_lt.2 h0), if_neg (by simp), logDeltas_eq, if_neg]
    · simp only
      cases hl : ((List.ofFn orders).zip (List.ofFn rdp)).map fun x => logDelta x.1 x.2 eps with
      | nil =>
        have := congrArg List.length hl
        simp at this
        omega
      | cons d ds =>
        unfold argmin
        cases argmin ds with
        | none => exact ⟨_, _, rfl⟩
        | some j => dsimp only; split_ifs <;> exact ⟨_, _, rfl⟩
    · rintro ⟨y, hy, hy1⟩
      have := (List.of_mem_zip (a := y.1) (b := y.2) hy).1
      obtain ⟨i, hi⟩ := (List.mem_ofFn).1 this
      have := hor i
      rw [← hi] at hy1
      linarith
  obtain ⟨d', o', h'⟩ := total rdp'
  obtain ⟨d2, o2, h2⟩ := total fun i => rdp i + (c : EReal)
  refine ⟨d', o', h', (C79_compute_delta _ _ _ eps d' d2 o' o2 (forall₂_ofFn hr) h' h2).trans ?_⟩
  obtain ⟨-, -, -, y, -, -, hd2, hm⟩ := computeDelta_ok h2
  obtain ⟨i, hi, rfl⟩ := List.getElem_of_mem hx
  have hin : i < n := by simpa using hi
  rw [List.getElem_zip, List.getElem_ofFn, List.getElem_ofFn] at hd
  have hmi := hm (((List.ofFn orders).zip (List.ofFn fun i => rdp i + (c : EReal)))[i]'(by simpa using hin)) (List.getElem_mem _)
  rw [List.getElem_zip, List.getElem_ofFn, List.getElem_ofFn] at hmi
  rw [hd, hd2]
  refine le_trans (min_le_min (mexp_mono hmi ?_) le_rfl) (logDelta_near (hor ⟨i, hin⟩) (hA ⟨i, hin⟩) _ hc eps)
  refine ne_top_of_le_ne_top EReal.zero_ne_top (le_trans ?_ (tvLog_le_zero (rdp ⟨i, hin⟩ + (c : EReal))))
  rw [logDelta_eq]
  split_ifs
  · exact min_le_left _ _
  · exact le_rfl

lemma ereal_mul_add {k : ℝ} (hk : 0 ≤ k) (x : EReal) (c : ℝ) : (k : EReal) * (x + (c : EReal)) = (k : EReal) * x + ((k * c : ℝ) : EReal) := by
  rw [EReal.coe_mul]
  cases x using EReal.rec with
  | coe x => exact_mod_cast mul_add k x c
  | bot =>
    rcases hk.eq_or_lt with rfl | hk
    · simp
    · rw [EReal.bot_add, EReal.coe_mul_bot_of_pos hk, EReal.bot_add]
  | top =>
    rcases hk.eq_or_lt with rfl | hk
    · simp
    · rw [EReal.top_add_coe, EReal.coe_mul_top_of_pos hk, ← EReal.coe_mul, EReal.top_add_coe]

lemma constTerm_near {orders : Fin n → ℝ} (ho : ∀ i, 1 ≤ orders i) {rdp rdp' : Arr n} {c : ℝ} (hc : 0 ≤ c) (hr : ∀ i, rdp' i ≤ rdp i + (c : EReal))
    {s g : ℝ} (hs : 0 ≤ s) : constTerm orders rdp' s g ≤ constTerm orders rdp s g + (((1 + s) * c : ℝ) : EReal) := by
  unfold constTerm
  by_cases h : ∃ j, orders j = 1 ∧ rdp j = ⊤
  · rw [if_pos h, EReal.top_add_coe]; exact le_top
  have h' : ¬ ∃ j, orders j = 1 ∧ rdp' j = ⊤ := by
    rintro ⟨j, h1, h2⟩
    refine h ⟨j, h1, ?_⟩
    have := hr j
    rw [h2, top_le_iff] at this
    cases hx : rdp j using EReal.rec with
    | top => rfl
    | bot => rw [hx, EReal.bot_add] at this; simp at this
    | coe x => rw [hx, ← EReal.coe_add] at this; exact absurd this (EReal.coe_ne_top _)
  rw [if_neg h, if_neg h', ← ereal_mul_add (by linarith)]
  refine mul_le_mul_of_nonneg_left ?_ (by exact_mod_cast (by linarith : (0 : ℝ) ≤ 1 + s))
  rcases Nat.eq_zero_or_pos n with rfl | hn
  · simp
  obtain ⟨j, -, hj⟩ := Finset.exists_mem_eq_inf Finset.univ ⟨(⟨0, hn⟩ : Fin n), Finset.mem_univ _⟩
    fun j => ((1 - 1 / orders j : ℝ) : EReal) * rdp j - ((Real.log g / orders j : ℝ) : EReal)
  rw [hj]
  refine (Finset.inf_le (Finset.mem_univ j)).trans ?_
  have hoj := ho j
  have h1 : 0 ≤ 1 - 1 / orders j := by
    have : 1 / orders j ≤ 1 := by rw [div_le_one (by linarith)]; exact hoj
    linarith
  have h2 : 1 - 1 / orders j ≤ 1 := by have : 0 < 1 / orders j := by positivity
                                       linarith
  have h3 := mul_le_mul_of_nonneg_left (hr j) (by exact_mod_cast h1 : (0 : EReal) ≤ ((1 - 1 / orders j : ℝ) : EReal))
  rw [ereal_mul_add h1] at h3
  have h4 : (((1 - 1 / orders j) * c : ℝ) : EReal) ≤ (c : EReal) := by exact_mod_cast mul_le_of_le_one_left hc h2
  have h5 := h3.trans (add_le_add_right h4 _)
  refine (EReal.sub_le_sub h5 le_rfl).trans (le_of_eq ?_)
  generalize ((1 - 1 / orders j : ℝ) : EReal) * rdp j = X
  generalize ((Real.log g / orders j : ℝ) : EReal) = Y
  rw [sub_eq_add_neg, sub_eq_add_neg, add_right_comm]

/-- Repetition and selection with values that exceed others by at most `c`. -/
lemma ras_near {orders : Fin n → ℝ} (ho : ∀ i, 1 ≤ orders i) {A : ℝ} (hA : ∀ i, orders i ≤ A) {rdp rdp' a : Arr n} {mean shape : PyNum} {c : ℝ} (hc : 0 ≤ c)
    (hr : ∀ i, rdp' i ≤ rdp i + (c : EReal)) (h : repeatAndSelect orders rdp mean shape = .ok a) :
    ∃ a', repeatAndSelect orders rdp' mean shape = .ok a' ∧ ∀ i, a' i ≤ a i + (selectError A mean shape c : EReal) := by
  have h0 := h
  unfold repeatAndSelect at h ⊢
  by_cases hsh : shape.val < 0
  · rw [if_pos hsh] at h; simp at h
  by_cases hm1 : mean.val < 1
  · rw [if_neg hsh, if_pos hm1] at h; simp at h
  rw [if_neg hsh, if_neg hm1] at h ⊢
  cases hs : shape.real? with
  | none =>
    have hst : shape.val = ⊤ := by cases shape <;> simp [PyNum.real?, PyNum.val] at hs ⊢
    rw [hs] at h
    simp only at h ⊢
    have h3 := collect_ok h
    have hone : ∀ i, ∃ y, poissonEntry orders rdp' mean i = .ok y ∧ y ≤ a i + (selectError A mean shape c : EReal) := by
      intro i
      have h3 := h3 i
      unfold poissonEntry at h3 ⊢
      by_cases c1 : orders i ≤ 1
      · rw [if_pos c1, Except.ok.injEq] at h3
        rw [if_pos c1, ← h3, EReal.top_add_coe]
        exact ⟨_, rfl, le_top⟩
      rw [if_neg c1] at h3 ⊢
      cases hd : computeDelta (List.ofFn orders) (List.ofFn rdp) (Real.log (1 + 1 / (orders i - 1))) with
      | error e => rw [hd] at h3; simp at h3
      | ok da =>
        obtain ⟨d, x⟩ := da
        obtain ⟨d', o', hd', hdd⟩ := computeDelta_near hA hc hr hd
        rw [hd] at h3
        rw [hd']
        simp only at h3 ⊢
        cases hm : mean.real? with
        | none =>
          rw [hm] at h3
          simp only [Except.ok.injEq] at h3 ⊢
          rw [← h3, EReal.top_add_coe]
          exact ⟨_, rfl, le_top⟩
        | some m =>
          rw [hm] at h3
          simp only [Except.ok.injEq] at h3 ⊢
          refine ⟨_, rfl, ?_⟩
          have hmv := RepeatSelect.val_real hm
          have hm0 : 0 ≤ m := by
            rw [hmv, not_lt] at hm1
            have : (1 : ℝ) ≤ m := by exact_mod_cast hm1
            linarith
          rw [← h3, selectError, if_pos hst, hmv, EReal.toReal_coe]
          have k1 : ((m * d' : ℝ) : EReal) ≤ ((m * d + m * (Real.sqrt c + (Real.exp ((A - 1) * c) - 1)) : ℝ) : EReal) := by
            rw [← mul_add]; exact_mod_cast mul_le_mul_of_nonneg_left hdd hm0
          refine (add_le_add (add_le_add (hr i) k1) le_rfl).trans (le_of_eq ?_)
          push_cast
          abel
    choose a' ha' hle using hone
    exact ⟨a', collect_of_ok ha', hle⟩
  | some s =>
    have hsv := RepeatSelect.val_real hs
    have hs0 : 0 ≤ s := by rw [hsv, not_lt] at hsh; exact_mod_cast hsh
    rw [hs] at h
    simp only at h ⊢
    cases hg : gammaTnb s mean with
    | error e => rw [hg] at h; simp at h
    | ok g =>
      rw [hg] at h
      simp only at h ⊢
      by_cases hg0 : g ≤ 0
      · rw [if_pos hg0] at h; simp at h
      by_cases hn : n = 0
      · rw [if_neg hg0, if_pos hn] at h; simp at h
      rw [if_neg hg0, if_neg hn] at h ⊢
      cases hm : mean.real? with
      | none => rw [hm] at h; simp at h
      | some m =>
        simp only
        have hb : repeatAndSelect orders rdp' mean shape = .ok (monotonise orders (perOrder orders rdp' m (constTerm orders rdp' s g))) := by
          unfold repeatAndSelect
          rw [if_neg hsh, if_neg hm1, hs]
          simp only
          rw [hg]
          simp only
          rw [if_neg hg0, if_neg hn, hm]
        refine ⟨_, rfl, fun i => ?_⟩
        obtain ⟨g1, m1, e1, e2, hl, -⟩ := C44_monotone orders rdp a mean shape s hs h0
        obtain ⟨g2, m2, e3, e4, hl', -⟩ := C44_monotone orders rdp' _ mean shape s hs hb
        obtain rfl : g = g1 := by rw [hg] at e1; exact Except.ok.inj e1
        obtain rfl : g = g2 := by rw [hg] at e3; exact Except.ok.inj e3
        obtain rfl : m = m1 := by rw [hm] at e2; exact Option.some.inj e2
        obtain rfl : m = m2 := by rw [hm] at e4; exact Option.some.inj e4
        obtain ⟨j, hj, he⟩ := (hl i).1
        refine ((hl' i).2 ⟨j, hj, rfl⟩).trans ?_
        have e : selectError A mean shape c = (2 + s) * c := by
          rw [selectError, if_neg (by rw [hsv]; exact EReal.coe_ne_top _), hsv, EReal.toReal_coe]
        rw [he, e]
        split_ifs
        · refine (add_le_add (add_le_add (hr j) le_rfl) (constTerm_near ho hc hr hs0)).trans (le_of_eq ?_)
          have : ((2 + s) * c) = c + (1 + s) * c := by ring
          rw [this, EReal.coe_add]
          abel
        · rw [EReal.top_add_coe]

lemma selectError_nonneg {A c : ℝ} (hA : 1 ≤ A) (hc : 0 ≤ c) {mean shape : PyNum} (hm : 0 ≤ mean.val) (hs : 0 ≤ shape.val) :
    0 ≤ selectError A mean shape c := by
  unfold selectError
  split_ifs
  · have := Real.one_le_exp (mul_nonneg (by linarith : 0 ≤ A - 1) hc)
    have := EReal.toReal_nonneg hm
    have := Real.sqrt_nonneg c
    have : 0 ≤ mean.val.toReal * (Real.sqrt c + (Real.exp ((A - 1) * c) - 1)) := mul_nonneg (by assumption) (by linarith)
    linarith
  · have := EReal.toReal_nonneg hs
    exact mul_nonneg (by linarith) hc

lemma hiddenBy_ras (A η : ℝ) (e : DpEvent) (mean shape : PyNum) :
    hiddenBy A η (.repeatAndSelect e mean shape) = selectError A mean shape (((expand e).map (hiddenBy A η)).sum) := by
  rw [hiddenBy, List.attach_map_val]

/-- The converse of `ras_curve`. -/
lemma ras_ok {F : RdpFns n} {nr : NeighborRel} {e : DpEvent} (hw : WfCounts e) {mean shape : PyNum}
    (hin : ∀ a ∈ expand e, RdpAccountant.Ok F nr a) {out : Arr n}
    (h : F.repeatAndSelect (fun j => ((expand e).map fun a => RdpAccountant.curve F nr a j).sum) mean shape = .ok out) :
    RdpAccountant.Ok F nr (.repeatAndSelect e mean shape) ∧ RdpAccountant.curve F nr (.repeatAndSelect e mean shape) = out := by
  unfold RdpAccountant.Ok
  have hspec := RdpAccountant.real_spec F nr e hw 1 le_rfl (fun _ => 0)
  have hokc := (RdpAccountant.real_ok F nr e hw 1 le_rfl (fun _ => 0)).2 hin
  have hi : (RdpAccountant.maybeCompose F nr e 1 true fun _ => 0).1 = fun j => ((expand e).map fun a => RdpAccountant.curve F nr a j).sum := by
    funext j
    have := congrFun (hspec hokc) j
    simp only [Int.toNat_one, one_smul, Pi.add_apply, zero_add] at this
    rw [this, sum_apply]
  have hr : RdpAccountant.maybeCompose F nr e 1 true (fun _ => 0) = (fun j => ((expand e).map fun a => RdpAccountant.curve F nr a j).sum, .ok none) :=
    Prod.ext hi hokc
  constructor
  · simp only [RdpAccountant.maybeCompose, if_true]
    rw [hr]
    simp only
    rw [h]
  · conv_lhs => unfold RdpAccountant.curve
    simp only [RdpAccountant.maybeCompose, if_true]
    rw [hr]
    simp only
    rw [h]
    funext i
    simp

lemma sum_near {ι : Type*} (L : List ι) {f g : ι → EReal} {c : ι → ℝ} (h : ∀ a ∈ L, f a ≤ g a + (c a : EReal)) :
    (L.map f).sum ≤ (L.map g).sum + ((L.map c).sum : EReal) := by
  induction L with
  | nil => simp
  | cons a L ih =>
    rw [List.map_cons, List.sum_cons, List.map_cons, List.sum_cons, List.map_cons, List.sum_cons, EReal.coe_add]
    refine (add_le_add (h a (by simp)) (ih fun b hb => h b (List.mem_cons_of_mem _ hb))).trans (le_of_eq ?_)
    exact add_add_add_comm _ _ _ _

/-- One elementary event, of any kind. -/
lemma atom_near_all {orders : Fin n → ℝ} (ho : ∀ i, 1 ≤ orders i) {A η : ℝ} (hA1 : 1 ≤ A) (hA : ∀ i, orders i ≤ A) (hη : 0 ≤ η)
    (hs : ∀ i, orderSlack (orders i) ≤ η) (nr : NeighborRel) : ∀ k (e : DpEvent), sizeOf e < k → RdpAccountant.Elementary e → WfCounts e →
      RdpAccountant.Ok (libFns orders logAFrac) nr e → 0 ≤ hiddenBy A η e ∧ RdpAccountant.Ok (libFns orders logAFracSafe) nr e ∧
      ∀ i, RdpAccountant.curve (libFns orders logAFracSafe) nr e i ≤
        RdpAccountant.curve (libFns orders logAFrac) nr e i + (hiddenBy A η e : EReal) := by
  intro k
  induction k with
  | zero => intro e h; omega
  | succ k ih =>
    intro e hk hel hw hok
    by_cases hrep : ∃ e' m s, e = .repeatAndSelect e' m s
    · obtain ⟨e', m, s, rfl⟩ := hrep
      have hw' : WfCounts e' := by simpa [WfCounts] using hw
      obtain ⟨hin, out, hout, hcur⟩ := ras_curve hw' hok
      have hmem : ∀ a ∈ expand e', 0 ≤ hiddenBy A η a ∧ RdpAccountant.Ok (libFns orders logAFracSafe) nr a ∧
          ∀ i, RdpAccountant.curve (libFns orders logAFracSafe) nr a i ≤
            RdpAccountant.curve (libFns orders logAFrac) nr a i + (hiddenBy A η a : EReal) := fun a ha =>
        ih a (by have := expand_size e' a ha
                 simp at hk; omega) (RdpAccountant.elementary_of_mem _ _ ha) (wfCounts_mem hw' ha) (hin a ha)
      have hc : 0 ≤ ((expand e').map (hiddenBy A η)).sum := List.sum_nonneg (by
        intro x hx
        obtain ⟨a, ha, rfl⟩ := List.mem_map.1 hx
        exact (hmem a ha).1)
      obtain ⟨out', hout', hle⟩ := ras_near ho hA hc (rdp' := fun j => ((expand e').map fun a => RdpAccountant.curve (libFns orders logAFracSafe) nr a j).sum)
        (fun i => sum_near (expand e') fun a ha => (hmem a ha).2.2 i) hout
      obtain ⟨k1, k2⟩ := ras_ok (F := libFns orders logAFracSafe) hw' (fun a ha => (hmem a ha).2.1) hout'
      rw [hiddenBy_ras, hcur, k2]
      refine ⟨?_, k1, hle⟩
      have hms : ¬ s.val < 0 ∧ ¬ m.val < 1 := by
        constructor <;> intro hlt
        · simp [libFns, fns, repeatAndSelect, hlt] at hout
        · by_cases h2 : s.val < 0 <;> simp [libFns, fns, repeatAndSelect, hlt, h2] at hout
      exact selectError_nonneg hA1 hc (zero_le_one.trans (not_lt.1 hms.2)) (not_lt.1 hms.1)
    · have hrep' : ∀ e' m s, e ≠ .repeatAndSelect e' m s := fun e' m s h => hrep ⟨e', m, s, h⟩
      obtain ⟨h1, h2⟩ := atom_near ho nr hel hrep' hok
      have h3 : ∀ i, poissonEvents [e] * orderSlack (orders i) ≤ hiddenBy A η e ∧ 0 ≤ hiddenBy A η e := by
        intro i
        have := hs i
        cases e with
        | repeatAndSelect e' m s => exact absurd rfl (hrep' e' m s)
        | poissonSampled q e => simpa [hiddenBy, poissonEvents] using ⟨this, hη⟩
        | _ => simp [hiddenBy, poissonEvents]
      have h4 : 0 ≤ hiddenBy A η e := by
        cases e with
        | repeatAndSelect e' m s => exact absurd rfl (hrep' e' m s)
        | poissonSampled q e => simpa [hiddenBy] using hη
        | _ => simp [hiddenBy]
      exact ⟨h4, h1, fun i => (h2 i).trans (add_le_add_right (by exact_mod_cast (h3 i).1) _)⟩

end Verif.Props
