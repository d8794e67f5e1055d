import Verif.Proofs.MixtureLaw

/-! # Mixtures of Gaussians: the inverse of the privacy loss -/

namespace Verif.Mixture
open Verif Spec Pld MeasureTheory ProbabilityTheory Mech

/-- Writing back through a mask restores the order. -/
lemma scatter_forall₂ {α β : Type} {R : α → β → Prop} {P : α → Prop} [DecidablePred P] {l : List α} {A B : List β}
    (hA : List.Forall₂ R (l.filter fun x => decide (P x)) A) (hB : List.Forall₂ R (l.filter fun x => decide (¬ P x)) B) :
    List.Forall₂ R l (Obj.scatter (l.map fun x => decide (P x)) A B) := by
  induction l generalizing A B with
  | nil =>
    simp only [List.map_nil]
    cases A <;> cases B <;> exact List.Forall₂.nil
  | cons x l ih =>
    by_cases hx : P x
    · rw [List.filter_cons_of_pos (by simpa using hx)] at hA
      rw [List.filter_cons_of_neg (by simpa using hx)] at hB
      obtain ⟨a, A', ha, hA', rfl⟩ := List.forall₂_cons_left_iff.1 hA
      simp only [List.map_cons, hx, decide_true]
      rw [Obj.scatter]
      exact List.Forall₂.cons ha (ih hA' hB)
    · rw [List.filter_cons_of_neg (by simpa using hx)] at hA
      rw [List.filter_cons_of_pos (by simpa using hx)] at hB
      obtain ⟨b, B', hb, hB', rfl⟩ := List.forall₂_cons_left_iff.1 hB
      simp only [List.map_cons, hx, decide_false]
      rw [Obj.scatter]
      exact List.Forall₂.cons hb (ih hA hB')

namespace Obj
variable {m : Obj}

/-- The bisection: it ends, and where the exact inverse is in the interval its result is within the precision, on either side. -/
lemma inverseRange_spec (h : m.Good) {p : ℝ} (hp : 0 < p) (fuel : ℕ) (losses : List ℝ) (lo hi : ℝ) (hf : hi - lo ≤ p * 2 ^ fuel) :
    ∃ out, m.inverseRange p fuel losses lo hi = some out ∧ List.Forall₂ (fun l x => x ≤ hi ∧ ∀ z, m.privacyLoss z = l →
      (z ≤ hi → z - p ≤ x) ∧ (lo ≤ z → x ≤ z + p)) losses out := by
  classical
  induction fuel generalizing losses lo hi with
  | zero =>
    unfold inverseRange
    by_cases hl : losses = []
    · exact ⟨[], by rw [if_pos hl], by rw [hl]; exact List.Forall₂.nil⟩
    · rw [if_neg hl, if_pos (by simpa using hf)]
      refine ⟨_, rfl, ?_⟩
      rw [List.forall₂_map_right_iff, List.forall₂_same]
      intro l _
      have h1 : (⌊hi / p⌋ : ℝ) * p ≤ hi := by
        have := mul_le_mul_of_nonneg_right (Int.floor_le (hi / p)) hp.le
        rwa [div_mul_cancel₀ _ hp.ne'] at this
      have h2 : hi < (⌊hi / p⌋ : ℝ) * p + p := by
        have := mul_lt_mul_of_pos_right (Int.lt_floor_add_one (hi / p)) hp
        rw [div_mul_cancel₀ _ hp.ne'] at this
        linarith
      rw [pow_zero] at hf
      exact ⟨h1, fun z _ => ⟨fun _ => by linarith, fun _ => by linarith⟩⟩
  | succ fuel ih =>
    unfold inverseRange
    by_cases hl : losses = []
    · exact ⟨[], by rw [if_pos hl], by rw [hl]; exact List.Forall₂.nil⟩
    rw [if_neg hl]
    by_cases hs : hi - lo ≤ p
    · rw [if_pos hs]
      refine ⟨_, rfl, ?_⟩
      rw [List.forall₂_map_right_iff, List.forall₂_same]
      intro l _
      have h1 : (⌊hi / p⌋ : ℝ) * p ≤ hi := by
        have := mul_le_mul_of_nonneg_right (Int.floor_le (hi / p)) hp.le
        rwa [div_mul_cancel₀ _ hp.ne'] at this
      have h2 : hi < (⌊hi / p⌋ : ℝ) * p + p := by
        have := mul_lt_mul_of_pos_right (Int.lt_floor_add_one (hi / p)) hp
        rw [div_mul_cancel₀ _ hp.ne'] at this
        linarith
      exact ⟨h1, fun z _ => ⟨fun _ => by linarith, fun _ => by linarith⟩⟩
    · rw [if_neg hs]
      push Not at hs
      rw [pow_succ] at hf
      obtain ⟨A, hA, rA⟩ := ih (losses.filter fun l => l < m.privacyLoss ((lo + hi) / 2)) ((lo + hi) / 2) hi (by linarith)
      obtain ⟨B, hB, rB⟩ := ih (losses.filter fun l => ¬ l < m.privacyLoss ((lo + hi) / 2)) lo ((lo + hi) / 2) (by linarith)
      refine ⟨_, by
        show (m.inverseRange p fuel _ _ _ >>= fun lower => m.inverseRange p fuel _ _ _ >>= fun higher => some _) = _
        rw [hA]
        show (m.inverseRange p fuel _ _ _ >>= fun higher => some _) = _
        rw [hB]
        rfl, ?_⟩
      refine scatter_forall₂ (P := fun l => l < m.privacyLoss ((lo + hi) / 2)) ?_ ?_
      · rw [List.forall₂_iff_get] at rA ⊢
        refine ⟨rA.1, fun i h1 h2 => ?_⟩
        obtain ⟨k1, k2⟩ := rA.2 i h1 h2
        refine ⟨k1, fun z hz => ⟨(k2 z hz).1, fun _ => (k2 z hz).2 ?_⟩⟩
        have hm := List.get_mem (losses.filter fun l => decide (l < m.privacyLoss ((lo + hi) / 2))) ⟨i, h1⟩
        have hlt := of_decide_eq_true (List.mem_filter.1 hm).2
        rw [← hz] at hlt
        exact ((privacyLoss_strictAnti h).lt_iff_gt.1 hlt).le
      · rw [List.forall₂_iff_get] at rB ⊢
        refine ⟨rB.1, fun i h1 h2 => ?_⟩
        obtain ⟨k1, k2⟩ := rB.2 i h1 h2
        refine ⟨by linarith, fun z hz => ⟨fun _ => (k2 z hz).1 ?_, (k2 z hz).2⟩⟩
        have hm := List.get_mem (losses.filter fun l => decide (¬ l < m.privacyLoss ((lo + hi) / 2))) ⟨i, h1⟩
        have hlt := not_lt.1 (of_decide_eq_true (List.mem_filter.1 hm).2)
        rw [← hz] at hlt
        exact (privacyLoss_strictAnti h).le_iff_ge.1 hlt

lemma depth_ok {p lo hi : ℝ} (hp : 0 < p) : hi - lo ≤ p * 2 ^ depth p lo hi := by
  have h1 : (hi - lo) / p ≤ depth p lo hi := Nat.le_ceil _
  have h2 : (depth p lo hi : ℝ) ≤ 2 ^ depth p lo hi := by
    exact_mod_cast (Nat.lt_two_pow_self).le
  rw [div_le_iff₀ hp] at h1
  nlinarith

/-! ### Candidate bounds -/

/-- `x` from the argument of the ratio. -/
noncomputable def back (m : Obj) (y : ℝ) : ℝ := match m.adj with | .add => y | .remove => -y

lemma inverseSingle_eq (h : m.Good) {l s : ℝ} (hs : 0 < s) (hl : 1 - m.q < m.tOf l) :
    ∃ a : EReal, m.withoutSampling l = .ok a ∧ m.inverseSingle a.toReal s = m.back (m.yOf s (m.tOf l)) := by
  have q0 := q_pos h
  have key : ∀ t, 1 - m.q < t → 0 < 1 / m.q * t + (1 - 1 / m.q) ∧ 1 / m.q * t + (1 - 1 / m.q) = (t - (1 - m.q)) / m.q := fun t ht => by
    have e : 1 / m.q * t + (1 - 1 / m.q) = (t - (1 - m.q)) / m.q := by field_simp; ring
    exact ⟨e ▸ div_pos (by linarith) q0, e⟩
  unfold withoutSampling inverseSingle back yOf tOf at *
  cases hadj : m.adj
  · simp only [hadj] at hl ⊢
    obtain ⟨k1, k2⟩ := key _ hl
    rw [logAExpBC_real _ _ _ k1, k2]
    refine ⟨_, rfl, ?_⟩
    beta_reduce
    rw [← EReal.coe_neg, EReal.toReal_coe]
    ring
  · simp only [hadj] at hl ⊢
    rw [neg_neg]
    obtain ⟨k1, k2⟩ := key _ hl
    rw [logAExpBC_real _ _ _ k1, k2]
    refine ⟨_, rfl, ?_⟩
    beta_reduce
    rw [← EReal.coe_neg, ← EReal.coe_neg, EReal.toReal_coe]
    ring

lemma candidates_eq (h : m.Good) {a b : ℝ} (ha : 1 - m.q < m.tOf a) (hb : 1 - m.q < m.tOf b) :
    m.candidates a b = .ok [m.back (m.yOf m.minSens (m.tOf a)), m.back (m.yOf m.maxSens (m.tOf a)),
      m.back (m.yOf m.minSens (m.tOf b)), m.back (m.yOf m.maxSens (m.tOf b))] := by
  obtain ⟨x, hx, e1⟩ := inverseSingle_eq h (minSens_pos h) ha
  obtain ⟨x', hx', e2⟩ := inverseSingle_eq h (maxSens_pos h) ha
  obtain ⟨y, hy, e3⟩ := inverseSingle_eq h (minSens_pos h) hb
  obtain ⟨y', hy', e4⟩ := inverseSingle_eq h (maxSens_pos h) hb
  have : x = x' := by rw [hx] at hx'; injection hx'
  subst this
  have : y = y' := by rw [hy] at hy'; injection hy'
  subst this
  unfold candidates
  rw [hx, hy, ← e1, ← e2, ← e3, ← e4]
  rfl

/-! ### The limit of the loss -/

/-- `l` is a value of the privacy loss. -/
def InRange (m : Obj) (l : ℝ) : Prop := 1 - m.q < m.tOf l

lemma inverted_iff (h : m.Good) (l : ℝ) : m.Inverted l ↔ m.InRange l := by
  have q0 := q_pos h
  unfold Inverted limit InRange tOf
  by_cases hq : m.q < 1
  · have h1 : (0 : ℝ) < 1 + -m.q := by linarith
    rw [if_pos hq]
    cases m.adj
    · simp only []
      rw [lt_neg, ← Real.log_exp (-l), Real.log_lt_log_iff h1 (Real.exp_pos _), ← sub_eq_add_neg, Real.log_exp]
    · simp only [gt_iff_lt]
      conv_lhs => rw [← Real.log_exp l]
      rw [Real.log_lt_log_iff h1 (Real.exp_pos _), ← sub_eq_add_neg]
  · have : m.q = 1 := le_antisymm (q_le_one m) (not_lt.1 hq)
    rw [if_neg hq, this, sub_self]
    cases m.adj <;> simp only [true_iff] <;> exact Real.exp_pos _

lemma exists_inverse (h : m.Good) {l : ℝ} (hl : m.InRange l) : ∃ z, m.privacyLoss z = l := by
  obtain ⟨y, hy⟩ := exists_ratio h hl
  refine ⟨m.back y, ?_⟩
  rw [privacyLoss_iff h, ← hy]
  congr 1
  unfold arg back
  cases m.adj
  · rfl
  · simp

lemma inRange_of_loss (h : m.Good) (z : ℝ) : m.InRange (m.privacyLoss z) := by
  unfold InRange
  rw [← (privacyLoss_iff h z _).1 rfl]
  exact ratio_gt h _

/-! ### Which losses the candidate bounds cover -/

/-- A condition under which the interval contains the exact inverses. `F` are the losses to be inverted. -/
def Covered (m : Obj) (F : List ℝ) : Prop :=
  match m.adj with
  | .add => (∃ l ∈ F, m.privacyLoss m.minSens ≤ l) ∨ ∀ l ∈ F, l ≤ m.privacyLoss m.maxSens
  | .remove => (∃ l ∈ F, l ≤ m.privacyLoss (-m.minSens)) ∨ ∀ l ∈ F, m.privacyLoss (-m.maxSens) ≤ l

lemma arg_back (m : Obj) (y : ℝ) : m.arg (m.back y) = y := by unfold arg back; cases m.adj <;> simp

lemma back_arg (m : Obj) (x : ℝ) : m.back (m.arg x) = x := by unfold arg back; cases m.adj <;> simp

/-- One side of the interval. -/
lemma outer (h : m.Good) {a b : ℝ} {z : ℝ} (hza : a ≤ m.privacyLoss z) (hzb : m.privacyLoss z ≤ b) :
    match m.adj with
    | .add => z ≤ max (m.back (m.yOf m.minSens (m.tOf a))) (m.back (m.yOf m.maxSens (m.tOf a)))
    | .remove => min (m.back (m.yOf m.minSens (m.tOf b))) (m.back (m.yOf m.maxSens (m.tOf b))) ≤ z := by
  have hz := (privacyLoss_iff h z _).1 rfl
  have hr := inRange_of_loss h z
  have k := y_le h hz
  unfold InRange arg back tOf at *
  cases hadj : m.adj
  · simp only [hadj] at *
    refine k.trans (max_le_max ?_ ?_)
    · exact yOf_mono h (minSens_pos h) hr (Real.exp_le_exp.2 (by linarith))
    · exact yOf_mono h (maxSens_pos h) hr (Real.exp_le_exp.2 (by linarith))
  · simp only [hadj] at *
    rw [min_neg_neg, neg_le]
    refine k.trans (max_le_max ?_ ?_)
    · exact yOf_mono h (minSens_pos h) hr (Real.exp_le_exp.2 hzb)
    · exact yOf_mono h (maxSens_pos h) hr (Real.exp_le_exp.2 hzb)

/-- The other side, if covered. -/
lemma inner (h : m.Good) {F : List ℝ} (hF : ∀ l ∈ F, m.InRange l) (hc : m.Covered F) {z : ℝ} (hz : m.privacyLoss z ∈ F) :
    match m.adj with
    | .add => min (m.back (m.yOf m.minSens (m.tOf (listMax F)))) (m.back (m.yOf m.maxSens (m.tOf (listMax F)))) ≤ z
    | .remove => z ≤ max (m.back (m.yOf m.minSens (m.tOf (listMin F)))) (m.back (m.yOf m.maxSens (m.tOf (listMin F)))) := by
  have hne : F ≠ [] := List.ne_nil_of_mem hz
  have anti := privacyLoss_strictAnti h
  unfold Covered at hc
  cases hadj : m.adj
  · simp only [hadj] at hc ⊢
    obtain ⟨h1, h2⟩ := listMax_spec hne
    obtain ⟨w, hw⟩ := exists_inverse h (hF _ h1)
    have hwz : w ≤ z := by
      have := h2 _ hz
      rw [← hw] at this
      exact anti.le_iff_ge.1 this
    have hr := (privacyLoss_iff h w _).1 hw
    refine le_trans ?_ hwz
    unfold arg back at *
    simp only [hadj] at *
    rcases hc with ⟨l, hl, hl'⟩ | hc
    · refine min_le_of_left_le (le_y_of_le_min h hr ?_)
      have := hl'.trans (h2 l hl)
      rw [← hw] at this
      exact anti.le_iff_ge.1 this
    · refine min_le_of_right_le (le_y_of_max_le h hr ?_)
      have := hc _ h1
      rw [← hw] at this
      exact anti.le_iff_ge.1 this
  · simp only [hadj] at hc ⊢
    obtain ⟨h1, h2⟩ := listMin_spec hne
    obtain ⟨w, hw⟩ := exists_inverse h (hF _ h1)
    have hwz : z ≤ w := by
      have := h2 _ hz
      rw [← hw] at this
      exact anti.le_iff_ge.1 this
    have hr := (privacyLoss_iff h w _).1 hw
    refine hwz.trans ?_
    unfold arg back at *
    simp only [hadj] at *
    rcases hc with ⟨l, hl, hl'⟩ | hc
    · refine le_max_of_le_left (le_neg_of_le_neg (le_y_of_le_min h hr ?_))
      have := (h2 l hl).trans hl'
      rw [← hw] at this
      have := anti.le_iff_ge.1 this
      linarith
    · refine le_max_of_le_right (le_neg_of_le_neg (le_y_of_max_le h hr ?_))
      have := hc _ h1
      rw [← hw] at this
      have := anti.le_iff_ge.1 this
      linarith

/-- Smallest and largest loss that enter the candidate bounds, lines 2284-2307. -/
noncomputable def lowPl (m : Obj) (losses fin : List ℝ) : ℝ := match m.adj with | .add => losses.headD 0 | .remove => listMin fin
@[inherit_doc lowPl]
noncomputable def highPl (m : Obj) (losses fin : List ℝ) : ℝ := match m.adj with | .add => listMax fin | .remove => losses.getLastD 0

lemma head_le {l : List ℝ} (hs : l.Pairwise (· ≤ ·)) {x : ℝ} (hx : x ∈ l) : l.headD 0 ≤ x ∧ l.headD 0 ∈ l := by
  obtain ⟨a, l, rfl⟩ := List.exists_cons_of_ne_nil (List.ne_nil_of_mem hx)
  refine ⟨?_, by simp⟩
  rcases List.mem_cons.1 hx with rfl | hx
  · exact le_rfl
  · exact (List.pairwise_cons.1 hs).1 x hx

lemma le_last {l : List ℝ} (hs : l.Pairwise (· ≤ ·)) {x : ℝ} (hx : x ∈ l) : x ≤ l.getLastD 0 ∧ l.getLastD 0 ∈ l := by
  induction l generalizing x with
  | nil => simp at hx
  | cons a l ih =>
    cases l with
    | nil =>
      rw [List.mem_singleton] at hx
      simp [hx]
    | cons b l =>
      have hb := fun {x} hx => ih (x := x) (List.pairwise_cons.1 hs).2 hx
      show x ≤ (b :: l).getLastD 0 ∧ (b :: l).getLastD 0 ∈ _
      have hbm := (hb (x := b) (by simp)).2
      refine ⟨?_, List.mem_cons_of_mem _ hbm⟩
      rcases List.mem_cons.1 hx with rfl | hx
      · exact (List.pairwise_cons.1 hs).1 _ hbm
      · exact (hb hx).1

open Classical in
/-- `inverse_privacy_losses` on values of the loss. -/
lemma inverseLosses_spec (h : m.Good) {p : ℝ} (hp : 0 < p) {losses fin : List ℝ} (hs : losses.Pairwise (· ≤ ·))
    (hin : ∀ l ∈ losses, m.InRange l) (hfin : fin = losses.filter fun l => m.Finite l) (hne : fin ≠ []) :
    ∃ out c, m.inverseLosses losses p = .ok out ∧ m.candidates (m.lowPl losses fin) (m.highPl losses fin) = .ok c ∧
      List.Forall₂ (fun l x => (m.Finite l → ∃ r : ℝ, x = (r : EReal) ∧ r ≤ (⌈listMax c / p⌉ : ℝ) * p ∧
        (∀ z, m.privacyLoss z = l → (z ≤ listMax c → z - p ≤ r) ∧ (listMin c ≤ z → r ≤ z + p)) ∧
        (m.Covered fin → ∀ z, m.privacyLoss z = l → |r - z| ≤ p)) ∧ (¬ m.Finite l → x = m.infinite)) losses out := by
  obtain ⟨l0, hl0⟩ := List.exists_mem_of_ne_nil _ hne
  have hsub : ∀ l ∈ fin, l ∈ losses ∧ m.Finite l := fun l hl => by
    rw [hfin] at hl
    exact ⟨(List.mem_filter.1 hl).1, of_decide_eq_true (List.mem_filter.1 hl).2⟩
  have hl0' := (hsub l0 hl0).1
  obtain ⟨hh1, hh2⟩ := head_le hs hl0'
  obtain ⟨ht1, ht2⟩ := le_last hs hl0'
  have hlow : m.InRange (m.lowPl losses fin) := by
    unfold lowPl
    cases m.adj
    · exact hin _ hh2
    · exact hin _ (hsub _ (listMin_spec hne).1).1
  have hhigh : m.InRange (m.highPl losses fin) := by
    unfold highPl
    cases m.adj
    · exact hin _ (hsub _ (listMax_spec hne).1).1
    · exact hin _ ht2
  have hbet : ∀ l ∈ fin, m.lowPl losses fin ≤ l ∧ l ≤ m.highPl losses fin := fun l hl => by
    unfold lowPl highPl
    cases m.adj
    · exact ⟨(head_le hs (hsub l hl).1).1, (listMax_spec hne).2 l hl⟩
    · exact ⟨(listMin_spec hne).2 l hl, (le_last hs (hsub l hl).1).1⟩
  have hcand := candidates_eq h hlow hhigh
  obtain ⟨c, hc⟩ : ∃ c, m.candidates (m.lowPl losses fin) (m.highPl losses fin) = .ok c := ⟨_, hcand⟩
  have hcval := Except.ok.inj (hc.symm.trans hcand)
  have hcne : c ≠ [] := by rw [hcval]; simp
  set lo := (⌊listMin c / p⌋ : ℝ) * p with hlo
  set hi := (⌈listMax c / p⌉ : ℝ) * p with hhi
  have hlo' : lo ≤ listMin c := by
    have := mul_le_mul_of_nonneg_right (Int.floor_le (listMin c / p)) hp.le
    rwa [div_mul_cancel₀ _ hp.ne'] at this
  have hhi' : listMax c ≤ hi := by
    have := mul_le_mul_of_nonneg_right (Int.le_ceil (listMax c / p)) hp.le
    rwa [div_mul_cancel₀ _ hp.ne'] at this
  obtain ⟨out, ho, hr⟩ := inverseRange_spec h hp (depth p lo hi) fin lo hi (depth_ok hp)
  have hor : ¬ m.OutOfRange losses := by
    have i1 := (inverted_iff h _).2 (hin _ hh2)
    have i2 := (inverted_iff h _).2 (hin _ ht2)
    unfold OutOfRange
    unfold Inverted at i1 i2
    cases hlim : m.limit with
    | none => simp
    | some L =>
      cases hadj : m.adj
      · simp only [hadj, hlim, not_lt] at i2 ⊢
        exact i2.le
      · simp only [hadj, hlim, not_le] at i1 ⊢
        exact i1
  refine ⟨scatter (losses.map fun l => decide (m.Finite l)) (out.map fun x : ℝ => (x : EReal))
          ((losses.filter fun l => ¬ m.Finite l).map fun _ => m.infinite), c, ?_, hc, ?_⟩
  · unfold inverseLosses
    rw [if_neg (not_not.2 hs), if_neg (List.ne_nil_of_mem hl0'), if_neg hor]
    simp only [← hfin]
    rw [if_neg hne]
    change (m.candidates (m.lowPl losses fin) (m.highPl losses fin) >>= _) = _
    rw [hc]
    change (match m.inverseRange p (depth p lo hi) fin lo hi with
      | none => Except.error Err.notImplementedError
      | some out => Except.ok _) = _
    rw [ho]
  · refine scatter_forall₂ (P := fun l => m.Finite l) ?_ ?_
    · rw [← hfin, List.forall₂_map_right_iff, List.forall₂_iff_get]
      rw [List.forall₂_iff_get] at hr
      refine ⟨hr.1, fun i h1 h2 => ?_⟩
      obtain ⟨k1, k2⟩ := hr.2 i h1 h2
      have hmem := List.get_mem fin ⟨i, h1⟩
      refine ⟨fun _ => ⟨_, rfl, k1, fun z hz => ⟨fun hz' => (k2 z hz).1 (hz'.trans hhi'), fun hz' => (k2 z hz).2 (hlo'.trans hz')⟩,
        fun hcov z hz => ?_⟩, fun hn => absurd (hsub _ hmem).2 hn⟩
      have hzF : m.privacyLoss z ∈ fin := by rw [hz]; exact hmem
      have hin' := inner h (fun l hl => hin l (hsub l hl).1) hcov hzF
      have hout := outer h (hbet _ hzF).1 (hbet _ hzF).2
      have hmm : ∀ x ∈ c, listMin c ≤ x ∧ x ≤ listMax c := fun x hx => ⟨(listMin_spec hcne).2 x hx, (listMax_spec hcne).2 x hx⟩
      have m1 := hmm (m.back (m.yOf m.minSens (m.tOf (m.lowPl losses fin)))) (by rw [hcval]; simp)
      have m2 := hmm (m.back (m.yOf m.maxSens (m.tOf (m.lowPl losses fin)))) (by rw [hcval]; simp)
      have m3 := hmm (m.back (m.yOf m.minSens (m.tOf (m.highPl losses fin)))) (by rw [hcval]; simp)
      have m4 := hmm (m.back (m.yOf m.maxSens (m.tOf (m.highPl losses fin)))) (by rw [hcval]; simp)
      have glo : lo ≤ z := by
        refine hlo'.trans ?_
        unfold highPl at m3 m4 hout
        cases hadj : m.adj
        · simp only [hadj] at hin' m3 m4
          exact (le_min m3.1 m4.1).trans hin'
        · simp only [hadj] at hout m3 m4
          exact (le_min m3.1 m4.1).trans hout
      have ghi : z ≤ hi := by
        refine le_trans ?_ hhi'
        unfold lowPl at m1 m2 hout
        cases hadj : m.adj
        · simp only [hadj] at hout m1 m2
          exact hout.trans (max_le m1.2 m2.2)
        · simp only [hadj] at hin' m1 m2
          exact hin'.trans (max_le m1.2 m2.2)
      exact abs_le.2 ⟨by linarith [(k2 z hz).1 ghi], by linarith [(k2 z hz).2 glo]⟩
    · rw [List.forall₂_map_right_iff, List.forall₂_same]
      intro l hl
      have := of_decide_eq_true (List.mem_filter.1 hl).2
      exact ⟨fun hf => absurd hf this, fun _ => rfl⟩

end Obj
end Verif.Mixture
