import Verif.Proofs.MixtureInt
import Verif.Proofs.MixtureBucketsWitness
import Verif.Props.MixtureGaussian

/-!
# C70: mixtures of Gaussians asked for an integer epsilon

Cut-offs are stored in arrays of the type of the epsilons. For a python `int` they are truncated to integers, so that the reported delta,
although still never above the exact one, can be 0 where the exact one is almost 1.
-/

namespace Verif.Props
open Verif Verif.Spec Verif.Pld Verif.Mixture MeasureTheory ProbabilityTheory

section
variable {σ lb : ℝ} {sens probs : List ℝ} {pess : Bool} {adj : Adj} {m : Obj}

/-- `privacy_loss_for_single_gaussian` is the log density ratio of a Gaussian mechanism of the given sensitivity, and
`inverse_privacy_loss_for_single_gaussian` returns the largest point whose loss is at least the given one. -/
theorem C70_single_gaussian (hm : mk σ sens probs pess lb adj = .ok m) (h1 : ((sens.zip probs).map Prod.snd).sum = 1) {s : ℝ} (hs : 0 < s) :
    (∀ x, m.single x s = Real.log (mixUpperPdf σ [(s, 1)] adj x / mixLowerPdf σ [(s, 1)] adj x)) ∧
      ∀ l, IsGreatest {x | l ≤ m.single x s} (m.inverseSingle l s) := by
  obtain ⟨rfl, h⟩ := mixture_good hm h1
  have hσ : 0 < σ := h.σ0
  have hv : 0 < σ ^ 2 := pow_pos hσ 2
  have hpos : ∀ x, 0 < gaussianPDFReal 0 (Real.toNNReal (σ ^ 2)) x := fun x =>
    gaussianPDFReal_pos _ _ _ (by simpa using hσ.ne')
  constructor
  · intro x
    have hne := (hpos x).ne'
    cases adj
    · simp only [mixUpperPdf, mixLowerPdf, mixPdf, List.map_cons, List.map_nil, List.sum_cons, List.sum_nil, add_zero, one_mul, Obj.single]
      rw [Obj.pdf_term hσ s x, div_mul_cancel_left₀ hne, Real.log_inv, term, Real.log_exp]
      ring
    · simp only [mixUpperPdf, mixLowerPdf, mixPdf, List.map_cons, List.map_nil, List.sum_cons, List.sum_nil, add_zero, one_mul, Obj.single]
      rw [Obj.pdf_term hσ (-s) x, mul_div_cancel_left₀ _ hne, term, Real.log_exp]
      ring
  · intro l
    have key : ∀ x, l ≤ Obj.single ⟨σ, kept sens probs, adj, pess, lb⟩ x s ↔
        x ≤ Obj.inverseSingle ⟨σ, kept sens probs, adj, pess, lb⟩ l s := by
      intro x
      cases adj
      · simp only [Obj.single, Obj.inverseSingle]
        rw [le_div_iff₀ hv, le_sub_comm, div_le_iff₀ hs, mul_comm s]
      · simp only [Obj.single, Obj.inverseSingle]
        rw [le_div_iff₀ hv, show x ≤ 0.5 * s - l * σ ^ 2 / s - s ↔ l * σ ^ 2 / s ≤ -0.5 * s - x by constructor <;> intro h <;> linarith,
          div_le_iff₀ hs, mul_comm s]
    exact ⟨(key _).2 le_rfl, fun x hx => (key x).1 hx⟩

/-- Whatever NumPy makes of an infinite number in an array of integers, the delta reported for an integer never exceeds the exact one. -/
theorem C70_int_never_above (hm : mk σ sens probs pess lb adj = .ok m) (h1 : ((sens.zip probs).map Prod.snd).sum = 1)
    {fill : Except Err ℝ} {n : ℤ} {d : ℝ} (hd : m.getDeltaInt fill n = .ok d) : 0 ≤ d ∧ d ≤ 1 ∧
      ∀ δ, IsHs (mixUpper σ (sens.zip probs) adj) (mixLower σ (sens.zip probs) adj) n δ → d ≤ δ := by
  classical
  obtain ⟨rfl, h⟩ := mixture_good hm h1
  rw [← mixUpper_kept, ← mixLower_kept]
  set m : Obj := ⟨σ, kept sens probs, adj, pess, lb⟩ with hm'
  have p1 := Obj.upper_prob h
  have p2 := Obj.lower_prob h
  have key : d = 0 ∨ ∃ y, d = Mech.AdditiveNoise.clip01 y ∧
      ∀ δ, IsHs (mixUpper σ (kept sens probs) adj) (mixLower σ (kept sens probs) adj) n δ → y ≤ δ := by
    unfold Obj.getDeltaInt Obj.rawDeltasInt at hd
    simp only [List.map_cons, List.map_nil] at hd
    rw [if_neg (not_not.2 (List.pairwise_singleton _ _))] at hd
    by_cases hinv : m.Inverted (n : ℝ)
    · have e : ([(n : ℝ)].filter fun e => m.Inverted e) = [(n : ℝ)] := by
        rw [List.filter_eq_self]; intro a ha; rw [List.mem_singleton] at ha; subst ha; simpa using hinv
      have e' : ([(n : ℝ)].filter fun e => ¬ m.Inverted e) = [] := by
        rw [List.filter_eq_nil_iff]; intro a ha; rw [List.mem_singleton] at ha; subst ha; simpa using hinv
      rw [e, e', decide_eq_true hinv] at hd
      cases hx : m.inverseLossesInt fill [(n : ℝ)] 1e-6 with
      | error e => rw [hx] at hd; cases hd
      | ok xs =>
        rw [hx] at hd
        have hd' := Except.ok.inj hd
        cases xs with
        | nil => exact .inl hd'.symm
        | cons x xs => exact .inr ⟨_, hd'.symm, fun δ hδ => Obj.cutoffDelta_le h hδ.1 _⟩
    · have e : ([(n : ℝ)].filter fun e => m.Inverted e) = [] := by
        rw [List.filter_eq_nil_iff]; intro a ha; rw [List.mem_singleton] at ha; subst ha; simpa using hinv
      have e' : ([(n : ℝ)].filter fun e => ¬ m.Inverted e) = [(n : ℝ)] := by
        rw [List.filter_eq_self]; intro a ha; rw [List.mem_singleton] at ha; subst ha; simpa using hinv
      rw [e, e', decide_eq_false hinv] at hd
      cases hx : m.inverseLossesInt fill [] 1e-6 with
      | error e => rw [hx] at hd; cases hd
      | ok xs =>
        rw [hx] at hd
        have hd' := Except.ok.inj hd
        exact .inr ⟨_, hd'.symm, fun δ hδ =>
          (hδ.unique (Obj.other_isHs h fun hc => hinv ((Obj.inverted_iff h _).2 hc))).symm.le⟩
  rcases key with rfl | ⟨y, rfl, hy⟩
  · exact ⟨le_rfl, zero_le_one, fun δ hδ => (Mech.isHs_range hδ).1⟩
  · exact ⟨le_min zero_le_one (le_max_left _ _), min_le_left _ _, fun δ hδ => Obj.clip_le (hy δ hδ) (Mech.isHs_range hδ).1⟩

/-- The same for an array of integers, of which every delta is raised to the largest of those that follow it. -/
theorem C70_ints_never_above (hm : mk σ sens probs pess lb adj = .ok m) (h1 : ((sens.zip probs).map Prod.snd).sum = 1)
    {fill : Except Err ℝ} {eps : List ℤ} {ds : List ℝ} (hd : m.getDeltasInt fill eps = .ok ds) :
    List.Forall₂ (fun (n : ℤ) d => 0 ≤ d ∧ d ≤ 1 ∧
      ∀ δ, IsHs (mixUpper σ (sens.zip probs) adj) (mixLower σ (sens.zip probs) adj) n δ → d ≤ δ) eps ds ∧ ds.Pairwise (· ≥ ·) := by
  obtain ⟨rfl, h⟩ := mixture_good hm h1
  rw [← mixUpper_kept, ← mixLower_kept]
  unfold Obj.getDeltasInt at hd
  cases hr : Obj.rawDeltasInt ⟨σ, kept sens probs, adj, pess, lb⟩ fill eps with
  | error e => rw [hr] at hd; cases hd
  | ok r =>
    rw [hr] at hd
    cases hd
    obtain ⟨hs, hb⟩ := Obj.rawDeltasInt_below h hr
    have := Obj.suffixMax_below h hs hb
    rw [List.forall₂_map_left_iff] at this
    exact ⟨this, (Obj.suffixMax_anti _).1⟩

end

lemma int_witness_ok : MkOk (1 / 10) [1, 6 / 5] [1 / 2, 1 / 2] (-50) where
  σ0 := by norm_num
  lb := by norm_num
  len := rfl
  nonneg c hc _ := by
    simp only [List.zip_cons_cons, List.zip_nil_right, List.mem_cons, List.not_mem_nil, or_false] at hc
    rcases hc with rfl | rfl <;> norm_num
  pos := ⟨(1, 1 / 2), by simp, by norm_num, by norm_num⟩
  close := by unfold Mech.IsClose; norm_num
  prob c hc := by
    simp only [List.zip_cons_cons, List.zip_nil_right, List.mem_cons, List.not_mem_nil, or_false] at hc
    rcases hc with rfl | rfl <;> norm_num

/-- **Violated**: `get_delta_for_epsilon(1)` and `get_delta_for_epsilon(1.0)` are different. With standard deviation 0.1 and sensitivities 1
and 1.2 of probability 1/2 each, for REMOVE, the integer gets delta 0, or an exception, whatever NumPy makes of an infinite number in an array
of integers (`fill`), while the float gets at least 0.98, and the exact value is at least that. -/
theorem C70_int_epsilon_violated : ∃ m d δ, mk (1 / 10) [1, 6 / 5] [1 / 2, 1 / 2] true (-50) .remove = .ok m ∧
    (∀ fill, m.getDeltaInt fill 1 = fill.map fun _ => 0) ∧ m.getDelta 1 = .ok d ∧
    IsHs (mixUpper (1 / 10) ([1, 6 / 5].zip [1 / 2, 1 / 2]) .remove)
      (mixLower (1 / 10) ([1, 6 / 5].zip [1 / 2, 1 / 2]) .remove) 1 δ ∧ 98 / 100 ≤ d ∧ d ≤ δ := by
  classical
  have hk : kept [1, 6 / 5] [1 / 2, 1 / 2] = [1, 6 / 5].zip [1 / 2, 1 / 2] := by
    unfold kept
    rw [List.filter_eq_self]
    intro c hc
    simp only [List.zip_cons_cons, List.zip_nil_right, List.mem_cons, List.not_mem_nil, or_false] at hc
    rcases hc with rfl | rfl <;> norm_num
  have hmk := (mk_iff (1 / 10) [1, 6 / 5] [1 / 2, 1 / 2] true (-50) .remove).1 int_witness_ok
  obtain ⟨_, h⟩ := mixture_good hmk (by norm_num)
  rw [hk] at hmk h
  set m : Obj := ⟨1 / 10, [1, 6 / 5].zip [1 / 2, 1 / 2], .remove, true, -50⟩ with hm
  have hpos : m.pos = [(1, 1 / 2), (6 / 5, 1 / 2)] := by
    unfold Obj.pos
    rw [List.filter_eq_self.2]
    · rfl
    · intro c hc
      simp only [hm, List.zip_cons_cons, List.zip_nil_right, List.mem_cons, List.not_mem_nil, or_false] at hc
      rcases hc with rfl | rfl <;> norm_num
  have hq : m.q = 1 := by rw [Obj.q_eq h, hpos]; norm_num
  have hmin : m.minSens = 1 := by unfold Obj.minSens; rw [hpos]; norm_num
  have hmax : m.maxSens = 6 / 5 := by unfold Obj.maxSens; rw [hpos]; norm_num
  have hlim : m.limit = none := by unfold Obj.limit; rw [hq, if_neg (lt_irrefl _)]
  have hfin : ∀ e, m.Finite e := fun e => by unfold Obj.Finite; simp only [hlim]
  have hinv : ∀ e, m.Inverted e := fun e => by unfold Obj.Inverted; simp only [hlim]
  have hin : ∀ e, m.InRange e := fun e => (Obj.inverted_iff h e).1 (hinv e)
  have hc : ∀ s, m.cand ((1 : ℤ) : ℝ) s = -(s / 2 + 1 / 100 / s) := by
    intro s
    change -(s / 2 + (1 / 10) ^ 2 * Real.log ((Real.exp ((1 : ℤ) : ℝ) - (1 - m.q)) / m.q) / s) = _
    rw [hq, sub_self, sub_zero, div_one, Real.log_exp]; norm_num
  have c1 : m.cand ((1 : ℤ) : ℝ) m.minSens = -(51 / 100) := by rw [hc, hmin]; norm_num
  have c2 : m.cand ((1 : ℤ) : ℝ) m.maxSens = -(73 / 120) := by rw [hc, hmax]; norm_num
  have hgap : 1e-6 < |m.cand ((1 : ℤ) : ℝ) m.minSens - m.cand ((1 : ℤ) : ℝ) m.maxSens| := by
    rw [c1, c2, abs_of_pos (by norm_num)]; norm_num
  have hloss : ∀ x, m.privacyLoss x =
      Real.log (1 / 2 * Real.exp ((-x - 1 / 2) * 100) + 1 / 2 * Real.exp ((6 / 5 * -x - 18 / 25) * 100)) := by
    intro x
    rw [Obj.privacyLoss_eq h]
    simp only [hm, Obj.ratio, term, List.zip_cons_cons, List.zip_nil_right, List.map_cons, List.map_nil, List.sum_cons, List.sum_nil]
    congr 1
    rw [add_zero]
    congr 3 <;> ring_nf
  obtain ⟨z, hz⟩ := Obj.exists_inverse h (hin ((1 : ℤ) : ℝ))
  have hz1 : -(65 / 100) ≤ z := by
    by_contra hc
    have h1 := Obj.privacyLoss_strictAnti h (not_le.1 hc)
    rw [hz, hloss, Int.cast_one, Real.log_lt_iff_lt_exp (by positivity)] at h1
    have e1 : Real.exp ((65 / 100 - 1 / 2) * 100) = Real.exp 1 * Real.exp 14 := by rw [← Real.exp_add]; norm_num
    have e2 := Real.exp_pos 1
    have e3 := Real.add_one_le_exp 14
    have e4 := Real.exp_pos ((6 / 5 * (65 / 100) - 18 / 25) * 100)
    rw [neg_neg, e1] at h1
    nlinarith
  have hz2 : z ≤ -(51 / 100) := by
    by_contra hc
    have h1 := Obj.privacyLoss_strictAnti h (not_le.1 hc)
    rw [hz, hloss, Int.cast_one, Real.lt_log_iff_exp_lt (by positivity)] at h1
    have e1 : Real.exp ((51 / 100 - 1 / 2) * 100) = Real.exp 1 := by norm_num
    have e2 : Real.exp ((6 / 5 * (51 / 100) - 18 / 25) * 100) ≤ Real.exp 1 := Real.exp_le_exp.2 (by norm_num)
    rw [neg_neg, e1] at h1
    linarith
  have bounds : ∀ r : ℝ, (r ≤ (⌈max (m.cand ((1 : ℤ) : ℝ) m.minSens) (m.cand ((1 : ℤ) : ℝ) m.maxSens) / 1e-6⌉ : ℝ) * 1e-6 ∧
      ∀ z, m.privacyLoss z = ((1 : ℤ) : ℝ) → (z ≤ max (m.cand ((1 : ℤ) : ℝ) m.minSens) (m.cand ((1 : ℤ) : ℝ) m.maxSens) → z - 1e-6 ≤ r) ∧
        (min (m.cand ((1 : ℤ) : ℝ) m.minSens) (m.cand ((1 : ℤ) : ℝ) m.maxSens) ≤ z → r ≤ z + 1e-6)) → -(66 / 100) ≤ r ∧ r ≤ -(1 / 2) := by
    rintro r ⟨h1, h2⟩
    have h3 := (h2 z hz).1 (by rw [c1, c2, max_eq_left (by norm_num)]; exact hz2)
    rw [c1, c2, max_eq_left (by norm_num)] at h1
    have h4 := Int.ceil_lt_add_one (-(51 / 100 : ℝ) / 1e-6)
    have h5 : (⌈(-(51 / 100) : ℝ) / 1e-6⌉ : ℝ) * 1e-6 ≤ (-(51 / 100) / 1e-6 + 1) * 1e-6 := mul_le_mul_of_nonneg_right h4.le (by norm_num)
    norm_num at h1 h3 h5 ⊢
    constructor <;> linarith
  obtain ⟨δ, hδ⟩ := Obj.exists_isHs h ((1 : ℤ) : ℝ)
  have f1 := Obj.upper_prob h
  have g := gcdf_noise (σ := 1 / 10) (by norm_num)
  have hP : ∀ x, (mixUpper (1 / 10) m.comps .remove).real (Set.Iic x) = 1 / 2 * gcdf (1 / 10) (x + 1) + 1 / 2 * gcdf (1 / 10) (x + 6 / 5) := by
    intro x
    rw [mixUpper, gaussMixture_real (neg_probs h.prob)]
    simp only [hm, List.zip_cons_cons, List.zip_nil_right, List.map_cons, List.map_nil, List.sum_cons, List.sum_nil, gcdf_shift,
      sub_neg_eq_add]
    ring
  obtain ⟨r, hr1, _, hr3⟩ := Obj.getDeltaInt_one h (hin _) (hfin _) hgap (.ok 0)
  obtain ⟨rl, ru⟩ := bounds r hr3
  refine ⟨m, _, δ, hmk, fun fill => ?_, by rw [← Int.cast_one]; exact hr1, by have := hδ; rw [Int.cast_one] at this; exact this, ?_,
    Obj.clip_le (Obj.cutoffDelta_le h hδ.1 _) (Mech.isHs_range hδ).1⟩
  · obtain ⟨r', _, hr2, hr3⟩ := Obj.getDeltaInt_one h (hin _) (hfin _) hgap fill
    obtain ⟨rl, ru⟩ := bounds r' hr3
    have ht : Obj.truncate r' = 0 := by
      unfold Obj.truncate
      rw [if_neg (by linarith)]
      have : ⌈r'⌉ = 0 := by rw [Int.ceil_eq_iff]; constructor <;> norm_num <;> linarith
      rw [this]; norm_num
    rw [hr2, ht]
    congr 1
    funext _
    rw [Obj.cutoffDelta_eq h, EReal.coe_zero, ← EReal.coe_zero, Obj.below_coe]
    have k1 : (mixUpper m.σ m.comps m.adj).real (Set.Iic (0 : ℝ)) ≤ 1 := measureReal_le_one
    have k2 : (mixLower m.σ m.comps m.adj).real (Set.Iic (0 : ℝ)) = gcdf (1 / 10) 0 := rfl
    have k3 := gcdf_neg (σ := 1 / 10) (by norm_num) 0
    rw [neg_zero] at k3
    have k4 : gcdf (1 / 10) 0 = 1 / 2 := by linarith
    have k5 := Real.add_one_le_exp 1
    rw [k2, k4, Int.cast_one]
    unfold Mech.AdditiveNoise.clip01
    rw [max_eq_left (by linarith), min_eq_right zero_le_one]
  · have k1 : (mixUpper (1 / 10) m.comps .remove).real (Set.Iic (-(66 / 100))) ≤ (mixUpper m.σ m.comps m.adj).real (Set.Iic r) :=
      measureReal_mono (Set.Iic_subset_Iic.2 rl) (measure_ne_top _ _)
    have k2 : (mixLower m.σ m.comps m.adj).real (Set.Iic r) ≤ gcdf (1 / 10) (-(1 / 2)) := g.mono ru
    have e5 : Real.exp (-5) ≤ 1 / 100 := by
      have h1 : (27 / 10 : ℝ) ≤ Real.exp 1 := by have := Real.exp_one_gt_d9; norm_num at this ⊢; linarith
      have h2 : Real.exp 5 = Real.exp 1 ^ 5 := by rw [← Real.exp_nat_mul]; norm_num
      have h3 : (27 / 10 : ℝ) ^ 5 ≤ Real.exp 1 ^ 5 := pow_le_pow_left₀ (by norm_num) h1 5
      rw [Real.exp_neg, ← one_div, h2]
      exact one_div_le_one_div_of_le (by norm_num) (le_trans (by norm_num) h3)
    have k3 : gcdf (1 / 10) (-(34 / 100)) ≤ 1 / 100 := by
      rw [show (-(34 / 100) : ℝ) = 1 / 10 * -(34 / 10) by norm_num, gcdf_scale (by norm_num)]
      exact ((gcdf_tail (by norm_num)).trans (Real.exp_le_exp.2 (by norm_num))).trans e5
    have k4 : Real.exp 1 * gcdf (1 / 10) (-(1 / 2)) ≤ 1 / 100 := by
      rw [show (-(1 / 2) : ℝ) = 1 / 10 * -5 by norm_num, gcdf_scale (by norm_num)]
      refine (mul_le_mul_of_nonneg_left (gcdf_tail (by norm_num)) (Real.exp_pos 1).le).trans ?_
      rw [← Real.exp_add]
      exact (Real.exp_le_exp.2 (by norm_num)).trans e5
    have k5 := gcdf_neg (σ := 1 / 10) (by norm_num) (34 / 100)
    have k6 : gcdf (1 / 10) (34 / 100) ≤ gcdf (1 / 10) (-(66 / 100) + 6 / 5) := g.mono (by norm_num)
    rw [hP, show (-(66 / 100) + 1 : ℝ) = 34 / 100 by norm_num] at k1
    have k7 := mul_le_mul_of_nonneg_left k2 (Real.exp_pos 1).le
    rw [Obj.cutoffDelta_eq h, Obj.below_coe, Int.cast_one]
    refine le_min (by norm_num) (le_max_of_le_right ?_)
    linarith

/-- The hypotheses of `C70_single_gaussian` and `C70_int_never_above` hold, with `fill` the least 64-bit integer. -/
example : ∃ m d, mk (1 / 10) [1, 6 / 5] [1 / 2, 1 / 2] true (-50) .remove = .ok m ∧
    ((([1, 6 / 5] : List ℝ).zip [1 / 2, 1 / 2]).map Prod.snd).sum = (1 : ℝ) ∧ m.getDeltaInt (.ok (-2 ^ 63)) 1 = .ok d := by
  obtain ⟨m, _, _, h1, h2, _⟩ := C70_int_epsilon_violated
  exact ⟨m, 0, h1, by norm_num, h2 _⟩

/-- The hypotheses of `C70_ints_never_above` hold. -/
example : ∃ m ds, mk (1 / 10) [1, 6 / 5] [1 / 2, 1 / 2] true (-50) .remove = .ok m ∧
    ((([1, 6 / 5] : List ℝ).zip [1 / 2, 1 / 2]).map Prod.snd).sum = (1 : ℝ) ∧ m.getDeltasInt (.ok (-2 ^ 63)) [1] = .ok ds := by
  obtain ⟨m, _, _, h1, h2, _⟩ := C70_int_epsilon_violated
  have h3 := h2 (.ok (-2 ^ 63))
  unfold Obj.getDeltaInt at h3
  cases hr : m.rawDeltasInt (.ok (-2 ^ 63)) [1] with
  | error e => rw [hr] at h3; cases h3
  | ok r => exact ⟨m, Obj.suffixMax r, h1, by norm_num, by unfold Obj.getDeltasInt; rw [hr]; rfl⟩

end Verif.Props
