import Verif.Model.MixtureGaussian
import Verif.Spec.MixtureGaussian
import Verif.Proofs.AdditiveNoiseInst
import Mathlib.Topology.Order.IntermediateValue
import Mathlib.Topology.Algebra.Order.LiminfLimsup

/-! # Mixtures of Gaussians: densities and the privacy loss -/

namespace Verif.Mixture
open Verif Spec Pld MeasureTheory ProbabilityTheory Mech

/-- An object whose components are a probability distribution. -/
structure Obj.Good (m : Obj) : Prop where
  σ0 : 0 < m.σ
  dist : SensDist m.comps

/-- Ratio of the density of the noise moved by `s` to that of the noise, at `y`. -/
noncomputable def term (v s y : ℝ) : ℝ := Real.exp ((s * y - s ^ 2 / 2) / v)

lemma term_pos (v s y : ℝ) : 0 < term v s y := Real.exp_pos _

/-- The likelihood ratio of the mixture. -/
noncomputable def Obj.ratio (m : Obj) (y : ℝ) : ℝ := (m.comps.map fun c => c.2 * term (m.σ ^ 2) c.1 y).sum

lemma sum_pos_of {l : List (ℝ × ℝ)} {f : ℝ × ℝ → ℝ} (h : ∀ c ∈ l, 0 ≤ f c) {c : ℝ × ℝ} (hc : c ∈ l) (hp : 0 < f c) :
    0 < (l.map f).sum := by
  induction l with
  | nil => simp at hc
  | cons a l ih =>
    rw [List.map_cons, List.sum_cons]
    have h1 : 0 ≤ (l.map f).sum := List.sum_nonneg fun x hx => by
      obtain ⟨c, hc, rfl⟩ := List.mem_map.1 hx
      exact h c (List.mem_cons_of_mem _ hc)
    rcases List.mem_cons.1 hc with rfl | hc
    · linarith
    · have := ih (fun c h' => h c (List.mem_cons_of_mem _ h')) hc
      have := h a (by simp)
      linarith

lemma sum_lt_of {l : List (ℝ × ℝ)} {f g : ℝ × ℝ → ℝ} (h : ∀ c ∈ l, f c ≤ g c) {c : ℝ × ℝ} (hc : c ∈ l) (hp : f c < g c) :
    (l.map f).sum < (l.map g).sum := by
  have h1 := sum_pos_of (f := fun c => g c - f c) (fun c h' => sub_nonneg.2 (h c h')) hc (sub_pos.2 hp)
  have h2 : (l.map fun c => g c - f c).sum + (l.map f).sum = (l.map g).sum := by
    rw [← List.sum_map_add]; congr 2; ext c; ring
  linarith

lemma sum_le_of {l : List (ℝ × ℝ)} {f g : ℝ × ℝ → ℝ} (h : ∀ c ∈ l, f c ≤ g c) : (l.map f).sum ≤ (l.map g).sum := List.sum_le_sum h

namespace Obj
variable {m : Obj}

lemma Good.v0 (h : m.Good) : 0 < m.σ ^ 2 := pow_pos h.σ0 2

lemma ratio_pos (h : m.Good) (y : ℝ) : 0 < m.ratio y := by
  obtain ⟨c, hc, _⟩ := h.dist.pos
  exact sum_pos_of (fun c hc => (mul_pos (h.dist.prob c hc) (term_pos _ _ _)).le) hc (mul_pos (h.dist.prob c hc) (term_pos _ _ _))

lemma ratio_strictMono (h : m.Good) : StrictMono m.ratio := by
  intro x y hxy
  obtain ⟨c, hc, hc0⟩ := h.dist.pos
  have key : ∀ c ∈ m.comps, c.2 * term (m.σ ^ 2) c.1 x ≤ c.2 * term (m.σ ^ 2) c.1 y := fun c hc => by
    refine mul_le_mul_of_nonneg_left (Real.exp_le_exp.2 ?_) (h.dist.prob c hc).le
    have := mul_le_mul_of_nonneg_left hxy.le (h.dist.sens c hc)
    exact div_le_div_of_nonneg_right (by linarith) h.v0.le
  refine sum_lt_of key hc (mul_lt_mul_of_pos_left (Real.exp_lt_exp.2 ?_) (h.dist.prob c hc))
  have := mul_lt_mul_of_pos_left hxy hc0
  exact div_lt_div_of_pos_right (by linarith) h.v0

lemma ratio_continuous (m : Obj) : Continuous m.ratio := by
  unfold ratio
  refine continuous_list_sum (f := fun (c : ℝ × ℝ) (y : ℝ) => c.2 * term (m.σ ^ 2) c.1 y) _ fun c _ => ?_
  unfold term
  fun_prop

/-! ### Sampling probability, smallest and largest sensitivity -/

open Classical in
lemma _root_.Verif.Mixture.sum_filter (l : List (ℝ × ℝ)) (P : ℝ × ℝ → Prop) (f : ℝ × ℝ → ℝ) :
    (l.map f).sum = ((l.filter fun c => P c).map f).sum + ((l.filter fun c => ¬ P c).map f).sum := by
  induction l with
  | nil => simp
  | cons a l ih =>
    by_cases hp : P a <;> simp [hp] at ih ⊢ <;> rw [ih] <;> ring

lemma mem_pos {c : ℝ × ℝ} : c ∈ m.pos ↔ c ∈ m.comps ∧ 0 < c.1 := by simp [pos]

open Classical in
lemma split_sum (h : m.Good) (f : ℝ × ℝ → ℝ) (hf : ∀ c ∈ m.comps, c.1 = 0 → f c = c.2) :
    (m.comps.map f).sum = (1 - (m.pos.map Prod.snd).sum) + (m.pos.map f).sum := by
  have h1 := sum_filter m.comps (fun c => 0 < c.1) f
  have h2 := sum_filter m.comps (fun c => 0 < c.1) Prod.snd
  have h3 : ((m.comps.filter fun c => ¬ 0 < c.1).map f) = ((m.comps.filter fun c => ¬ 0 < c.1).map Prod.snd) := by
    refine List.map_congr_left fun c hc => ?_
    simp only [List.mem_filter, not_lt, decide_eq_true_eq] at hc
    exact hf c hc.1 (le_antisymm hc.2 (h.dist.sens c hc.1))
  rw [h.dist.sum] at h2
  rw [h1, h3]
  unfold pos
  linarith

open Classical in
lemma q_eq (h : m.Good) : m.q = (m.pos.map Prod.snd).sum := by
  have h2 := sum_filter m.comps (fun c => 0 < c.1) Prod.snd
  rw [h.dist.sum] at h2
  have n1 : 0 ≤ ((m.comps.filter fun c => ¬ 0 < c.1).map Prod.snd).sum := List.sum_nonneg fun x hx => by
    obtain ⟨c, hc, rfl⟩ := List.mem_map.1 hx
    exact (h.dist.prob c (List.mem_filter.1 hc).1).le
  have n2 : 0 ≤ (m.pos.map Prod.snd).sum := List.sum_nonneg fun x hx => by
    obtain ⟨c, hc, rfl⟩ := List.mem_map.1 hx
    exact (h.dist.prob c (mem_pos.1 hc).1).le
  unfold q
  rw [max_eq_right n2, min_eq_right]
  unfold pos
  linarith

lemma q_pos (h : m.Good) : 0 < m.q := by
  rw [q_eq h]
  obtain ⟨c, hc, hc0⟩ := h.dist.pos
  exact sum_pos_of (fun c hc => (h.dist.prob c (mem_pos.1 hc).1).le) (mem_pos.2 ⟨hc, hc0⟩) (h.dist.prob c hc)

lemma q_le_one (m : Obj) : m.q ≤ 1 := min_le_left _ _

lemma _root_.Verif.Mixture.foldl_min (l : List ℝ) (a : ℝ) : l.foldl min a ≤ a ∧ (∀ x ∈ l, l.foldl min a ≤ x) ∧
    (l.foldl min a = a ∨ l.foldl min a ∈ l) := by
  induction l generalizing a with
  | nil => simp
  | cons b l ih =>
    obtain ⟨h1, h2, h3⟩ := ih (min a b)
    refine ⟨h1.trans (min_le_left _ _), ?_, ?_⟩
    · intro x hx
      rcases List.mem_cons.1 hx with rfl | hx
      · exact h1.trans (min_le_right _ _)
      · exact h2 x hx
    · rcases h3 with h3 | h3
      · rw [List.foldl_cons, h3]
        rcases min_choice a b with h | h <;> rw [h]
        · exact .inl rfl
        · exact .inr (by simp)
      · exact .inr (List.mem_cons_of_mem _ h3)

lemma _root_.Verif.Mixture.foldl_max (l : List ℝ) (a : ℝ) : a ≤ l.foldl max a ∧ (∀ x ∈ l, x ≤ l.foldl max a) ∧
    (l.foldl max a = a ∨ l.foldl max a ∈ l) := by
  induction l generalizing a with
  | nil => simp
  | cons b l ih =>
    obtain ⟨h1, h2, h3⟩ := ih (max a b)
    refine ⟨(le_max_left _ _).trans h1, ?_, ?_⟩
    · intro x hx
      rcases List.mem_cons.1 hx with rfl | hx
      · exact (le_max_right _ _).trans h1
      · exact h2 x hx
    · rcases h3 with h3 | h3
      · rw [List.foldl_cons, h3]
        rcases max_choice a b with h | h <;> rw [h]
        · exact .inl rfl
        · exact .inr (by simp)
      · exact .inr (List.mem_cons_of_mem _ h3)

lemma listMin_spec {l : List ℝ} (hl : l ≠ []) : listMin l ∈ l ∧ ∀ x ∈ l, listMin l ≤ x := by
  obtain ⟨a, l, rfl⟩ := List.exists_cons_of_ne_nil hl
  obtain ⟨h1, h2, h3⟩ := foldl_min (a :: l) a
  refine ⟨?_, h2⟩
  rcases h3 with h3 | h3
  · show List.foldl _ a (a :: l) ∈ a :: l
    rw [h3]; simp
  · exact h3

lemma listMax_spec {l : List ℝ} (hl : l ≠ []) : listMax l ∈ l ∧ ∀ x ∈ l, x ≤ listMax l := by
  obtain ⟨a, l, rfl⟩ := List.exists_cons_of_ne_nil hl
  obtain ⟨h1, h2, h3⟩ := foldl_max (a :: l) a
  refine ⟨?_, h2⟩
  rcases h3 with h3 | h3
  · show List.foldl _ a (a :: l) ∈ a :: l
    rw [h3]; simp
  · exact h3

lemma pos_ne (h : m.Good) : m.pos.map Prod.fst ≠ [] := by
  obtain ⟨c, hc, hc0⟩ := h.dist.pos
  intro h'
  have := List.mem_map_of_mem (f := Prod.fst) (mem_pos.2 ⟨hc, hc0⟩)
  rw [h'] at this
  simp at this

lemma minSens_pos (h : m.Good) : 0 < m.minSens := by
  obtain ⟨c, hc, he⟩ := List.mem_map.1 (listMin_spec (pos_ne h)).1
  show 0 < listMin _
  rw [← he]; exact (mem_pos.1 hc).2

lemma minSens_le (h : m.Good) {c : ℝ × ℝ} (hc : c ∈ m.pos) : m.minSens ≤ c.1 :=
  (listMin_spec (pos_ne h)).2 _ (List.mem_map_of_mem hc)

lemma le_maxSens (h : m.Good) {c : ℝ × ℝ} (hc : c ∈ m.pos) : c.1 ≤ m.maxSens :=
  (listMax_spec (pos_ne h)).2 _ (List.mem_map_of_mem hc)

lemma maxSens_pos (h : m.Good) : 0 < m.maxSens := by
  obtain ⟨c, hc, hc0⟩ := h.dist.pos
  exact hc0.trans_le (le_maxSens h (mem_pos.2 ⟨hc, hc0⟩))

lemma min_le_max (h : m.Good) : m.minSens ≤ m.maxSens := by
  obtain ⟨c, hc, hc0⟩ := h.dist.pos
  exact (minSens_le h (mem_pos.2 ⟨hc, hc0⟩)).trans (le_maxSens h (mem_pos.2 ⟨hc, hc0⟩))

lemma term_zero (v y : ℝ) : term v 0 y = 1 := by simp [term]

lemma ratio_eq (h : m.Good) (y : ℝ) : m.ratio y = (1 - m.q) + (m.pos.map fun c => c.2 * term (m.σ ^ 2) c.1 y).sum := by
  rw [q_eq h]
  exact split_sum h _ fun c _ hc => by rw [hc, term_zero, mul_one]

/-- All the positive mass moved to the sensitivity `s`. -/
noncomputable def one (m : Obj) (s y : ℝ) : ℝ := (1 - m.q) + m.q * term (m.σ ^ 2) s y

lemma one_eq (h : m.Good) (s y : ℝ) : m.one s y = (1 - m.q) + (m.pos.map fun c => c.2 * term (m.σ ^ 2) s y).sum := by
  unfold one
  rw [List.sum_map_mul_right, ← q_eq h]

lemma ratio_le_one (h : m.Good) {s y : ℝ} (hs : ∀ c ∈ m.pos, term (m.σ ^ 2) c.1 y ≤ term (m.σ ^ 2) s y) : m.ratio y ≤ m.one s y := by
  rw [ratio_eq h, one_eq h]
  have := sum_le_of (l := m.pos) (f := fun c => c.2 * term (m.σ ^ 2) c.1 y) (g := fun c => c.2 * term (m.σ ^ 2) s y)
    fun c hc => mul_le_mul_of_nonneg_left (hs c hc) (h.dist.prob c (mem_pos.1 hc).1).le
  linarith

lemma one_le_ratio (h : m.Good) {s y : ℝ} (hs : ∀ c ∈ m.pos, term (m.σ ^ 2) s y ≤ term (m.σ ^ 2) c.1 y) : m.one s y ≤ m.ratio y := by
  rw [ratio_eq h, one_eq h]
  have := sum_le_of (l := m.pos) (f := fun c => c.2 * term (m.σ ^ 2) s y) (g := fun c => c.2 * term (m.σ ^ 2) c.1 y)
    fun c hc => mul_le_mul_of_nonneg_left (hs c hc) (h.dist.prob c (mem_pos.1 hc).1).le
  linarith

lemma ratio_gt (h : m.Good) (y : ℝ) : 1 - m.q < m.ratio y := by
  rw [ratio_eq h]
  obtain ⟨c, hc, hc0⟩ := h.dist.pos
  have := sum_pos_of (l := m.pos) (f := fun c => c.2 * term (m.σ ^ 2) c.1 y)
    (fun c hc => (mul_pos (h.dist.prob c (mem_pos.1 hc).1) (term_pos _ _ _)).le) (mem_pos.2 ⟨hc, hc0⟩)
    (mul_pos (h.dist.prob c hc) (term_pos _ _ _))
  linarith

/-- For `y` at most the smallest sensitivity the smallest one gives the largest ratio. -/
lemma ratio_le_min (h : m.Good) {y : ℝ} (hy : y ≤ m.minSens) : m.ratio y ≤ m.one m.minSens y :=
  ratio_le_one h fun c hc => Real.exp_le_exp.2 (div_le_div_of_nonneg_right (by
    have := minSens_le h hc
    nlinarith) h.v0.le)

/-- For `y` at least the largest sensitivity the largest one gives the largest ratio. -/
lemma ratio_le_max (h : m.Good) {y : ℝ} (hy : m.maxSens ≤ y) : m.ratio y ≤ m.one m.maxSens y :=
  ratio_le_one h fun c hc => Real.exp_le_exp.2 (div_le_div_of_nonneg_right (by
    have := le_maxSens h hc
    nlinarith) h.v0.le)

/-- One of the extreme sensitivities always gives a ratio that is not larger. -/
lemma min_le_ratio (h : m.Good) (y : ℝ) : m.one m.minSens y ≤ m.ratio y ∨ m.one m.maxSens y ≤ m.ratio y := by
  by_cases hc : m.minSens * y - m.minSens ^ 2 / 2 ≤ m.maxSens * y - m.maxSens ^ 2 / 2
  · refine .inl (one_le_ratio h fun c hc' => Real.exp_le_exp.2 (div_le_div_of_nonneg_right ?_ h.v0.le))
    have h1 := minSens_le h hc'
    have h2 := le_maxSens h hc'
    have h3 := min_le_max h
    rcases h1.eq_or_lt with e | e
    · rw [e]
    have : m.minSens + m.maxSens ≤ 2 * y := by
      by_contra hn
      nlinarith [mul_pos (sub_pos.2 (e.trans_le h2)) (sub_pos.2 (not_le.1 hn))]
    nlinarith
  · push Not at hc
    refine .inr (one_le_ratio h fun c hc' => Real.exp_le_exp.2 (div_le_div_of_nonneg_right ?_ h.v0.le))
    have h1 := minSens_le h hc'
    have h2 := le_maxSens h hc'
    have h3 := min_le_max h
    rcases h2.eq_or_lt with e | e
    · rw [e]
    have : 2 * y ≤ m.minSens + m.maxSens := by
      by_contra hn
      nlinarith [mul_pos (sub_pos.2 (h1.trans_lt e)) (sub_pos.2 (not_le.1 hn))]
    nlinarith

/-! ### The privacy loss -/

/-- The argument of `ratio` in the privacy loss. -/
noncomputable def arg (m : Obj) (x : ℝ) : ℝ := match m.adj with | .add => x | .remove => -x

/-- The ratio that corresponds to a privacy loss. -/
noncomputable def tOf (m : Obj) (l : ℝ) : ℝ := match m.adj with | .add => Real.exp (-l) | .remove => Real.exp l

lemma privacyLoss_eq (h : m.Good) (x : ℝ) : m.privacyLoss x = match m.adj with
    | .add => -Real.log (m.ratio x) | .remove => Real.log (m.ratio (-x)) := by
  have key : ∀ (y : ℝ) (f : ℝ × ℝ → ℝ), (∀ c ∈ m.comps, f c = Real.log c.2 + (c.1 * y - c.1 ^ 2 / 2) / m.σ ^ 2) →
      logReduce (m.comps.map f) = Real.log (m.ratio y) := fun y f hf => by
    unfold logReduce ratio
    rw [List.map_map]
    congr 2
    refine List.map_congr_left fun c hc => ?_
    rw [Function.comp, hf c hc, Real.exp_add, Real.exp_log (h.dist.prob c hc), term]
  unfold privacyLoss single
  cases m.adj
  · simp only []
    rw [key x _ fun c _ => by ring]
  · simp only []
    rw [key (-x) _ fun c _ => by ring]

lemma log_eq_iff {a b : ℝ} (ha : 0 < a) : Real.log a = b ↔ a = Real.exp b :=
  ⟨fun e => by rw [← e, Real.exp_log ha], fun e => by rw [e, Real.log_exp]⟩

lemma privacyLoss_iff (h : m.Good) (x l : ℝ) : m.privacyLoss x = l ↔ m.ratio (m.arg x) = m.tOf l := by
  rw [privacyLoss_eq h]
  unfold arg tOf
  cases m.adj
  · simp only []
    rw [neg_eq_iff_eq_neg, log_eq_iff (ratio_pos h _)]
  · simp only []
    rw [log_eq_iff (ratio_pos h _)]

lemma privacyLoss_strictAnti (h : m.Good) : StrictAnti m.privacyLoss := by
  intro x y hxy
  rw [privacyLoss_eq h, privacyLoss_eq h]
  cases m.adj
  · simp only []
    exact neg_lt_neg (Real.log_lt_log (ratio_pos h _) (ratio_strictMono h hxy))
  · simp only []
    exact Real.log_lt_log (ratio_pos h _) (ratio_strictMono h (neg_lt_neg hxy))

/-- The ratio grows at most exponentially. -/
lemma ratio_growth (h : m.Good) {y z : ℝ} (hyz : y ≤ z) : m.ratio z ≤ m.ratio y * Real.exp (m.maxSens * (z - y) / m.σ ^ 2) := by
  unfold ratio
  rw [← List.sum_map_mul_right]
  refine sum_le_of fun c hc => ?_
  rw [mul_assoc]
  refine mul_le_mul_of_nonneg_left ?_ (h.dist.prob c hc).le
  unfold term
  rw [← Real.exp_add, ← add_div]
  refine Real.exp_le_exp.2 (div_le_div_of_nonneg_right ?_ h.v0.le)
  have hs : c.1 ≤ m.maxSens := by
    by_cases h0 : 0 < c.1
    · exact le_maxSens h (mem_pos.2 ⟨hc, h0⟩)
    · exact (not_lt.1 h0).trans (maxSens_pos h).le
  nlinarith [sub_nonneg.2 hyz]

lemma privacyLoss_lipschitz (h : m.Good) {x z : ℝ} (hxz : x ≤ z) :
    m.privacyLoss x ≤ m.privacyLoss z + m.maxSens * (z - x) / m.σ ^ 2 := by
  have key : ∀ {y z : ℝ}, y ≤ z → Real.log (m.ratio z) ≤ Real.log (m.ratio y) + m.maxSens * (z - y) / m.σ ^ 2 := fun {y z} hyz => by
    have := Real.log_le_log (ratio_pos h z) (ratio_growth h hyz)
    rwa [Real.log_mul (ratio_pos h y).ne' (Real.exp_pos _).ne', Real.log_exp] at this
  rw [privacyLoss_eq h, privacyLoss_eq h]
  cases m.adj
  · simp only []
    have := key hxz
    linarith
  · simp only []
    have := key (neg_le_neg hxz)
    rwa [show -x - -z = z - x by ring] at this

/-! ### The exact inverse -/

/-- Solution of `one s y = t`. -/
noncomputable def yOf (m : Obj) (s t : ℝ) : ℝ := s / 2 + m.σ ^ 2 * Real.log ((t - (1 - m.q)) / m.q) / s

lemma one_strictMono (h : m.Good) {s : ℝ} (hs : 0 < s) : StrictMono (m.one s) := by
  intro x y hxy
  unfold one term
  have := mul_lt_mul_of_pos_left hxy hs
  have := Real.exp_lt_exp.2 (div_lt_div_of_pos_right (by linarith : s * x - s ^ 2 / 2 < s * y - s ^ 2 / 2) h.v0)
  have := mul_lt_mul_of_pos_left this (q_pos h)
  linarith

lemma one_yOf (h : m.Good) {s t : ℝ} (hs : 0 < s) (ht : 1 - m.q < t) : m.one s (m.yOf s t) = t := by
  have q0 := q_pos h
  have hp : 0 < (t - (1 - m.q)) / m.q := div_pos (by linarith) q0
  have v0 := h.v0
  unfold one term yOf
  rw [show (s * (s / 2 + m.σ ^ 2 * Real.log ((t - (1 - m.q)) / m.q) / s) - s ^ 2 / 2) / m.σ ^ 2 = Real.log ((t - (1 - m.q)) / m.q) by
    have := h.σ0.ne'
    generalize Real.log ((t - (1 - m.q)) / m.q) = L
    field_simp; ring, Real.exp_log hp]
  field_simp
  ring

lemma yOf_mono (h : m.Good) {s t u : ℝ} (hs : 0 < s) (ht : 1 - m.q < t) (htu : t ≤ u) : m.yOf s t ≤ m.yOf s u := by
  by_contra hc
  have := one_strictMono h hs (not_le.1 hc)
  rw [one_yOf h hs ht, one_yOf h hs (ht.trans_le htu)] at this
  linarith

lemma exists_ratio (h : m.Good) {t : ℝ} (ht : 1 - m.q < t) : ∃ y, m.ratio y = t := by
  have hmin := minSens_pos h
  have hmax := maxSens_pos h
  obtain ⟨a, ha⟩ : ∃ a, m.ratio a ≤ t := by
    refine ⟨min (m.yOf m.minSens t) m.minSens, (ratio_le_min h (min_le_right _ _)).trans ?_⟩
    refine ((one_strictMono h hmin).monotone (min_le_left _ _)).trans (one_yOf h hmin ht).le
  obtain ⟨b, hb⟩ : ∃ b, t ≤ m.ratio b := by
    refine ⟨max (m.yOf m.minSens t) (m.yOf m.maxSens t), ?_⟩
    rcases min_le_ratio h (max (m.yOf m.minSens t) (m.yOf m.maxSens t)) with k | k
    · exact (one_yOf h hmin ht).ge.trans (((one_strictMono h hmin).monotone (le_max_left _ _)).trans k)
    · exact (one_yOf h hmax ht).ge.trans (((one_strictMono h hmax).monotone (le_max_right _ _)).trans k)
  exact mem_range_of_exists_le_of_exists_ge (ratio_continuous m) ⟨a, ha⟩ ⟨b, hb⟩

lemma y_le (h : m.Good) {y t : ℝ} (ht : m.ratio y = t) : y ≤ max (m.yOf m.minSens t) (m.yOf m.maxSens t) := by
  have ht' : 1 - m.q < t := ht ▸ ratio_gt h y
  have hmin := minSens_pos h
  have hmax := maxSens_pos h
  rcases min_le_ratio h y with k | k
  · refine le_max_of_le_left ((one_strictMono h hmin).le_iff_le.1 ?_)
    rw [one_yOf h hmin ht', ← ht]; exact k
  · refine le_max_of_le_right ((one_strictMono h hmax).le_iff_le.1 ?_)
    rw [one_yOf h hmax ht', ← ht]; exact k

lemma le_y_of_le_min (h : m.Good) {y t : ℝ} (ht : m.ratio y = t) (hy : y ≤ m.minSens) : m.yOf m.minSens t ≤ y := by
  have ht' : 1 - m.q < t := ht ▸ ratio_gt h y
  refine (one_strictMono h (minSens_pos h)).le_iff_le.1 ?_
  rw [one_yOf h (minSens_pos h) ht', ← ht]
  exact ratio_le_min h hy

lemma le_y_of_max_le (h : m.Good) {y t : ℝ} (ht : m.ratio y = t) (hy : m.maxSens ≤ y) : m.yOf m.maxSens t ≤ y := by
  have ht' : 1 - m.q < t := ht ▸ ratio_gt h y
  refine (one_strictMono h (maxSens_pos h)).le_iff_le.1 ?_
  rw [one_yOf h (maxSens_pos h) ht', ← ht]
  exact ratio_le_max h hy

end Obj
end Verif.Mixture
