import Verif.Model.ConnectDots
import Verif.Proofs.PldCtor
import Verif.Proofs.PldCdf

/-! # Proofs about the connect-the-dots constructors -/

namespace Verif.PldPmf
open Verif Verif.Spec MeasureTheory

/-- Unclipped masses: `x0 = exp(previous epsilon)` (0 before the first), `d0` the previous delta (1 before the first). -/
noncomputable def raw (h : ℝ) (x0 d0 : ℝ) : List (ℤ × ℝ) → List (ℤ × ℝ)
  | [] => []
  | [(e, d)] => [(e, (d0 - d) / (1 - x0 / Real.exp (e * h)))]
  | (e, d) :: (e', d') :: l =>
    (e, (d0 - d) / (1 - x0 / Real.exp (e * h)) + (d' - d) / (Real.exp (((e' - e : ℤ) : ℝ) * h) - 1)) ::
      raw h (Real.exp (e * h)) d ((e', d') :: l)

/-- last delta -/
def lastD : List (ℤ × ℝ) → ℝ
  | [] => 0
  | [(_, d)] => d
  | _ :: l => lastD l

/-- dots valid after a previous point -/
def Incr : List (ℤ × ℝ) → Prop := List.Pairwise fun a b => a.1 < b.1

lemma raw_fst (h x0 d0 : ℝ) (D : List (ℤ × ℝ)) : (raw h x0 d0 D).map Prod.fst = D.map Prod.fst := by
  induction D generalizing x0 d0 with
  | nil => rfl
  | cons a l ih =>
    obtain ⟨e, d⟩ := a
    cases l with
    | nil => rfl
    | cons b l =>
      obtain ⟨e', d'⟩ := b
      simp only [raw, List.map_cons] at ih ⊢
      rw [ih]

/-- Total and exponentially weighted mass of the points from a dot on. -/
lemma raw_mass {h : ℝ} (hh : 0 < h) (x0 d0 : ℝ) (e : ℤ) (d : ℝ) (l : List (ℤ × ℝ)) (hx : x0 < Real.exp (e * h)) 
    (hI : Incr ((e, d) :: l)) :
    lastD ((e, d) :: l) + expect (raw h x0 d0 ((e, d) :: l)) (fun _ => 1) = d + (d0 - d) / (1 - x0 / Real.exp (e * h)) ∧
    expect (raw h x0 d0 ((e, d) :: l)) (fun k => Real.exp (-(k * h))) =
      (d0 - d) / (1 - x0 / Real.exp (e * h)) * Real.exp (-(e * h)) := by
  induction l generalizing x0 d0 e d with
  | nil => simp [raw, lastD, expect]
  | cons b l ih =>
    obtain ⟨e', d'⟩ := b
    have hlt : e < e' := by
      have := List.rel_of_pairwise_cons hI (a' := (e', d')) (by simp); exact this
    have hx' : Real.exp (e * h) < Real.exp (e' * h) := by
      apply Real.exp_lt_exp.2; have : (e : ℝ) < e' := by exact_mod_cast hlt
      nlinarith
    obtain ⟨i1, i2⟩ := ih (Real.exp (e * h)) d e' d' hx' hI.of_cons
    have E : Real.exp (((e' - e : ℤ) : ℝ) * h) = Real.exp (e' * h) / Real.exp (e * h) := by
      rw [← Real.exp_sub]; push_cast; congr 1; ring
    have p1 := Real.exp_pos (e * h)
    have p2 := Real.exp_pos (e' * h)
    have n1 : Real.exp (e' * h) - Real.exp (e * h) ≠ 0 := by linarith
    have key : (d' - d) / (Real.exp (e' * h) / Real.exp (e * h) - 1) =
        Real.exp (e * h) * ((d' - d) / (Real.exp (e' * h) - Real.exp (e * h))) := by
      field_simp
    have key2 : (d - d') / (1 - Real.exp (e * h) / Real.exp (e' * h)) =
        Real.exp (e' * h) * ((d - d') / (Real.exp (e' * h) - Real.exp (e * h))) := by
      field_simp
    constructor
    · have hl : lastD ((e, d) :: (e', d') :: l) = lastD ((e', d') :: l) := rfl
      rw [hl, raw, expect_cons, E, key]
      rw [key2] at i1
      have : lastD ((e', d') :: l) = d' + Real.exp (e' * h) * ((d - d') / (Real.exp (e' * h) - Real.exp (e * h))) -
          expect (raw h (Real.exp (e * h)) d ((e', d') :: l)) (fun _ => 1) := by linarith
      rw [this]
      generalize (d0 - d) / (1 - x0 / Real.exp (e * h)) = Y
      generalize expect (raw h (Real.exp (e * h)) d ((e', d') :: l)) (fun _ => 1) = T
      generalize Real.exp (e * h) = x1 at *
      generalize Real.exp (e' * h) = x2 at *
      have : x1 * ((d' - d) / (x2 - x1)) = - (x1 * ((d - d') / (x2 - x1))) := by rw [← mul_neg, ← neg_div, neg_sub]
      have h2 : (x2 - x1) * ((d - d') / (x2 - x1)) = d - d' := by field_simp
      linarith
    · rw [raw, expect_cons, i2, E, key, key2, Real.exp_neg, Real.exp_neg]
      generalize (d0 - d) / (1 - x0 / Real.exp (e * h)) = Y
      field_simp
      ring

/-- The hockey-stick curve of the unclipped masses. -/
noncomputable def rawHs (h x0 d0 : ℝ) (D : List (ℤ × ℝ)) (ε : ℝ) : ℝ :=
  lastD D + expect (raw h x0 d0 D) fun k => hinge (ε : EReal) (k * h)

lemma rawHs_below {h : ℝ} (hh : 0 < h) (x0 d0 : ℝ) (e : ℤ) (d : ℝ) (l : List (ℤ × ℝ)) (hx : x0 < Real.exp (e * h)) 
    (hI : Incr ((e, d) :: l)) (ε : ℝ) (hε : ε ≤ e * h) :
    rawHs h x0 d0 ((e, d) :: l) ε = d + (d0 - d) / (1 - x0 / Real.exp (e * h)) * (1 - Real.exp ε / Real.exp (e * h)) := by
  obtain ⟨m1, m2⟩ := raw_mass hh x0 d0 e d l hx hI
  unfold rawHs
  have : expect (raw h x0 d0 ((e, d) :: l)) (fun k => hinge (ε : EReal) (k * h)) =
      expect (raw h x0 d0 ((e, d) :: l)) (fun _ => 1) -
      Real.exp ε * expect (raw h x0 d0 ((e, d) :: l)) (fun k => Real.exp (-(k * h))) := by
    have hk : ∀ k ∈ (raw h x0 d0 ((e, d) :: l)).map Prod.fst, ε ≤ k * h := by
      rw [raw_fst]
      intro k hk
      obtain ⟨x, hx, rfl⟩ := List.mem_map.1 hk
      rcases List.mem_cons.1 hx with rfl | hx
      · exact hε
      · have h1 : e < x.1 := List.rel_of_pairwise_cons hI hx
        have : (e : ℝ) ≤ x.1 := by exact_mod_cast h1.le
        nlinarith
    clear m1 m2
    generalize raw h x0 d0 ((e, d) :: l) = R at hk
    induction R with
    | nil => simp [expect]
    | cons a R ih =>
      obtain ⟨k, v⟩ := a
      rw [expect_cons, expect_cons, expect_cons, ih fun k hk' => hk k (by simp [hk']), hinge_coe, max_eq_right, Real.exp_sub, Real.exp_neg]
      · ring
      · rw [sub_nonneg, Real.exp_le_one_iff, sub_nonpos]; exact hk k (by simp)
  rw [this, m2, ← add_sub_assoc, m1, Real.exp_neg]
  ring

lemma rawHs_above {h : ℝ} (x0 d0 : ℝ) (e : ℤ) (d : ℝ) (b : ℤ × ℝ) (l : List (ℤ × ℝ)) (ε : ℝ) (hε : e * h ≤ ε) :
    rawHs h x0 d0 ((e, d) :: b :: l) ε = rawHs h (Real.exp (e * h)) d (b :: l) ε := by
  obtain ⟨e', d'⟩ := b
  unfold rawHs
  rw [raw, expect_cons, hinge_of_le (by exact_mod_cast hε)]
  simp [lastD]

lemma rawHs_last {h : ℝ} (x0 d0 : ℝ) (e : ℤ) (d : ℝ) (ε : ℝ) (hε : e * h ≤ ε) :
    rawHs h x0 d0 [(e, d)] ε = d := by
  unfold rawHs
  rw [raw, expect_cons, hinge_of_le (by exact_mod_cast hε)]
  simp [lastD, expect]

/-- linear interpolation of a half plane bound -/
lemma interp {p q x0 x1 x d0 d1 : ℝ} (h01 : x0 < x1) (hx0 : x0 ≤ x) (hx1 : x ≤ x1) (hp : 0 < x1)
    (h0 : p ≤ x0 * q + d0) (h1 : p ≤ x1 * q + d1) :
    p ≤ x * q + (d1 + (d0 - d1) / (1 - x0 / x1) * (1 - x / x1)) := by
  have n : (0 : ℝ) < x1 - x0 := by linarith
  have e : d1 + (d0 - d1) / (1 - x0 / x1) * (1 - x / x1) = ((x1 - x) * d0 + (x - x0) * d1) / (x1 - x0) := by
    have : (1 : ℝ) - x0 / x1 ≠ 0 := by rw [ne_eq, sub_eq_zero]; intro h; rw [eq_div_iff hp.ne'] at h; linarith
    field_simp
    ring
  rw [e, ← sub_le_iff_le_add', le_div_iff₀ n]
  nlinarith [mul_le_mul_of_nonneg_left h0 (sub_nonneg.2 hx1), mul_le_mul_of_nonneg_left h1 (sub_nonneg.2 hx0)]

lemma rawHs_dominates {h : ℝ} (hh : 0 < h) {p q : ℝ} (hq : 0 ≤ q) (x0 d0 : ℝ) (h0 : p ≤ x0 * q + d0) (D : List (ℤ × ℝ)) (hne : D ≠ [])
    (hI : Incr D) (hx : ∀ a ∈ D, x0 < Real.exp (a.1 * h)) (hD : ∀ a ∈ D, p ≤ Real.exp (a.1 * h) * q + a.2) (ε : ℝ)
    (hε : x0 ≤ Real.exp ε) : p ≤ Real.exp ε * q + rawHs h x0 d0 D ε := by
  induction D generalizing x0 d0 with
  | nil => exact absurd rfl hne
  | cons a l ih =>
    obtain ⟨e, d⟩ := a
    have hx1 := hx (e, d) (by simp)
    have hd := hD (e, d) (by simp)
    simp only at hx1 hd
    rcases le_total ε (e * h) with hle | hle
    · rw [rawHs_below hh x0 d0 e d l hx1 hI ε hle]
      exact interp hx1 hε (Real.exp_le_exp.2 hle) (Real.exp_pos _) h0 hd
    · cases l with
      | nil =>
        rw [rawHs_last _ _ _ _ _ hle]
        have := mul_le_mul_of_nonneg_right (Real.exp_le_exp.2 hle) hq
        linarith
      | cons b l =>
        rw [rawHs_above _ _ _ _ _ _ _ hle]
        refine ih (Real.exp (e * h)) d hd (by simp) hI.of_cons ?_ (fun a ha => hD a (by simp [ha])) (Real.exp_le_exp.2 hle)
        intro a ha
        apply Real.exp_lt_exp.2
        have h1 : e < a.1 := List.rel_of_pairwise_cons hI ha
        have : (e : ℝ) < a.1 := by exact_mod_cast h1
        nlinarith

/-- No clipping when every delta lies below the chords, which is the case for exact hockey-stick values. -/
lemma raw_nonneg {h : ℝ} (hh : 0 < h) {Ω : Type*} [MeasurableSpace Ω] (P Q : Measure Ω) (x0 d0 : ℝ) 
    (h0 : ∀ S, MeasurableSet S → P.real S ≤ x0 * Q.real S + d0) (D : List (ℤ × ℝ))
    (hI : Incr D) (hx : ∀ a ∈ D, x0 < Real.exp (a.1 * h)) (hD : ∀ a ∈ D, IsHs P Q (a.1 * h) a.2) 
    (hmono : ∀ a ∈ D, a.2 ≤ d0) : ∀ a ∈ raw h x0 d0 D, 0 ≤ a.2 := by
  induction D generalizing x0 d0 with
  | nil => simp [raw]
  | cons a l ih =>
    obtain ⟨e, d⟩ := a
    have hx1 := hx (e, d) (by simp)
    have hd := hD (e, d) (by simp)
    have hm := hmono (e, d) (by simp)
    simp only at hx1 hd hm
    have hpos := Real.exp_pos (e * h)
    have hr : 0 < 1 - x0 / Real.exp (e * h) := by rw [sub_pos, div_lt_one hpos]; exact hx1
    cases l with
    | nil =>
      intro a ha
      simp only [raw, List.mem_singleton] at ha
      subst ha
      exact div_nonneg (by simpa using hm) hr.le
    | cons b l =>
      obtain ⟨e', d'⟩ := b
      have hb := hD (e', d') (by simp)
      simp only at hb
      have hlt : e < e' := List.rel_of_pairwise_cons hI (a' := (e', d')) (by simp)
      have hx' : Real.exp (e * h) < Real.exp (e' * h) := by
        apply Real.exp_lt_exp.2; have : (e : ℝ) < e' := by exact_mod_cast hlt
        nlinarith
      have hx'' : ∀ a ∈ (e', d') :: l, Real.exp (e * h) < Real.exp (a.1 * h) := by
        intro a ha
        apply Real.exp_lt_exp.2
        have h1 : e < a.1 := List.rel_of_pairwise_cons hI ha
        have : (e : ℝ) < a.1 := by exact_mod_cast h1
        nlinarith
      intro a ha
      simp only [raw, List.mem_cons] at ha
      rcases ha with rfl | ha
      · simp only
        -- the chord from the previous to the next dot
        have hc : Indist P Q (e * h) (d' + (d0 - d') / (1 - x0 / Real.exp (e' * h)) * (1 - Real.exp (e * h) / Real.exp (e' * h))) :=
          fun S hS => interp (hx1.trans hx') hx1.le hx'.le (Real.exp_pos _) (h0 S hS) (hb.1 S hS)
        have hle := hd.2 hc
        have E : Real.exp (((e' - e : ℤ) : ℝ) * h) = Real.exp (e' * h) / Real.exp (e * h) := by
          rw [← Real.exp_sub]; push_cast; congr 1; ring
        rw [E]
        have p2 := Real.exp_pos (e' * h)
        generalize Real.exp (e * h) = x1 at *
        generalize Real.exp (e' * h) = x2 at *
        have n1 : (0 : ℝ) < x1 - x0 := by linarith
        have n2 : (0 : ℝ) < x2 - x1 := by linarith
        have n3 : (0 : ℝ) < x2 - x0 := by linarith
        have k1 : d' + (d0 - d') / (1 - x0 / x2) * (1 - x1 / x2) = ((x2 - x1) * d0 + (x1 - x0) * d') / (x2 - x0) := by
          have : (1 : ℝ) - x0 / x2 ≠ 0 := by rw [ne_eq, sub_eq_zero]; intro h; rw [eq_div_iff p2.ne'] at h; linarith
          field_simp
          ring
        have k2 : (d0 - d) / (1 - x0 / x1) + (d' - d) / (x2 / x1 - 1) =
            x1 * ((x2 - x1) * d0 + (x1 - x0) * d' - (x2 - x0) * d) / ((x1 - x0) * (x2 - x1)) := by
          have a1 : (1 : ℝ) - x0 / x1 = (x1 - x0) / x1 := by field_simp
          have a2 : x2 / x1 - 1 = (x2 - x1) / x1 := by field_simp
          rw [a1, a2]
          field_simp
          ring
        rw [k2]
        rw [k1, le_div_iff₀ n3] at hle
        apply div_nonneg _ (by positivity)
        apply mul_nonneg hpos.le
        linarith
      · refine ih _ _ hd.1 hI.of_cons hx'' (fun a ha => hD a (by simp [ha])) ?_ a ha
        intro c hc
        -- deltas decrease
        refine (hD c (by simp [hc])).2 ?_
        intro S hS
        have := hd.1 S hS
        have hq : (0 : ℝ) ≤ Q.real S := measureReal_nonneg
        have h2 := mul_le_mul_of_nonneg_right (hx'' c hc).le hq
        linarith

/-! ### The model computes `raw` -/

lemma set_fresh {d : PyDict} {k : ℤ} (hk : k ∉ d.keys) (v : ℝ) : d.set k v = d ++ [(k, v)] := by
  induction d with
  | nil => rfl
  | cons a d ih =>
    obtain ⟨k', v'⟩ := a
    simp only [PyDict.keys, List.map_cons, List.mem_cons, not_or] at hk
    rw [PyDict.set, if_neg (Ne.symm hk.1), ih hk.2]; rfl

lemma foldl_set {l d : PyDict} (hn : (d ++ l).keys.Nodup) : l.foldl (fun d x => d.set x.1 x.2) d = d ++ l := by
  induction l generalizing d with
  | nil => simp
  | cons a l ih =>
    obtain ⟨k, v⟩ := a
    have hk : k ∉ d.keys := by
      intro h
      simp only [PyDict.keys, List.map_append, List.map_cons] at hn h
      exact (List.disjoint_of_nodup_append hn h) (by simp)
    rw [List.foldl_cons, set_fresh hk, ih (by simpa using hn)]
    simp

lemma dictOfZip_eq {ks : List ℤ} {vs : List ℝ} (hn : ks.Nodup) (hl : ks.length = vs.length) : dictOfZip ks vs = ks.zip vs := by
  unfold dictOfZip
  rw [foldl_set]
  · rfl
  · show ((ks.zip vs).map Prod.fst).Nodup
    rw [List.map_fst_zip (by omega)]; exact hn

lemma npDiff_length {α : Type} [Sub α] (l : List α) : (npDiff l).length = l.length - 1 := by
  induction l with
  | nil => rfl
  | cons a l ih => cases l with
    | nil => rfl
    | cons b l => simp only [npDiff, List.length_cons] at ih ⊢; omega

lemma npDiff_pos {l : List ℤ} (h : ∀ x ∈ npDiff l, 0 < x) : l.Pairwise (· < ·) := by
  rw [← List.isChain_iff_pairwise]
  induction l with
  | nil => simp
  | cons a l ih =>
    cases l with
    | nil => simp
    | cons b l =>
      simp only [npDiff, List.mem_cons, forall_eq_or_imp] at h
      rw [List.isChain_cons_cons]
      exact ⟨by linarith [h.1], ih h.2⟩

lemma npDiff_nonpos {l : List ℝ} (h : ∀ x ∈ npDiff l, x ≤ 0) : l.Pairwise (· ≥ ·) := by
  rw [← List.isChain_iff_pairwise]
  induction l with
  | nil => simp
  | cons a l ih =>
    cases l with
    | nil => simp
    | cons b l =>
      simp only [npDiff, List.mem_cons, forall_eq_or_imp] at h
      rw [List.isChain_cons_cons]
      exact ⟨by linarith [h.1], ih h.2⟩

lemma probs_eq (h : ℝ) (x0 d0 Y : ℝ) (e : ℤ) (d : ℝ) (es : List ℤ) (ds : List ℝ) (hl : es.length = ds.length)
    (hY : Y = (d0 - d) / (1 - x0 / Real.exp (e * h))) (hI : (e :: es).Pairwise (· < ·)) (hh : 0 < h) :
    (e :: es).zip (List.zipWith (fun a b => max 0 (a + b))
      (Y :: List.zipWith (fun d e => d / (Real.exp (-e) - 1)) (npDiff (d :: ds)) ((npDiff (e :: es)).map fun (k : ℤ) => (k : ℝ) * h))
      (List.zipWith (fun d e => d / (Real.exp e - 1)) (npDiff (d :: ds)) ((npDiff (e :: es)).map fun (k : ℤ) => (k : ℝ) * h) ++ [0])) =
    (raw h x0 d0 ((e :: es).zip (d :: ds))).map fun x => (x.1, max 0 x.2) := by
  induction es generalizing x0 d0 Y e d ds with
  | nil =>
    cases ds with
    | nil => simp [npDiff, raw, hY]
    | cons _ _ => simp at hl
  | cons e' es ih =>
    cases ds with
    | nil => simp at hl
    | cons d' ds =>
      have hlt : e < e' := List.rel_of_pairwise_cons hI (by simp)
      have := ih (Real.exp (e * h)) d ((d' - d) / (Real.exp (-(((e' - e : ℤ) : ℝ) * h)) - 1)) e' d' ds (by simpa using hl) (by
        have p1 := Real.exp_pos (e * h)
        have p2 := Real.exp_pos (e' * h)
        have E : Real.exp (-(((e' - e : ℤ) : ℝ) * h)) = Real.exp (e * h) / Real.exp (e' * h) := by
          rw [← Real.exp_sub]; push_cast; congr 1; ring
        rw [E, ← neg_div_neg_eq]; congr 1 <;> ring) hI.of_cons
      simp only [npDiff, List.map_cons, List.zipWith_cons_cons, List.zip_cons_cons, List.cons_append, raw] at this ⊢
      rw [this, hY]

lemma lastD_zip (es : List ℤ) (ds : List ℝ) (hl : es.length = ds.length) : lastD (es.zip ds) = ds.getLastD 0 := by
  induction es generalizing ds with
  | nil => cases ds with
    | nil => rfl
    | cons _ _ => simp at hl
  | cons e es ih =>
    cases ds with
    | nil => simp at hl
    | cons d ds =>
      cases es with
      | nil => cases ds with
        | nil => rfl
        | cons _ _ => simp at hl
      | cons e' es =>
        cases ds with
        | nil => simp at hl
        | cons d' ds =>
          have := ih (d' :: ds) (by simpa using hl)
          simpa [lastD] using this

/-- The arguments the constructor accepts. -/
structure DotsOk (eps : List ℤ) (deltas : List ℝ) : Prop where
  len : eps.length = deltas.length
  ne : eps ≠ []
  incr : eps.Pairwise (· < ·)
  range : ∀ d ∈ deltas, 0 ≤ d ∧ d ≤ 1
  anti : deltas.Pairwise (· ≥ ·)

lemma incr_zip {eps : List ℤ} (h : eps.Pairwise (· < ·)) (ds : List ℝ) : Incr (eps.zip ds) := by
  unfold Incr
  induction eps generalizing ds with
  | nil => simp
  | cons e eps ih =>
    cases ds with
    | nil => simp
    | cons d ds =>
      rw [List.zip_cons_cons, List.pairwise_cons]
      refine ⟨?_, ih h.of_cons ds⟩
      rintro ⟨a, b⟩ hab
      exact List.rel_of_pairwise_cons h (List.of_mem_zip hab).1

lemma connectDots_ok_iff {disc : ℝ} (hd : 0 < disc) (eps : List ℤ) (deltas : List ℝ) :
    (DotsOk eps deltas → ∃ m, connectDots disc eps deltas = .ok m ∧ m.WF ∧ m.disc = disc ∧
      m.infinityMass = lastD (eps.zip deltas) ∧ m.pessimistic = true ∧ m.NonNeg ∧
      (∀ φ, expect m.points φ = expect ((raw disc 0 1 (eps.zip deltas)).map fun x => (x.1, max 0 x.2)) φ)) ∧
    (¬ DotsOk eps deltas → connectDots disc eps deltas = .error .valueError) := by
  unfold connectDots
  by_cases h1 : eps.length ≠ deltas.length ∨ eps.length = 0
  · rw [if_pos h1]
    refine ⟨fun h => ?_, fun _ => rfl⟩
    rcases h1 with h1 | h1
    · exact absurd h.len h1
    · exact absurd (List.length_eq_zero_iff.1 h1) h.ne
  rw [if_neg h1]
  push Not at h1
  obtain ⟨hl, hne⟩ := h1
  have hne' : eps ≠ [] := fun h => hne (by simp [h])
  by_cases h2 : ∃ x ∈ (npDiff eps).map fun (k : ℤ) => (k : ℝ) * disc, x ≤ 0
  · simp only [if_pos h2, implies_true, and_true]
    intro h
    exfalso
    obtain ⟨x, hx, h0⟩ := h2
    obtain ⟨k, hk, rfl⟩ := List.mem_map.1 hx
    have : (0 : ℝ) < k := by
      have hp : ∀ l : List ℤ, l.Pairwise (· < ·) → ∀ k ∈ npDiff l, 0 < k := by
        intro l hl
        induction l with
        | nil => simp [npDiff]
        | cons a l ih => cases l with
          | nil => simp [npDiff]
          | cons b l =>
            intro k hk
            simp only [npDiff, List.mem_cons] at hk
            rcases hk with rfl | hk
            · have : a < b := List.rel_of_pairwise_cons hl (by simp)
              omega
            · exact ih hl.of_cons k hk
      exact_mod_cast hp eps h.incr k hk
    nlinarith
  simp only [if_neg h2]
  push Not at h2
  have hI : eps.Pairwise (· < ·) := by
    apply npDiff_pos
    intro k hk
    have := h2 _ (List.mem_map_of_mem hk)
    have : (0 : ℝ) < k := by
      by_contra hc
      push Not at hc
      nlinarith
    exact_mod_cast this
  by_cases h3 : (∃ d ∈ deltas, d < 0) ∨ ∃ d ∈ deltas, d > 1
  · simp only [if_pos h3, implies_true, and_true]
    intro h
    exfalso
    rcases h3 with ⟨d, hd, h3⟩ | ⟨d, hd, h3⟩
    · linarith [(h.range d hd).1]
    · linarith [(h.range d hd).2]
  simp only [if_neg h3]
  push Not at h3
  by_cases h4 : ∃ x ∈ npDiff deltas, x > 0
  · simp only [if_pos h4, implies_true, and_true]
    intro h
    exfalso
    obtain ⟨x, hx, h0⟩ := h4
    have hp : ∀ l : List ℝ, l.Pairwise (· ≥ ·) → ∀ k ∈ npDiff l, k ≤ 0 := by
      intro l hl
      induction l with
      | nil => simp [npDiff]
      | cons a l ih => cases l with
        | nil => simp [npDiff]
        | cons b l =>
          intro k hk
          simp only [npDiff, List.mem_cons] at hk
          rcases hk with rfl | hk
          · have : a ≥ b := List.rel_of_pairwise_cons hl (by simp)
            linarith
          · exact ih hl.of_cons k hk
    linarith [hp deltas h.anti x hx]
  simp only [if_neg h4]
  push Not at h4
  have hA := npDiff_nonpos h4
  have hok : DotsOk eps deltas := ⟨hl, hne', hI, fun d hd => ⟨h3.1 d hd, h3.2 d hd⟩, hA⟩
  refine ⟨fun _ => ?_, fun h => absurd hok h⟩
  have hz : dictOfZip eps (List.zipWith (fun a b => max 0 (a + b))
      ((1 - deltas.headD 0) :: List.zipWith (fun d e => d / (Real.exp (-e) - 1)) (npDiff deltas)
        ((npDiff eps).map fun (k : ℤ) => (k : ℝ) * disc))
      (List.zipWith (fun d e => d / (Real.exp e - 1)) (npDiff deltas)
        ((npDiff eps).map fun (k : ℤ) => (k : ℝ) * disc) ++ [0])) =
      (raw disc 0 1 (eps.zip deltas)).map fun x => (x.1, max 0 x.2) := by
    rw [dictOfZip_eq (hI.imp fun h => ne_of_lt h)]
    · cases eps with
      | nil => exact absurd rfl hne'
      | cons e es =>
        cases deltas with
        | nil => simp at hl
        | cons d ds =>
          exact probs_eq disc 0 1 (1 - d) e d es ds (by simpa using hl) (by simp) hI hd
    · simp only [List.length_zipWith, List.length_cons, List.length_append, List.length_map, npDiff_length, List.length_nil]
      omega
  rw [hz, ← lastD_zip eps deltas hl]
  have hn : PyDict.keys ((raw disc 0 1 (eps.zip deltas)).map fun x => (x.1, max 0 x.2)) = eps := by
    unfold PyDict.keys
    rw [List.map_map]
    show (raw disc 0 1 (eps.zip deltas)).map Prod.fst = eps
    rw [raw_fst, List.map_fst_zip (by omega)]
  obtain ⟨m, g, g1, g2, g3, g4, g5, g6, _⟩ := createPmf_ok (inf := lastD (eps.zip deltas)) (pess := true)
    (d := (raw disc 0 1 (eps.zip deltas)).map fun x => (x.1, max 0 x.2)) (by rw [hn]; exact hI.imp fun h => ne_of_lt h) hd
  refine ⟨m, g, g1, g2, g3, g4, g6 ?_ ?_, g5⟩
  · rw [lastD_zip eps deltas hl]
    cases deltas with
    | nil => simp
    | cons d ds =>
      rw [List.getLastD_cons]
      exact (hok.range _ (by
        cases ds with
        | nil => simp
        | cons d' ds => rw [List.getLastD_eq_getLast?, List.getLast?_eq_getLast_of_ne_nil (by simp)]; simp only [Option.getD_some]; exact List.mem_cons_of_mem _ (List.getLast_mem _))).1
  · intro x hx
    obtain ⟨y, _, rfl⟩ := List.mem_map.1 hx
    exact le_max_left _ _

end Verif.PldPmf
