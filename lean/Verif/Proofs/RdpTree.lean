import Verif.Props.RdpConversion
import Verif.Proofs.RdpFns

/-! # Tree aggregation -/

namespace Verif.Spec
open MeasureTheory ProbabilityTheory

/-- Weakening the requirements of a sequence of mechanisms. -/
lemma Adaptive.mono {l l' : List PairProp} {Ω : Type} [MeasurableSpace Ω] {P Q : Measure Ω} (h : Adaptive l Ω P Q)
    (hl : List.Forall₂ (fun C C' : PairProp => ∀ (Ω : Type) [MeasurableSpace Ω] (P Q : Measure Ω) [IsProbabilityMeasure P]
      [IsProbabilityMeasure Q], C Ω P Q → C' Ω P Q) l l') : Adaptive l' Ω P Q := by
  induction h generalizing l' with
  | nil P => cases hl; exact .nil P
  | @cons C l Ω₁ Ω₂ _ _ P Q _ _ κ η _ _ hC _ ih =>
    cases hl with
    | cons h1 h2 => exact .cons P Q κ η (h1 _ _ _ hC) fun x => ih x h2

/-- The node above step `t` at level `j`. -/
lemma below_iff (t j i : ℕ) : Below t (j, i) ↔ i = t / 2 ^ j := by
  unfold Below
  have h := pow_pos (show 0 < 2 by norm_num) j
  simp only
  rw [eq_comm, Nat.div_eq_iff h]
  constructor
  · rintro ⟨h1, h2⟩
    exact ⟨h1, Nat.le_sub_one_of_lt (by rw [add_mul] at h2; omega)⟩
  · rintro ⟨h1, h2⟩
    refine ⟨h1, ?_⟩
    rw [add_mul]; omega

lemma level_lt {n : ℕ} {v : ℕ × ℕ} (h : IsTreeNode n v) : v.1 < Nat.clog 2 (n + 1) := by
  rw [Nat.lt_clog_iff_pow_lt (by norm_num)]
  unfold IsTreeNode at h
  have : 2 ^ v.1 ≤ (v.2 + 1) * 2 ^ v.1 := Nat.le_mul_of_pos_left _ (by omega)
  omega

/-- A step is below at most one node of each level. -/
lemma count_above_le (n t : ℕ) (l : List (ℕ × ℕ)) (hl : l.Nodup) (hn : ∀ v ∈ l, IsTreeNode n v) (hb : ∀ v ∈ l, Below t v) :
    l.length ≤ Nat.clog 2 (n + 1) := by
  have hinj : ∀ v ∈ l, ∀ w ∈ l, v.1 = w.1 → v = w := by
    intro v hv w hw h
    have h1 := (below_iff t v.1 v.2).1 (hb v hv)
    have h2 := (below_iff t w.1 w.2).1 (hb w hw)
    exact Prod.ext h (by rw [h1, h2, h])
  have hnd : (l.map Prod.fst).Nodup := hl.map_on fun v hv w hw h => hinj v hv w hw h
  have hsub : (l.map Prod.fst) ⊆ List.range (Nat.clog 2 (n + 1)) := by
    intro j hj
    obtain ⟨v, hv, rfl⟩ := List.mem_map.1 hj
    exact List.mem_range.2 (level_lt (hn v hv))
  have := (hnd.subperm hsub).length_le
  simpa using this

end Verif.Spec

namespace Verif.Rdp
open Verif Verif.Spec

/-- The depth computed by the code. -/
lemma depth_eq (n : ℕ) : ⌈Real.logb 2 (((n : ℤ) : ℝ) + 1)⌉ = (Nat.clog 2 (n + 1) : ℤ) := by
  have h := Real.ceil_logb_natCast (b := 2) (r := ((n + 1 : ℕ) : ℝ)) (by positivity)
  rw [Int.clog_natCast] at h
  rw [← h]
  push_cast
  rfl

lemma foldr_max_cast (l : List ℕ) : (l.map (fun c : ℕ => (c : ℤ))).foldr max 0 = ((l.foldr max 0 : ℕ) : ℤ) := by
  induction l with
  | nil => simp
  | cons a l ih => simp [ih]

lemma le_foldr_max {l : List ℕ} {n : ℕ} (h : n ∈ l) : n ≤ l.foldr max 0 := by
  induction l with
  | nil => simp at h
  | cons a l ih =>
    simp only [List.foldr_cons]
    rcases List.mem_cons.1 h with rfl | h
    · exact le_max_left _ _
    · exact (ih h).trans (le_max_right _ _)

end Verif.Rdp
