import Verif.Proofs.PldEventLaws
import Mathlib.MeasureTheory.Constructions.Pi

/-! # Proofs: independent releases -/

namespace Verif.Spec
open MeasureTheory ProbabilityTheory

lemma LossLaw.Dominates.map {Ω Ω' : Type*} [MeasurableSpace Ω] [MeasurableSpace Ω'] {P Q : Measure Ω} {L : LossLaw} (h : L.Dominates P Q)
    {g : Ω → Ω'} (hg : Measurable g) : L.Dominates (P.map g) (Q.map g) := fun e => Verif.Mech.Indist.map (h e) hg

variable {X : Type*} [MeasurableSpace X]

lemma LossLaw.Dominates.prod {Ω₁ Ω₂ : Type*} [MeasurableSpace Ω₁] [MeasurableSpace Ω₂] {P Q : Measure Ω₁} {P' Q' : Measure Ω₂}
    [IsProbabilityMeasure P] [IsProbabilityMeasure Q] [IsProbabilityMeasure P'] [IsProbabilityMeasure Q']
    {A B : LossLaw} (hA : A.Dominates P Q) (hB : B.Dominates P' Q') : (A.conv B).Dominates (P.prod P') (Q.prod Q') := by
  have := hA.adaptive (κ := Kernel.const Ω₁ P') (η := Kernel.const Ω₁ Q') (B := B) fun x => by simpa using hB
  rwa [Measure.compProd_const, Measure.compProd_const] at this

lemma pi_dominates_fin : ∀ {n : ℕ} (P Q : Fin n → Measure X) [∀ i, IsProbabilityMeasure (P i)] [∀ i, IsProbabilityMeasure (Q i)]
    (L : Fin n → LossLaw), (∀ i, (L i).Dominates (P i) (Q i)) → (LossLaw.convAll (List.ofFn L)).Dominates (Measure.pi P) (Measure.pi Q)
  | 0, P, Q, _, _, L, _ => by
    obtain rfl : P = Q := Subsingleton.elim _ _
    exact zero_dominates _
  | n + 1, P, Q, _, _, L, h => by
    have ih := pi_dominates_fin (fun j : Fin n => P j.succ) (fun j => Q j.succ) (fun j => L j.succ) fun j => h _
    have hp := (h 0).prod ih
    have e : ∀ R : Fin (n + 1) → Measure X, (∀ i, IsProbabilityMeasure (R i)) →
        Measure.pi R = ((R 0).prod (Measure.pi fun j : Fin n => R j.succ)).map (MeasurableEquiv.piFinSuccAbove (fun _ => X) 0).symm := by
      intro R hR
      have := (measurePreserving_piFinSuccAbove R 0).map_eq
      simp only [Fin.zero_succAbove] at this
      rw [← this, MeasurableEquiv.map_symm_map]
    rw [e P inferInstance, e Q inferInstance, List.ofFn_succ]
    exact hp.map (MeasurableEquiv.measurable _)

variable {ι : Type*} [Fintype ι]

lemma pi_dominates (P Q : ι → Measure X) [∀ i, IsProbabilityMeasure (P i)] [∀ i, IsProbabilityMeasure (Q i)] (L : ι → LossLaw)
    (h : ∀ i, (L i).Dominates (P i) (Q i)) :
    (LossLaw.convAll (List.ofFn fun j => L ((Fintype.equivFin ι).symm j))).Dominates (Measure.pi P) (Measure.pi Q) := by
  have := pi_dominates_fin (fun j => P ((Fintype.equivFin ι).symm j)) (fun j => Q ((Fintype.equivFin ι).symm j))
    (fun j => L ((Fintype.equivFin ι).symm j)) fun j => h _
  have h2 := this.map (MeasurableEquiv.piCongrLeft (fun _ : ι => X) (Fintype.equivFin ι).symm).measurable
  rwa [Measure.pi_map_piCongrLeft, Measure.pi_map_piCongrLeft] at h2

lemma convAll_indicator (A : LossLaw) (l : List Bool) :
    LossLaw.convAll (l.map fun b => if b then A else LossLaw.zero) = A.pow (l.count true) := by
  induction l with
  | nil => rfl
  | cons b l ih =>
    rw [List.map_cons, LossLaw.convAll, ih]
    cases b
    · simp only [Bool.false_eq_true, if_false, zero_conv]
      rw [List.count_cons_of_ne (by simp)]
    · simp only [if_true]
      rw [List.count_cons_self]
      rfl

open Classical in
/-- The coordinates outside `S` do not depend on the data. -/
lemma pi_dominates_on (P Q : ι → Measure X) [∀ i, IsProbabilityMeasure (P i)] [∀ i, IsProbabilityMeasure (Q i)] (A : LossLaw)
    (S : Finset ι) (hS : ∀ i ∈ S, A.Dominates (P i) (Q i)) (hn : ∀ i ∉ S, P i = Q i) :
    (A.pow S.card).Dominates (Measure.pi P) (Measure.pi Q) := by
  have := pi_dominates P Q (fun i => if i ∈ S then A else LossLaw.zero) fun i => by
    by_cases hi : i ∈ S
    · simpa [hi] using hS i hi
    · simp only [hi, if_false]; rw [hn i hi]; exact zero_dominates _
  have e : (List.ofFn fun j => if (Fintype.equivFin ι).symm j ∈ S then A else LossLaw.zero) =
      (List.ofFn fun j => decide ((Fintype.equivFin ι).symm j ∈ S)).map fun b => if b then A else LossLaw.zero := by
    rw [List.map_ofFn]
    congr 1
    ext j
    simp [Function.comp]
  rw [e, convAll_indicator] at this
  have hc : (List.ofFn fun j => decide ((Fintype.equivFin ι).symm j ∈ S)).count true = S.card := by
    rw [List.ofFn_eq_map, List.count_eq_countP, List.countP_map]
    rw [show S.card = (S.map (Fintype.equivFin ι).toEmbedding).card by simp]
    have : S.map (Fintype.equivFin ι).toEmbedding = Finset.univ.filter fun j => (Fintype.equivFin ι).symm j ∈ S := by
      ext j
      simp only [Finset.mem_map, Equiv.coe_toEmbedding, Finset.mem_filter, Finset.mem_univ, true_and]
      constructor
      · rintro ⟨i, hi, rfl⟩; simpa using hi
      · intro hj; exact ⟨_, hj, by simp⟩
    rw [this, Finset.card_filter, ← List.sum_ofFn, List.ofFn_eq_map, List.countP_eq_length_filter]
    generalize List.finRange _ = l
    induction l with
    | nil => rfl
    | cons a l ih =>
      rw [List.map_cons, List.sum_cons, ← ih, List.filter_cons]
      by_cases ha : (Fintype.equivFin ι).symm a ∈ S
      · rw [if_pos (by simp [ha]), if_pos ha, List.length_cons, add_comm]
      · rw [if_neg (by simp [ha]), if_neg ha, zero_add]
  rwa [hc] at this

end Verif.Spec
