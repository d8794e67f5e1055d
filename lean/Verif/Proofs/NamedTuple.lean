import Verif.Spec.NamedTuple

/-! Helper lemmas for the serialisation round trip. -/

namespace Verif
open Spec

namespace PyVal

mutual
theorem from_to : ∀ v : PyVal, NoNT v → fromNT (toNT v) = v
  | .num _, _ => by simp [toNT, fromNT]
  | .attrObj m c ns vs, h => by
      rw [toNT, fromNT, fromFields_toFields vs (by simpa [NoNT] using h)]
  | .namedTuple _ _ _ _, h => by simp [NoNT] at h
  | .seq _, _ => by simp [toNT, fromNT]
  | .mapping _ _, _ => by simp [toNT, fromNT]
theorem fromFields_toFields : ∀ vs : List PyVal, NoNTL vs → fromFields (toFields vs) = vs
  | [], _ => by simp [toFields, fromFields]
  | v :: vs, h => by
      rw [NoNTL] at h
      rw [toFields, fromFields, fromField_toField v h.1, fromFields_toFields vs h.2]
theorem fromField_toField : ∀ v : PyVal, NoNT v → fromField (toField v) = v
  | .num _, _ => by simp [toField, fromField]
  | .attrObj m c ns vs, h => by
      rw [toField, fromField, fromFields_toFields vs (by simpa [NoNT] using h)]
  | .namedTuple _ _ _ _, h => by simp [NoNT] at h
  | .seq vs, h => by
      rw [toField, fromField, fromElems_toElems vs (by simpa [NoNT] using h)]
  | .mapping _ vs, h => by
      rw [toField, fromField, fromElems_toElems vs (by simpa [NoNT] using h)]
theorem fromElems_toElems : ∀ vs : List PyVal, NoNTL vs → fromElems (toElems vs) = vs
  | [], _ => by simp [toElems, fromElems]
  | v :: vs, h => by
      rw [NoNTL] at h
      rw [toElems, fromElems, from_to v h.1, fromElems_toElems vs h.2]
end

end PyVal

theorem noNTL_map_num (l : List PyNum) : NoNTL (l.map .num) := by
  induction l with
  | nil => simp [NoNTL]
  | cons a l ih => simp [NoNTL, NoNT, ih]

theorem noNTL_map_int (l : List ℤ) : NoNTL (l.map fun z => .num (.int z)) := by
  induction l with
  | nil => simp [NoNTL]
  | cons a l ih => simp [NoNTL, NoNT, ih]

mutual
theorem DpEvent.noNT_toPy : ∀ e : DpEvent, NoNT e.toPy
  | .noOp => by simp [DpEvent.toPy, NoNT, NoNTL]
  | .nonPrivate => by simp [DpEvent.toPy, NoNT, NoNTL]
  | .unsupported => by simp [DpEvent.toPy, NoNT, NoNTL]
  | .randomizedResponse _ _ => by simp [DpEvent.toPy, NoNT, NoNTL]
  | .gaussian _ => by simp [DpEvent.toPy, NoNT, NoNTL]
  | .laplace _ => by simp [DpEvent.toPy, NoNT, NoNTL]
  | .selfComposed e _ => by simp [DpEvent.toPy, NoNT, NoNTL, DpEvent.noNT_toPy e]
  | .composed es => by simp [DpEvent.toPy, NoNT, NoNTL, DpEvent.noNTL_toPyList es]
  | .poissonSampled _ e => by simp [DpEvent.toPy, NoNT, NoNTL, DpEvent.noNT_toPy e]
  | .sampledWithReplacement _ _ e => by simp [DpEvent.toPy, NoNT, NoNTL, DpEvent.noNT_toPy e]
  | .sampledWithoutReplacement _ _ e => by simp [DpEvent.toPy, NoNT, NoNTL, DpEvent.noNT_toPy e]
  | .singleEpochTreeAggregation _ s => by
      cases s <;> simp [DpEvent.toPy, NoNT, NoNTL, intSeq, noNTL_map_int]
  | .repeatAndSelect e _ _ => by simp [DpEvent.toPy, NoNT, NoNTL, DpEvent.noNT_toPy e]
  | .mixtureOfGaussians _ _ _ => by simp [DpEvent.toPy, NoNT, NoNTL, numSeq, noNTL_map_num]
theorem DpEvent.noNTL_toPyList : ∀ es : List DpEvent, NoNTL (DpEvent.toPyList es)
  | [] => by simp [DpEvent.toPyList, NoNTL]
  | e :: es => by simp [DpEvent.toPyList, NoNTL, DpEvent.noNT_toPy e, DpEvent.noNTL_toPyList es]
end

theorem toElems_map_num (l : List PyNum) : PyVal.toElems (l.map .num) = l.map .num := by
  induction l with
  | nil => simp [PyVal.toElems]
  | cons a l ih => simp [PyVal.toElems, PyVal.toNT, ih]

theorem toElems_map_int (l : List ℤ) :
    PyVal.toElems (l.map fun z => .num (.int z)) = l.map fun z => .num (.int z) := by
  induction l with
  | nil => simp [PyVal.toElems]
  | cons a l ih => simp [PyVal.toElems, PyVal.toNT, ih]

theorem noAttrsL_map_num (l : List PyNum) : NoAttrsL (l.map .num) := by
  induction l with
  | nil => simp [NoAttrsL]
  | cons a l ih => simp [NoAttrsL, NoAttrs, ih]

theorem noAttrsL_map_int (l : List ℤ) : NoAttrsL (l.map fun z => .num (.int z)) := by
  induction l with
  | nil => simp [NoAttrsL]
  | cons a l ih => simp [NoAttrsL, NoAttrs, ih]

theorem DpEvent.toField_toPy (e : DpEvent) : PyVal.toField e.toPy = PyVal.toNT e.toPy := by
  cases e <;> simp [DpEvent.toPy, PyVal.toField, PyVal.toNT]

local macro "nt_simp" : tactic => `(tactic|
  simp [DpEvent.toPy, PyVal.toNT, PyVal.toFields, PyVal.toField, NoAttrs, NoAttrsL])

mutual
theorem DpEvent.noAttrs_toNT : ∀ e : DpEvent, NoAttrs (PyVal.toNT e.toPy)
  | .noOp => by nt_simp
  | .nonPrivate => by nt_simp
  | .unsupported => by nt_simp
  | .randomizedResponse _ _ => by nt_simp
  | .gaussian _ => by nt_simp
  | .laplace _ => by nt_simp
  | .selfComposed e _ => by
      simp [DpEvent.toPy, PyVal.toNT, PyVal.toFields, NoAttrs, NoAttrsL, DpEvent.toField_toPy,
        DpEvent.noAttrs_toNT e, PyVal.toField]
  | .composed es => by
      simp [DpEvent.toPy, PyVal.toNT, PyVal.toFields, NoAttrs, NoAttrsL, PyVal.toField,
        DpEvent.noAttrsL_toElems es]
  | .poissonSampled _ e => by
      simp [DpEvent.toPy, PyVal.toNT, PyVal.toFields, NoAttrs, NoAttrsL, DpEvent.toField_toPy,
        DpEvent.noAttrs_toNT e, PyVal.toField]
  | .sampledWithReplacement _ _ e => by
      simp [DpEvent.toPy, PyVal.toNT, PyVal.toFields, NoAttrs, NoAttrsL, DpEvent.toField_toPy,
        DpEvent.noAttrs_toNT e, PyVal.toField]
  | .sampledWithoutReplacement _ _ e => by
      simp [DpEvent.toPy, PyVal.toNT, PyVal.toFields, NoAttrs, NoAttrsL, DpEvent.toField_toPy,
        DpEvent.noAttrs_toNT e, PyVal.toField]
  | .singleEpochTreeAggregation _ s => by
      cases s <;> simp [DpEvent.toPy, PyVal.toNT, PyVal.toFields, PyVal.toField, NoAttrs, NoAttrsL,
        intSeq, toElems_map_int, noAttrsL_map_int]
  | .repeatAndSelect e _ _ => by
      simp [DpEvent.toPy, PyVal.toNT, PyVal.toFields, NoAttrs, NoAttrsL, DpEvent.toField_toPy,
        DpEvent.noAttrs_toNT e, PyVal.toField]
  | .mixtureOfGaussians _ _ _ => by
      simp [DpEvent.toPy, PyVal.toNT, PyVal.toFields, PyVal.toField, NoAttrs, NoAttrsL,
        numSeq, toElems_map_num, noAttrsL_map_num]
theorem DpEvent.noAttrsL_toElems : ∀ es : List DpEvent, NoAttrsL (PyVal.toElems (DpEvent.toPyList es))
  | [] => by simp [DpEvent.toPyList, PyVal.toElems, NoAttrsL]
  | e :: es => by
      simp [DpEvent.toPyList, PyVal.toElems, NoAttrsL, DpEvent.noAttrs_toNT e,
        DpEvent.noAttrsL_toElems es]
end

theorem map_num_inj {l l' : List PyNum} (h : l.map PyVal.num = l'.map PyVal.num) : l = l' :=
  List.map_injective_iff.2 (fun _ _ h => by injection h) h

theorem map_int_inj {l l' : List ℤ}
    (h : (l.map fun z => PyVal.num (.int z)) = l'.map fun z => PyVal.num (.int z)) : l = l' :=
  List.map_injective_iff.2 (fun _ _ h => by injection h with h; injection h) h

mutual
theorem DpEvent.toPy_inj : ∀ e f : DpEvent, e.toPy = f.toPy → e = f
  | .noOp, f, h => by cases f <;> simp_all [DpEvent.toPy]
  | .nonPrivate, f, h => by cases f <;> simp_all [DpEvent.toPy]
  | .unsupported, f, h => by cases f <;> simp_all [DpEvent.toPy]
  | .randomizedResponse _ _, f, h => by cases f <;> simp_all [DpEvent.toPy]
  | .gaussian _, f, h => by cases f <;> simp_all [DpEvent.toPy]
  | .laplace _, f, h => by cases f <;> simp_all [DpEvent.toPy]
  | .selfComposed e _, f, h => by
      cases f <;> simp [DpEvent.toPy] at h
      simp [DpEvent.toPy_inj e _ h.1, h.2]
  | .composed es, f, h => by
      cases f <;> simp [DpEvent.toPy] at h
      simp [DpEvent.toPyList_inj es _ h]
  | .poissonSampled _ e, f, h => by
      cases f <;> simp [DpEvent.toPy] at h
      simp [DpEvent.toPy_inj e _ h.2, h.1]
  | .sampledWithReplacement _ _ e, f, h => by
      cases f <;> simp [DpEvent.toPy] at h
      simp [DpEvent.toPy_inj e _ h.2.2, h.1, h.2.1]
  | .sampledWithoutReplacement _ _ e, f, h => by
      cases f <;> simp [DpEvent.toPy] at h
      simp [DpEvent.toPy_inj e _ h.2.2, h.1, h.2.1]
  | .singleEpochTreeAggregation _ s, f, h => by
      cases f <;> simp [DpEvent.toPy] at h
      rename_i s'
      obtain ⟨h1, h2⟩ := h
      cases s <;> cases s' <;> simp [intSeq] at h2
      · simp [h1, h2]
      · rw [h1, map_int_inj h2]
  | .repeatAndSelect e _ _, f, h => by
      cases f <;> simp [DpEvent.toPy] at h
      simp [DpEvent.toPy_inj e _ h.1, h.2.1, h.2.2]
  | .mixtureOfGaussians _ _ _, f, h => by
      cases f <;> simp [DpEvent.toPy, numSeq] at h
      rw [h.1, map_num_inj h.2.1, map_num_inj h.2.2]
theorem DpEvent.toPyList_inj : ∀ es fs : List DpEvent, DpEvent.toPyList es = DpEvent.toPyList fs → es = fs
  | [], [], _ => rfl
  | [], _ :: _, h => by simp [DpEvent.toPyList] at h
  | _ :: _, [], h => by simp [DpEvent.toPyList] at h
  | e :: es, f :: fs, h => by
      simp [DpEvent.toPyList] at h
      rw [DpEvent.toPy_inj e f h.1, DpEvent.toPyList_inj es fs h.2]
end

end Verif
