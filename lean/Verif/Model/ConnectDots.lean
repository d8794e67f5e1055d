import Verif.Model.PldPmf

/-!
# Model of the connect-the-dots constructors of `pld/pld_pmf.py`
-/

namespace Verif.PldPmf

/-- `np.diff` of a one-dimensional array. `pld/pld_pmf.py:638`, `647`, `755`. -/
def npDiff {α : Type} [Sub α] : List α → List α
  | a :: b :: l => (b - a) :: npDiff (b :: l)
  | _ => []

/-- `dict(zip(keys, values))`: later values overwrite earlier ones with the same key. `pld/pld_pmf.py:668`, `778-779`. -/
def dictOfZip (keys : List ℤ) (values : List ℝ) : PyDict :=
  (keys.zip values).foldl (fun d x => d.set x.1 x.2) []

open Classical in
/-- `create_pmf_pessimistic_connect_dots`, `pld_pmf.py:579-671`. `np.expm1(x)` is `exp x - 1`. The arrays are non-empty
where `deltas[0]` and `deltas[-1]` are read (lines 631-634 have raised otherwise). -/
noncomputable def connectDots (disc : ℝ) (roundedEpsilons : List ℤ) (deltas : List ℝ) : Except Err Pmf :=
  if roundedEpsilons.length ≠ deltas.length ∨ roundedEpsilons.length = 0 then .error .valueError
  else
    let epsilonDiffs := (npDiff roundedEpsilons).map fun (k : ℤ) => (k : ℝ) * disc
    if ∃ x ∈ epsilonDiffs, x ≤ 0 then .error .valueError
    else if (∃ d ∈ deltas, d < 0) ∨ (∃ d ∈ deltas, d > 1) then .error .valueError
    else
      let deltaDiffs := npDiff deltas
      if ∃ x ∈ deltaDiffs, x > 0 then .error .valueError
      else
        let v1 := (1 - deltas.headD 0) :: List.zipWith (fun d e => d / (Real.exp (-e) - 1)) deltaDiffs epsilonDiffs
        let v2 := List.zipWith (fun d e => d / (Real.exp e - 1)) deltaDiffs epsilonDiffs ++ [0]
        let probs := List.zipWith (fun a b => max 0 (a + b)) v1 v2
        createPmf (dictOfZip roundedEpsilons probs) disc (deltas.getLastD 0) true

open Classical in
/-- `create_pmf_pessimistic_connect_dots_fixed_gap`, `pld_pmf.py:674-782`. -/
noncomputable def connectDotsFixedGap (disc : ℝ) (lower upper : ℤ) (deltas : List ℝ) : Except Err Pmf :=
  if upper < lower then .error .valueError
  else if (deltas.length : ℤ) ≠ upper - lower + 1 then .error .valueError
  else if (∃ d ∈ deltas, d < 0) ∨ (∃ d ∈ deltas, d > 1) then .error .valueError
  else if lower = upper then
    createPmf [(lower, 1 - deltas.headD 0)] disc (deltas.headD 0) true
  else
    let dd := npDiff deltas
    if ∃ x ∈ dd, x > 0 then .error .valueError
    else
      let first := 1 - deltas.headD 0 + dd.headD 0 / (Real.exp disc - 1)
      let middle := List.zipWith (fun a b => (a - b * Real.exp disc) / (Real.exp disc - 1)) dd.tail dd.dropLast
      let last := dd.getLastD 0 / (Real.exp (-disc) - 1)
      let probs := (first :: middle ++ [last]).map fun p => max 0 p
      createPmf (dictOfZip (PldCommon.pyRange lower (upper + 1)) probs) disc (deltas.getLastD 0) true

end Verif.PldPmf
