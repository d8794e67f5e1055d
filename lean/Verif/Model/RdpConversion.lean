import Verif.Model.RdpAccountant
import Mathlib.Analysis.SpecialFunctions.Log.ERealExp

/-!
# Model of `compute_delta` and `compute_epsilon` (`rdp_privacy_accountant.py:162-277`)

Orders are finite reals, RDP values are `EReal` (`np.inf` allowed), `epsilon` and `delta` are finite reals. The logged
warnings are not modelled.
-/

namespace Verif.RdpConv
open Verif

/-- `math.exp(x)` of a float that may be infinite. Called in `rdp/rdp_privacy_accountant.py:204`, `215`. -/
noncomputable def mexp (x : EReal) : ℝ := (EReal.exp x).toReal

open Classical in
/-- `np.argmin` of a list: the first index of the minimum; raises (here `none`) for an empty list. Called in `rdp/rdp_privacy_accountant.py:214`, `276`. -/
noncomputable def argmin : List EReal → Option ℕ
  | [] => none
  | x :: xs =>
    match argmin xs with
    | none => some 0
    | some j => if x ≤ xs.getD j ⊤ then some 0 else some (j + 1)

open Classical in
/-- Body of the loop of `compute_delta` for one order `a` with RDP value `r`, lines 191-210. -/
noncomputable def logDelta (a : ℝ) (r : EReal) (epsilon : ℝ) : EReal :=
  let logdelta : EReal :=
    if r < 0 then ⊥
    else if r = 0 then ⊥
    else ((0.5 * Real.log (1 + -mexp (-r)) : ℝ) : EReal)
  if a > 1.01 then
    let rdpBound : EReal :=
      ((a - 1 : ℝ) : EReal) * (r - (epsilon : EReal) + ((Real.log (1 + -1 / a) : ℝ) : EReal)) - ((Real.log a : ℝ) : EReal)
    min logdelta rdpBound
  else logdelta

open Classical in
/-- The loop of `compute_delta`, lines 187-212. -/
noncomputable def logDeltas (epsilon : ℝ) : List (ℝ × EReal) → Except Err (List EReal)
  | [] => .ok []
  | (a, r) :: l =>
    if a < 1 then .error .valueError
    else match logDeltas epsilon l with
      | .error e => .error e
      | .ok ds => .ok (logDelta a r epsilon :: ds)

open Classical in
/-- `compute_delta`, `rdp_privacy_accountant.py:162-215`: the pair (delta, optimal order). -/
noncomputable def computeDelta (orders : List ℝ) (rdp : List EReal) (epsilon : ℝ) : Except Err (ℝ × ℝ) :=
  if epsilon < 0 then .error .valueError
  else if orders.length ≠ rdp.length then .error .valueError
  else match logDeltas epsilon (orders.zip rdp) with
    | .error e => .error e
    | .ok ds =>
      match argmin ds with
      | none => .error .valueError
      | some i => .ok (min (mexp (ds.getD i ⊤)) 1, orders.getD i 0)

open Classical in
/-- Body of the loop of `compute_epsilon` for one order, lines 255-273. -/
noncomputable def epsFor (a : ℝ) (r : EReal) (delta : ℝ) : EReal :=
  if r < 0 then 0
  else if delta ^ 2 + (mexp (-r) - 1) > 0 then 0
  else if a > 1.01 then
    r + ((Real.log (1 + -1 / a) : ℝ) : EReal) - ((Real.log (delta * a) / (a - 1) : ℝ) : EReal)
  else ⊤

open Classical in
/-- The loop of `compute_epsilon`, lines 251-274. -/
noncomputable def epsList (delta : ℝ) : List (ℝ × EReal) → Except Err (List EReal)
  | [] => .ok []
  | (a, r) :: l =>
    if a < 1 then .error .valueError
    else match epsList delta l with
      | .error e => .error e
      | .ok es => .ok (epsFor a r delta :: es)

open Classical in
/-- `compute_epsilon`, `rdp_privacy_accountant.py:218-277`: the pair (epsilon, optimal order). -/
noncomputable def computeEpsilon (orders : List ℝ) (rdp : List EReal) (delta : ℝ) : Except Err (EReal × ℝ) :=
  if delta < 0 then .error .valueError
  else if delta = 0 then
    if ∀ r ∈ rdp, r = 0 then .ok (0, 0) else .ok (⊤, 0)
  else if orders.length ≠ rdp.length then .error .valueError
  else match epsList delta (orders.zip rdp) with
    | .error e => .error e
    | .ok es =>
      match argmin es with
      | none => .error .valueError
      | some i => .ok (max 0 (es.getD i ⊤), orders.getD i 0)

end Verif.RdpConv
