import Verif.Model.Pld

/-!
# Model of the log-domain arithmetic of `pld/common.py:324-358` and `rdp_privacy_accountant.py:33-54`

Logarithms are `LogProb = WithBot ℝ` (`⊥` is `-inf`); `+inf` operands are not modelled.
-/

namespace Verif
open Pld

/-- What a numpy computation of a logarithm gives: a logarithm, NaN, or an exception. For `pld/common.py:324-353`. -/
inductive LogRes where
  | val (x : LogProb)
  | nan
  | raise (e : Err)

namespace LogDomain

open Classical in
/-- `np.log(x)`: `-inf` at 0 and NaN for negative numbers, without exception. -/
noncomputable def npLog (x : ℝ) : LogRes :=
  if x < 0 then .nan else if x = 0 then .val ⊥ else .val ((Real.log x : ℝ) : LogProb)

/-- `_log_add`, `pld/common.py:324-327`: `mx + log1p(exp(mn - mx))`; NaN if both are `-inf`. -/
noncomputable def pldLogAdd : LogProb → LogProb → LogRes
  | ⊥, ⊥ => .nan
  | ⊥, (b : ℝ) => .val (b : LogProb)
  | (a : ℝ), ⊥ => .val (a : LogProb)
  | (a : ℝ), (b : ℝ) => .val ((max a b + Real.log (1 + Real.exp (min a b - max a b)) : ℝ) : LogProb)

open Classical in
/-- `_log_sub`, `pld/common.py:330-334`. -/
noncomputable def pldLogSub (a b : LogProb) : LogRes :=
  if b ≥ a then .raise .valueError
  else match a, b with
    | ⊥, _ => .nan
    | (a : ℝ), ⊥ => .val (a : LogProb)
    | (a : ℝ), (b : ℝ) => .val ((a + Real.log (1 + -Real.exp (b - a)) : ℝ) : LogProb)

open Classical in
/-- `log_a_times_exp_b_plus_c`, `pld/common.py:337-358`, for finite arguments. -/
noncomputable def logATimesExpBPlusC (a b c : ℝ) : LogRes :=
  if a = 0 then npLog c
  else if a < 0 then
    if c ≤ 0 then .raise .valueError
    else pldLogSub ((Real.log c : ℝ) : LogProb) ((Real.log (-a) + b : ℝ) : LogProb)
  else if b = 0 then npLog (a + c)
  else
    let d := b + Real.log a
    if c = 0 then .val (d : LogProb)
    else if c < 0 then pldLogSub (d : LogProb) ((Real.log (-c) : ℝ) : LogProb)
    else pldLogAdd (d : LogProb) ((Real.log c : ℝ) : LogProb)

/-- `_log_add`, `rdp_privacy_accountant.py:33-39`. -/
noncomputable def logAdd (logx logy : LogProb) : LogProb :=
  match min logx logy, max logx logy with
  | ⊥, b => b
  | _, ⊥ => ⊥
  | (a : ℝ), (b : ℝ) => ((Real.log (1 + Real.exp (a - b)) + b : ℝ) : LogProb)

/-- `x + math.log1p(-np.exp(y - x))` for `y < x` (`rdp_privacy_accountant.py:46, 49`). -/
noncomputable def subMag (x y : LogProb) : LogProb :=
  match x, y with
  | ⊥, _ => ⊥
  | (x : ℝ), ⊥ => (x : LogProb)
  | (x : ℝ), (y : ℝ) => ((x + Real.log (1 + -Real.exp (y - x)) : ℝ) : LogProb)

open Classical in
/-- `_log_sub_sign`, `rdp_privacy_accountant.py:42-54`. -/
noncomputable def logSubSign (logx logy : LogProb) : Bool × LogProb :=
  if logx > logy then (true, subMag logx logy)
  else if logx < logy then (false, subMag logy logx)
  else (true, ⊥)

end LogDomain
end Verif
