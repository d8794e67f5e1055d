import Verif.Model.Rdp
import Verif.Model.RdpConversion
import Verif.Model.PldLibrary

/-!
# Model of `_compute_rdp_repeat_and_select` and its helpers (`rdp_privacy_accountant.py:631-821`)

Numbers are real; orders are finite; RDP values are `EReal` (floats with `inf`). `math.fsum` is the exact sum.
-/

namespace Verif.RepeatSelect
open Verif

/-- `_expm1_over_x`, `rdp_privacy_accountant.py:631-650`. The state of the loop is `y` and the sum of `terms`. -/
noncomputable def expm1OverX (x : ℝ) : ℝ :=
  if x < -0.1 ∨ x > 0.1 then (Real.exp x - 1) / x
  else ((List.range' 1 99).foldl (fun (s : ℝ × ℝ) (k : ℕ) => (s.1 / k * x, s.2 + s.1 / k)) (1, 0)).2

/-- `_logx_over_xm1`, `rdp_privacy_accountant.py:656-672`; only called with positive arguments. -/
noncomputable def logxOverXm1 (x : ℝ) : ℝ :=
  if x < 0.9 ∨ x > 1.1 then Real.log x / (x - 1)
  else ((List.range' 1 99).map fun k : ℕ => (1 - x) ^ (k - 1) / (k : ℝ)).sum

/-- `_truncated_negative_binomial_mean`, `rdp_privacy_accountant.py:678-708`. -/
noncomputable def tnbMean (gamma shape : ℝ) : Except Err ℝ :=
  if shape < 0 then .error .valueError
  else if gamma ≤ 0 ∨ gamma > 1 then .error .valueError
  else if shape = 1 then .ok (1 / gamma)
  else if shape = 0 then .ok (1 / (gamma * logxOverXm1 gamma))
  else .ok (1 / (gamma * expm1OverX (shape * Real.log gamma) * logxOverXm1 gamma))

/-- Body of the `while` loop of `_gamma_truncated_negative_binomial`, lines 739-744; the state is `(gamma_min, gamma_max)`. -/
noncomputable def gammaStep (shape mean : ℝ) (s : ℝ × ℝ) : Except Err (ℝ × ℝ) :=
  match tnbMean ((s.1 + s.2) / 2) shape with
  | .error e => .error e
  | .ok gammaMean => if gammaMean < mean then .ok (s.1, (s.1 + s.2) / 2) else .ok ((s.1 + s.2) / 2, s.2)

/-- The state after `k` executions of the body. `rdp/rdp_privacy_accountant.py:738-744`. -/
noncomputable def gammaIter (shape mean : ℝ) : ℕ → Except Err (ℝ × ℝ)
  | 0 => .ok (0, min 1 (2 * (shape + 1) / mean))
  | k + 1 =>
    match gammaIter shape mean k with
    | .error e => .error e
    | .ok s => gammaStep shape mean s

/-- The loop ends: an exception, or the condition of line 738 (`tolerance` is `1e-9`) does not hold. -/
def GammaDone : Except Err (ℝ × ℝ) → Prop
  | .error _ => True
  | .ok s => ¬ s.2 > s.1 * (1 + 1e-9)

open Classical in
/-- `_gamma_truncated_negative_binomial`, `rdp_privacy_accountant.py:711-745`. The loop is run for the least number of steps after
which its condition does not hold (there is one: `C44_gamma_terminates`). For `mean = inf` the answer is 0. -/
noncomputable def gammaTnb (shape : ℝ) (mean : PyNum) : Except Err ℝ :=
  if shape < 0 then .error .valueError
  else if mean.val < 1 then .error .valueError
  else match mean.real? with
    | none => .ok 0
    | some m =>
      if shape = 1 then .ok (1 / m)
      else if h : ∃ k, GammaDone (gammaIter shape m k) then
        match gammaIter shape m (Nat.find h) with
        | .error e => .error e
        | .ok s => .ok s.1
      else .ok 0

section
variable {n : ℕ} (orders : Fin n → ℝ)

/-- The loop of the Poisson branch for one order, lines 792-799. -/
noncomputable def poissonEntry (rdp : Arr n) (mean : PyNum) (i : Fin n) : Except Err EReal :=
  if orders i ≤ 1 then .ok ⊤
  else match RdpConv.computeDelta (List.ofFn orders) (List.ofFn rdp) (Real.log (1 + 1 / (orders i - 1))) with
    | .error e => .error e
    | .ok (deltahat, _) =>
      match mean.real? with
      | none => .ok ⊤                                                       -- `math.log(inf)` is `inf`
      | some m => .ok (rdp i + ((m * deltahat : ℝ) : EReal) + ((Real.log m / (orders i - 1) : ℝ) : EReal))

open Classical in
/-- Line 809: `(1 + shape) * np.min((1 - 1 / orders) * rdp - math.log(gamma) / orders)`. `0 * inf` (order one with infinite RDP) is NaN,
and so is the minimum then; that is `⊤` here. -/
noncomputable def constTerm (rdp : Arr n) (shape gamma : ℝ) : EReal :=
  if ∃ j, orders j = 1 ∧ rdp j = ⊤ then ⊤
  else ((1 + shape : ℝ) : EReal) *
    Finset.univ.inf fun j => ((1 - 1 / orders j : ℝ) : EReal) * rdp j - ((Real.log gamma / orders j : ℝ) : EReal)

open Classical in
/-- Lines 810-812. -/
noncomputable def perOrder (rdp : Arr n) (m : ℝ) (c : EReal) (i : Fin n) : EReal :=
  if orders i > 1 then rdp i + ((Real.log m / (orders i - 1) : ℝ) : EReal) + c else ⊤

open Classical in
/-- Body of the loop of lines 817-820: the entry `i` of the array is replaced. -/
noncomputable def monoStep (out : Arr n) (i : Fin n) : Arr n :=
  Function.update out i ((Finset.univ.filter fun j => orders i ≤ orders j).inf out)

/-- The loop of lines 817-820, in place. -/
noncomputable def monotonise (out : Arr n) : Arr n := (List.finRange n).foldl (monoStep orders) out

open Classical in
/-- `_compute_rdp_repeat_and_select`, `rdp_privacy_accountant.py:748-821`. NaN arguments do not exist here, and the lengths of `orders` and
`rdp` agree by typing. -/
noncomputable def repeatAndSelect (rdp : Arr n) (mean shape : PyNum) : Except Err (Arr n) :=
  if shape.val < 0 then .error .valueError
  else if mean.val < 1 then .error .valueError
  else match shape.real? with
    | none => Rdp.collect (poissonEntry orders rdp mean)
    | some s =>
      match gammaTnb s mean with
      | .error e => .error e
      | .ok gamma =>
        if gamma ≤ 0 then .error .valueError                                -- `math.log(gamma)`
        else if n = 0 then .error .valueError                               -- `np.min` of an empty array
        else match mean.real? with
          | none => .error .valueError                                      -- not reached: `gamma` is 0
          | some m => .ok (monotonise orders (perOrder orders rdp m (constTerm orders rdp s gamma)))

end
end Verif.RepeatSelect
