import Verif.Model.Validation
import Verif.Model.PldPmf
import Verif.Model.AdditiveNoisePld

/-!
# The privacy loss distributions of Gaussian and Laplace noise of infinite scale

The rest of the model of `pld/` works with finite numbers. With an infinite noise multiplier the same code divides an infinity by an
infinity, or multiplies zero by an infinity, and goes on with NaN. Here the affected computations are modelled on floats that may be
infinite or NaN (`PyFloat`); finite floats are still exact real numbers. `sensitivity` is 1, as in all calls of
`pld/pld_privacy_accountant.py`.
-/

namespace Verif
namespace PyFloat

open Classical in
/-- `a + b` of floats: the sum of opposite infinities is NaN. Used for `pld/privacy_loss_mechanism.py:1023-1026` and in `sub`. -/
noncomputable def add : PyFloat → PyFloat → PyFloat
  | num x, num y => if (x = ⊤ ∧ y = ⊥) ∨ (x = ⊥ ∧ y = ⊤) then nan else num (x + y)
  | _, _ => nan

/-- `-a` of a float. `pld/privacy_loss_mechanism.py:1022`. -/
noncomputable def neg : PyFloat → PyFloat
  | num x => num (-x)
  | nan => nan

/-- `a - b` of floats. `pld/privacy_loss_mechanism.py:1081`, `1084`. -/
noncomputable def sub (a b : PyFloat) : PyFloat := add a (neg b)

/-- Whether an extended real is infinite. For `mul` and `div`, `pld/privacy_loss_mechanism.py:1081-1085`. -/
def isInf (x : EReal) : Prop := x = ⊤ ∨ x = ⊥

open Classical in
/-- `a * b` of floats: zero times an infinity is NaN. `pld/privacy_loss_mechanism.py:813`, `1081-1085`. -/
noncomputable def mul : PyFloat → PyFloat → PyFloat
  | num x, num y => if (x = 0 ∧ isInf y) ∨ (isInf x ∧ y = 0) then nan else num (x * y)
  | _, _ => nan

open Classical in
/-- `a / b` of floats for `b ≠ 0`: an infinity divided by an infinity is NaN. `pld/privacy_loss_mechanism.py:1081-1085`. -/
noncomputable def div : PyFloat → PyFloat → PyFloat
  | num x, num y => if isInf x ∧ isInf y then nan else num (x / y)
  | _, _ => nan

end PyFloat

namespace InfiniteNoise
open PyFloat PldPmf Mech
open Spec (Adj)

/-- `math.ceil(x)`: `ValueError` for NaN, `OverflowError` for an infinity. `pld/privacy_loss_distribution.py:862`. -/
noncomputable def ceil : PyFloat → Except Err ℤ
  | nan => .error .valueError
  | num ⊤ => .error .overflowError
  | num ⊥ => .error .overflowError
  | num (x : ℝ) => .ok ⌈x⌉

/-- `math.floor(x)`. `pld/privacy_loss_distribution.py:864`. -/
noncomputable def floor : PyFloat → Except Err ℤ
  | nan => .error .valueError
  | num ⊤ => .error .overflowError
  | num ⊥ => .error .overflowError
  | num (x : ℝ) => .ok ⌊x⌋

/-! ### Gaussian noise -/

/-- `norm(scale=math.inf).ppf(p)`, called in `pld/privacy_loss_mechanism.py:1020-1021`; `scipy` computes `scale * x + loc` with the quantile
`x` of the standard normal distribution. -/
noncomputable def ppf (x : ℝ) : PyFloat := add (mul (num ⊤) (num x)) (num 0)

/-- `GaussianPrivacyLoss.privacy_loss_without_subsampling`, `pld/privacy_loss_mechanism.py:1062-1085`, with infinite standard deviation. -/
noncomputable def gaussianLossNo (adj : Adj) (x : PyFloat) : PyFloat :=
  let variance := mul (num ⊤) (num ⊤)
  match adj with
  | .add => div (mul (num 1) (sub (num ((0.5 : ℝ) : EReal)) x)) variance
  | .remove => div (mul (num 1) (sub (num ((-0.5 : ℝ) : EReal)) x)) variance

/-- `log_a_times_exp_b_plus_c`, `pld/common.py:337-353`, for positive `a` and `c`. A comparison with NaN is false, and `min` and `max` of NaN
and a number, in this order, are NaN. -/
noncomputable def logAExp (a c : ℝ) : PyFloat → PyFloat
  | nan => nan
  | num ⊤ => num ⊤
  | num ⊥ => num ((Real.log c : ℝ) : EReal)
  | num (b : ℝ) => num ((Real.log (a * Real.exp b + c) : ℝ) : EReal)

open Classical in
/-- `AdditiveNoisePrivacyLoss.privacy_loss`, `pld/privacy_loss_mechanism.py:430-468`. -/
noncomputable def gaussianLoss (q : ℝ) (adj : Adj) (x : PyFloat) : PyFloat :=
  let l := gaussianLossNo adj x
  if q = 1 then l
  else match adj with
    | .add => neg (logAExp q (1 - q) (neg l))
    | .remove => logAExp q (1 - q) l

/-- `GaussianPrivacyLoss.connect_dots_bounds`, `pld/privacy_loss_mechanism.py:1020-1026` and `1043-1060`: `(epsilon_lower, epsilon_upper)`. The
tail masses computed in between are not used, and computing them raises nothing. -/
noncomputable def gaussianBounds (x q : ℝ) (adj : Adj) : PyFloat × PyFloat :=
  let lo := ppf x
  let up := neg lo
  let up' := match adj with | .add => add up (num 1) | .remove => up
  let lo' := match adj with | .add => lo | .remove => sub lo (num 1)
  (gaussianLoss q adj up', gaussianLoss q adj lo')

/-- The grid of epsilons for continuous noise, `pld/privacy_loss_distribution.py:862-865`. -/
noncomputable def grid (disc : ℝ) (bounds : PyFloat × PyFloat) : Except Err (ℤ × ℤ) := do
  let u ← ceil (div bounds.2 (num (disc : ℝ)))
  let l ← floor (div bounds.1 (num (disc : ℝ)))
  .ok (l, u)

open Classical in
/-- `from_gaussian_mechanism` with `standard_deviation=math.inf`, `pld/privacy_loss_distribution.py:1203-1257`, up to the grid of epsilons of
the first of the two PMFs: checks of `pld/privacy_loss_mechanism.py:279-281`, bounds, grid. -/
noncomputable def gaussianGrid (x disc q : ℝ) : Except Err (ℤ × ℤ) :=
  if q ≤ 0 ∨ q > 1 then .error .valueError else grid disc (gaussianBounds x q .remove)

/-! ### Laplace noise -/

open Classical in
/-- `LaplacePrivacyLoss.inverse_privacy_loss_without_subsampling`, `pld/privacy_loss_mechanism.py:793-821`, with `parameter=math.inf`. -/
noncomputable def laplaceInvNo (adj : Adj) (l : PyFloat) : PyFloat :=
  let threshold := mul l (num ⊤)
  if lt (num 1) threshold then num ⊥
  else if le threshold (num (-1)) then num ⊤
  else match adj with
    | .add => mul (num ((0.5 : ℝ) : EReal)) (sub (num 1) threshold)
    | .remove => mul (num ((0.5 : ℝ) : EReal)) (sub (num (-1)) threshold)

/-- `laplace(scale=math.inf).cdf(x)`, called in `pld/privacy_loss_mechanism.py:823-835`: `scipy` evaluates the distribution function of the
standard Laplace distribution at `(x - loc) / scale`, and NaN stays NaN. -/
noncomputable def laplaceCdf (x : PyFloat) : PyFloat :=
  match div (sub x (num 0)) (num ⊤) with
  | nan => nan
  | num y => num ((cdfOf id (Spec.laplace 0 1) y : ℝ) : EReal)

open Classical in
/-- `np.clip(x, 0, 1)`: NaN stays NaN. `pld/privacy_loss_mechanism.py:402`. -/
noncomputable def clip01 : PyFloat → PyFloat
  | nan => nan
  | num x => num (min (max x 0) 1)

open Classical in
/-- `get_delta_for_epsilon(0.0)` of `LaplacePrivacyLoss(math.inf, sampling_prob=q)`, `pld/privacy_loss_mechanism.py:353-404`. For `q < 1` the privacy
loss without sampling that belongs to the loss 0 is `log(1/q + 1 - 1/q) = 0` (`540-557`, `pld/common.py:345-346`). `exp(eps + log cdf)` is
written as a product. -/
noncomputable def laplaceDelta (q : ℝ) (adj : Adj) : PyFloat :=
  let x := laplaceInvNo adj (num 0)
  let mix := fun (shifted plain : PyFloat) =>
    if q = 1 then shifted else add (mul (num ((1 - q : ℝ) : EReal)) plain) (mul (num (q : ℝ)) shifted)
  let upper := match adj with
    | .add => laplaceCdf x
    | .remove => mix (laplaceCdf (add x (num 1))) (laplaceCdf x)
  let lower := match adj with
    | .add => mix (laplaceCdf (sub x (num 1))) (laplaceCdf x)
    | .remove => laplaceCdf x
  clip01 (sub upper (mul (num 1) lower))

/-- A sparse PMF whose masses are floats: the dictionary and the mass at infinity. `pld/pld_pmf.py:445-456`. -/
structure FloatPmf where
  lossProbs : List (ℤ × PyFloat)
  infinityMass : PyFloat

open Classical in
/-- The PMF of `from_laplace_mechanism` with `parameter=math.inf` for one adjacency type, `pld/privacy_loss_distribution.py:1152-1200`. The bounds
are `±1/inf = 0`, so that the grid is the single point 0 (`pld/privacy_loss_mechanism.py:758-774`), and
`create_pmf_pessimistic_connect_dots_fixed_gap` takes the branch of `pld/pld_pmf.py:747-752`. -/
noncomputable def laplacePmf (q : ℝ) (adj : Adj) : Except Err FloatPmf :=
  if q ≤ 0 ∨ q > 1 then .error .valueError
  else
    let delta := laplaceDelta q adj
    if lt delta (num 0) ∨ lt (num 1) delta then .error .valueError
    else .ok ⟨[(0, sub (num 1) delta)], delta⟩

open Classical in
/-- `_find_prefix_to_truncate`, `pld/pld_pmf.py:178-186`, on floats. -/
noncomputable def findPrefix (threshold : ℝ) : PyFloat → List PyFloat → ℕ
  | _, [] => 0
  | s, v :: vs => if lt (num (threshold : ℝ)) (add s v) then 0 else findPrefix threshold (add s v) vs + 1

/-- `_truncate_tails`, `pld/pld_pmf.py:156-208`, with `pessimistic_estimate=True` and a positive `tail_mass_truncation`, on floats: the array of
masses that remains. -/
noncomputable def truncateTails (probs : List PyFloat) (t : ℝ) : Except Err (List PyFloat) :=
  let leftIdx := findPrefix (t / 2) (num 0) probs
  let rightIdx := probs.length - findPrefix (t / 2) (num 0) probs.reverse
  let rightIdx := max rightIdx (leftIdx + 1)
  let leftMass := (probs.take leftIdx).foldl add (num 0)
  match (probs.take rightIdx).drop leftIdx with
  | [] => .error .indexError
  | v :: vs => .ok (add v leftMass :: vs)

/-- The masses of the PMF of an accountant, in the order of the losses. `pld/pld_pmf.py:341`, `477-478`. -/
noncomputable def masses : Pmf → List ℝ
  | .sparse s => s.sortedProbs
  | .dense d => d.probs

/-- `compose_pmfs`, `pld/pld_pmf.py:785-810`, of the PMF of an accountant and a PMF with the single loss 0: every mass is multiplied with the mass
`v` at 0, and the tails are truncated (`pld/pld_pmf.py:333-348`, `461-484`). Exact convolution; with a sparse PMF of more than 1000
points the points with mass zero in between are left out. -/
noncomputable def composeWith (p : Pmf) (v : PyFloat) (t : ℝ) : Except Err (List PyFloat) :=
  truncateTails ((masses p).map fun x => add (num 0) (mul (num (x : ℝ)) v)) t

/-- `SparsePLDPmf.self_compose(n)` of a PMF with the single loss 0 and mass `v`, `pld/pld_pmf.py:486-510`: again a PMF with the single loss 0. The
size is 1, so that it stays sparse. -/
noncomputable def selfCompose (v : PyFloat) (n : ℤ) (t : ℝ) : Except Err PyFloat :=
  if n ≤ 0 then .error .valueError
  else if n = 1 then .ok v
  else do
    let before := (fun r => add (num 0) (mul r v))^[n.toNat - 2] v
    let last ← truncateTails [add (num 0) (mul before v)] t
    match last with
    | [w] => .ok w
    | _ => .error .notImplementedError                               -- not reached: one point is not cut into several

/-- What the accountant does with Laplace noise of infinite scale, `pld/pld_privacy_accountant.py:97-101` and `149-154`: construct the PLD
(`pld/privacy_loss_distribution.py:1144-1149`), compose it `count` times with itself (`pld/privacy_loss_distribution.py:657-661`), and compose
the PMF `p` of the accountant with the result. Only the PMFs for removing a record are followed after the construction; they are the first to
be composed. -/
noncomputable def composeLaplace (p : Pmf) (q t : ℝ) (count : ℤ) : Except Err (List PyFloat) := do
  let r ← laplacePmf q .remove
  if q ≠ 1 then
    let _ ← laplacePmf q .add
  match r.lossProbs with
  | [(_, v)] =>
    let w ← selfCompose v count t
    composeWith p w t
  | _ => .error .notImplementedError                                 -- not reached

end InfiniteNoise
end Verif
