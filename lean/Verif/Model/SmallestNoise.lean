import Verif.Model.InverseMonotone
import Verif.Model.PldLibrary

/-!
# Model of the searches for the smallest noise

`get_smallest_parameter`, `get_smallest_laplace_noise`, `get_smallest_discrete_laplace_noise`, `get_smallest_gaussian_noise`,
`get_smallest_subsampled_gaussian_noise` (`pld/accountant.py:26-224`) and `from_privacy_guarantee` of the four additive noise
mechanisms (`pld/privacy_loss_mechanism.py`). The functions handed to `inverse_monotone_function` may raise, so the search is modelled
once more, with exceptions; `Proofs/SmallestNoise.lean` relates it to `Model/InverseMonotone.lean`.

`privacy_parameters` has passed its own checks (`epsilon >= 0`, `0 <= delta <= 1`, see C57). `num_queries` is an `int`.
-/

namespace Verif.SmallestNoise
open Verif InverseMonotone PldLibrary

open Classical in
/-- The doubling loop of `inverse_monotone_function`, `pld/common.py:98-102`, with a function that may raise; `none` when the fuel runs
out. -/
noncomputable def guessLoopE (inc : Bool) (func : ℝ → Except Err ℝ) (value : ℝ) (upper : EReal) :
    (fuel : ℕ) → (lower : EReal) → (guess : ℝ) → Except Err (Option (EReal × ℝ))
  | fuel, lower, guess =>
    if (guess : EReal) < upper then
      match func guess with
      | .error e => .error e
      | .ok v =>
        if check inc v value then
          match fuel with
          | 0 => .ok none
          | fuel + 1 => guessLoopE inc func value upper fuel guess (guess * 2)
        else .ok (some (lower, guess))
    else .ok (some (lower, guess))

open Classical in
/-- The binary search, `pld/common.py:109-118`. -/
noncomputable def searchLoopE (inc discrete : Bool) (func : ℝ → Except Err ℝ) (value tol : ℝ) :
    (fuel : ℕ) → (lower upper : ℝ) → Except Err (Option (ℝ × ℝ))
  | fuel, lower, upper =>
    if upper - lower > tol then
      match fuel with
      | 0 => .ok none
      | fuel + 1 =>
        match func (mid discrete lower upper) with
        | .error e => .error e
        | .ok v =>
          if check inc v value then searchLoopE inc discrete func value tol fuel (mid discrete lower upper) upper
          else searchLoopE inc discrete func value tol fuel lower (mid discrete lower upper)
    else .ok (some (lower, upper))

open Classical in
/-- `pld/common.py:104-123`. -/
noncomputable def finishE (fuel : ℕ) (inc : Bool) (func : ℝ → Except Err ℝ) (value : ℝ) (p : SearchParams)
    (lower upper : EReal) : Except Err InvRes :=
  if lower = ⊥ ∨ lower = ⊤ ∨ upper = ⊥ ∨ upper = ⊤ then .ok .infiniteInterval
  else
    match searchLoopE inc p.discrete func value (if p.discrete then 1 else p.tolerance) fuel lower.toReal upper.toReal with
    | .error e => .error e
    | .ok none => .ok .outOfFuel
    | .ok (some (l, u)) => .ok (.found (if inc then l else u))

open Classical in
/-- `pld/common.py:91-92, 95-96`: is the favourable end of the range finite and infeasible? -/
noncomputable def infeasibleE (inc : Bool) (func : ℝ → Except Err ℝ) (value : ℝ) (p : SearchParams) : Except Err Bool :=
  match (if inc then p.lowerBound else p.upperBound) with
  | ⊤ => .ok false
  | ⊥ => .ok false
  | (x : ℝ) => (func x).map fun v => decide (v > value)

/-- `inverse_monotone_function`, `pld/common.py:66-123`, for a function that may raise. -/
noncomputable def inverseE (fuel : ℕ) (func : ℝ → Except Err ℝ) (value : ℝ) (p : SearchParams) (inc : Bool) : Except Err InvRes :=
  match infeasibleE inc func value p with
  | .error e => .error e
  | .ok true => .ok .notFound
  | .ok false =>
    match p.initialGuess with
    | none => finishE fuel inc func value p p.lowerBound p.upperBound
    | some g =>
      match guessLoopE inc func value p.upperBound fuel p.lowerBound g with
      | .error e => .error e
      | .ok none => .ok .outOfFuel
      | .ok (some (lower, guess)) => finishE fuel inc func value p lower (min p.upperBound guess)

/-- `common.BinarySearchParameters(0, upper)`: default tolerance `1e-7`, no guess, not discrete (`pld/common.py:46-63`). -/
noncomputable def zeroTo (upper : ℝ) : SearchParams := ⟨((0 : ℝ) : EReal), (upper : EReal), none, 1e-7, false⟩

/-- `get_delta_for_parameter`, `pld/accountant.py:55-58`. `self_compose` has the default `tail_mass_truncation=1e-15`; `nfl` is
`scipy.fft.next_fast_len`. -/
noncomputable def deltaForParameter (nfl : ℕ → ℕ) (ctor : ℝ → Except Err Pld) (eps : ℝ) (n : ℤ) (x : ℝ) : Except Err ℝ :=
  match ctor x with
  | .error e => .error e
  | .ok p =>
    match p.selfCompose nfl n 1e-15 with
    | .error e => .error e
    | .ok r => .ok (r.getDeltaForEpsilon eps)

/-- `get_smallest_parameter`, `pld/accountant.py:26-62`. -/
noncomputable def smallestParameter (fuel : ℕ) (nfl : ℕ → ℕ) (eps delta : ℝ) (n : ℤ) (ctor : ℝ → Except Err Pld) (p : SearchParams) :
    Except Err InvRes :=
  inverseE fuel (deltaForParameter nfl ctor eps n) delta p false

/-- What a search gives if `None` is replaced by a default; `none` if the search is not finished. `pld/accountant.py:103-105`, `150-154`, `224`. -/
def InvRes.orElse (default : ℝ) : InvRes → Option ℝ
  | .found x => some x
  | .notFound => some default
  | .infiniteInterval => none
  | .outOfFuel => none

open Classical in
/-- The constructor of `get_smallest_laplace_noise`, `pld/accountant.py:81-92`. -/
noncomputable def laplaceCtor (eps : ℝ) (n : ℤ) (s x : ℝ) : Except Err Pld :=
  if n = 0 then .error .zeroDivisionError
  else total (Mech.fromLaplace 0 x s true (0.1 * eps / n) 1 true)

open Classical in
/-- `get_smallest_laplace_noise`, `pld/accountant.py:65-105`. -/
noncomputable def smallestLaplace (fuel : ℕ) (nfl : ℕ → ℕ) (eps delta : ℝ) (n : ℤ) (s : ℝ) : Except Err (Option ℝ) :=
  if eps = 0 then .error .zeroDivisionError
  else (smallestParameter fuel nfl eps delta n (laplaceCtor eps n s) (zeroTo (n * s / eps))).map (InvRes.orElse (n * s / eps))

open Classical in
/-- The constructor of `get_smallest_discrete_laplace_noise`, `pld/accountant.py:131-139`; the argument is the inverse of the parameter. -/
noncomputable def discreteLaplaceCtor (s : ℤ) (x : ℝ) : Except Err Pld :=
  if x = 0 then .error .zeroDivisionError
  else total (Mech.fromDiscreteLaplace (1 / x) s true (1 / x) 1 true)

open Classical in
/-- `get_smallest_discrete_laplace_noise`, `pld/accountant.py:108-154`. A search does not return zero (`Proofs/SmallestNoise.lean`), so
`1 / inverse_parameter` does not raise. -/
noncomputable def smallestDiscreteLaplace (fuel : ℕ) (nfl : ℕ → ℕ) (eps delta : ℝ) (n s : ℤ) : Except Err (Option ℝ) :=
  if eps = 0 then .error .zeroDivisionError
  else match smallestParameter fuel nfl eps delta n (discreteLaplaceCtor s) (zeroTo (n * s / eps)) with
    | .error e => .error e
    | .ok .notFound => if n * s = 0 then .error .zeroDivisionError else .ok (some (eps / (n * s)))
    | .ok (.found x) => .ok (some (1 / x))
    | .ok _ => .ok none

/-- `_get_delta_for_standard_deviation`, `pld/privacy_loss_mechanism.py:1185-1191`; default `log_mass_truncation_bound=-50`. -/
noncomputable def gaussianDelta (eps s q σ : ℝ) : Except Err ℝ :=
  match Mech.mkGaussian σ s (-50) q .remove with
  | .error e => .error e
  | .ok m => m.getDelta eps

/-- The search range of both Gaussian searches, `pld/privacy_loss_mechanism.py:1179-1183, 1774-1778`. -/
noncomputable def gaussianRange (eps delta s : ℝ) : SearchParams :=
  ⟨((0 : ℝ) : EReal), ⊤, some (Real.sqrt (2 * Real.log (1.5 / delta)) * s / eps), 1e-7, false⟩

open Classical in
/-- The standard deviation of `GaussianPrivacyLoss.from_privacy_guarantee`, `pld/privacy_loss_mechanism.py:1137-1202`. -/
noncomputable def gaussianGuarantee (fuel : ℕ) (eps delta s q : ℝ) : Except Err (Option ℝ) :=
  if delta = 0 then .error .valueError
  else if eps = 0 then .error .zeroDivisionError
  else match inverseE fuel (gaussianDelta eps s q) delta (gaussianRange eps delta s) false with
    | .error e => .error e
    | .ok (.found σ) => .ok (some σ)
    | .ok _ => .ok none

open Classical in
/-- `get_smallest_gaussian_noise`, `pld/accountant.py:157-176`. `math.sqrt` raises `ValueError` on a negative number. -/
noncomputable def smallestGaussian (fuel : ℕ) (eps delta : ℝ) (n : ℤ) (s : ℝ) : Except Err (Option ℝ) :=
  if n < 0 then .error .valueError else gaussianGuarantee fuel eps delta (s * Real.sqrt n) 1

open Classical in
/-- The constructor of `get_smallest_subsampled_gaussian_noise`, `pld/accountant.py:202-216`. `ppf σ` is the inverse distribution function
of the normal distribution. -/
noncomputable def gaussianCtor (ppf : ℝ → ℝ → ℝ) (eps : ℝ) (n : ℤ) (s q x : ℝ) : Except Err Pld :=
  if n = 0 then .error .zeroDivisionError
  else total (Mech.fromGaussian 0 (ppf x) x s true (min 1e-3 (0.1 * eps / n)) (-50) q true)

/-- `get_smallest_subsampled_gaussian_noise`, `pld/accountant.py:179-224`. -/
noncomputable def smallestSubsampled (fuel : ℕ) (nfl : ℕ → ℕ) (ppf : ℝ → ℝ → ℝ) (eps delta : ℝ) (n : ℤ) (s q : ℝ) :
    Except Err (Option ℝ) :=
  match smallestGaussian fuel eps delta n s with
  | .error e => .error e
  | .ok none => .ok none
  | .ok (some upper) =>
    (smallestParameter fuel nfl eps delta n (gaussianCtor ppf eps n s q) (zeroTo upper)).map (InvRes.orElse upper)

/-- `np.log(1 + (np.exp(epsilon) - 1) / sampling_prob)`, `pld/privacy_loss_mechanism.py:888, 1448`. -/
noncomputable def amplifiedEps (eps q : ℝ) : ℝ := Real.log (1 + (Real.exp eps - 1) / q)

open Classical in
/-- The parameter of `LaplacePrivacyLoss.from_privacy_guarantee`, `pld/privacy_loss_mechanism.py:852-893`. For `epsilon == 0` numpy
divides by zero without raising and the parameter is `inf`, which the constructor accepts. -/
noncomputable def laplaceGuarantee (eps s q : ℝ) : Except Err EReal :=
  if eps = 0 then (Mech.checkBase s q).map fun _ => ⊤
  else (Mech.mkLaplace (s / amplifiedEps eps q) s q .remove).map fun _ => ((s / amplifiedEps eps q : ℝ) : EReal)

open Classical in
/-- The parameter of `DiscreteLaplacePrivacyLoss.from_privacy_guarantee`, `pld/privacy_loss_mechanism.py:1409-1455`
(`math.isclose(x, 0)` is `x == 0`). -/
noncomputable def discreteLaplaceGuarantee (eps : ℝ) (s : ℤ) (q : ℝ) : Except Err ℝ :=
  if s ≤ 0 then .error .valueError
  else if q ≤ 0 then .error .valueError
  else (Mech.mkDiscreteLaplace (amplifiedEps eps q / s) s q .remove).map fun _ => amplifiedEps eps q / s

/-- `_get_delta_for_sigma`, `pld/privacy_loss_mechanism.py:1780-1786`. -/
noncomputable def discreteGaussianDelta (eps : ℝ) (s : ℤ) (q σ : ℝ) : Except Err ℝ :=
  match Mech.mkDiscreteGaussian σ s none q .remove with
  | .error e => .error e
  | .ok m => m.getDelta eps

open Classical in
/-- The parameter `sigma` of `DiscreteGaussianPrivacyLoss.from_privacy_guarantee`, `pld/privacy_loss_mechanism.py:1735-1796`. -/
noncomputable def discreteGaussianGuarantee (fuel : ℕ) (eps delta : ℝ) (s : ℤ) (q : ℝ) : Except Err (Option ℝ) :=
  if delta = 0 then .error .valueError
  else if eps = 0 then .error .zeroDivisionError
  else match inverseE fuel (discreteGaussianDelta eps s q) delta (gaussianRange eps delta s) false with
    | .error e => .error e
    | .ok (.found σ) => .ok (some σ)
    | .ok _ => .ok none

end Verif.SmallestNoise
