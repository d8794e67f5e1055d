import Verif.Model.Accountant
import Mathlib.Data.EReal.Operations
import Mathlib.Algebra.Order.Floor.Ring

/-!
# Model of `mechanism_calibration.py`

Floats are reals; epsilon values are `EReal` (`inf` possible, the product `0 * inf` is NaN in python and `0` here, and only
compared with `> 0` / `< 0`, which is false in both).  Loops that python bounds only through their exit condition take
fuel; running out of fuel is the value `outOfFuel`, which python never raises.
-/

namespace Verif

/-- Exceptions of `mechanism_calibration.py`. `mechanism_calibration.py:45-50`, and the `raise` statements at `mechanism_calibration.py:74`, `136`, `209-232`, `247`, `258`. -/
inductive CalErr where
  | py (e : Err)
  | noBracketIntervalFound
  | nonEmptyAccountant
  | outOfFuel
  deriving DecidableEq, Repr

/-- Python's `round(x)` for floats: nearest integer, ties to even. Called in `mechanism_calibration.py:236` and `288`. -/
noncomputable def pyRound (x : ℝ) : ℤ :=
  if Int.fract x < 1 / 2 then ⌊x⌋
  else if 1 / 2 < Int.fract x then ⌊x⌋ + 1
  else if Even ⌊x⌋ then ⌊x⌋ else ⌊x⌋ + 1

namespace Calibration

/-- `BracketInterval` argument: `ExplicitBracketInterval`, `LowerEndpointAndGuess`, `None` or any other object
(`mechanism_calibration.py:26-43`). -/
inductive Bracket where
  | explicit (endpoint1 endpoint2 : ℝ)
  | lowerAndGuess (lower guess : ℝ)
  | none
  | other

/-- The loop of `_search_for_explicit_bracket_interval`, `mechanism_calibration.py:83-94`; `tries` is the number of
iterations still allowed. -/
noncomputable def bracketLoop (f : ℝ → Except CalErr EReal) :
    (tries : ℕ) → (lower upper gap : ℝ) → (lv uv : EReal) → Except CalErr (ℝ × ℝ)
  | tries, lower, upper, gap, lv, uv =>
    if lv * uv > 0 then
      match tries with
      | 0 => .error .noBracketIntervalFound
      | t + 1 =>
        match f (upper + gap * 2) with
        | .error e => .error e
        | .ok v => bracketLoop f t upper (upper + gap * 2) (gap * 2) uv v
    else .ok (lower, upper)

/-- `_search_for_explicit_bracket_interval`, `mechanism_calibration.py:53-96`. -/
noncomputable def searchBracket (lower upper : ℝ) (f : ℝ → Except CalErr EReal) : Except CalErr (ℝ × ℝ) :=
  if lower ≥ upper then .error (.py .valueError)
  else
    match f lower with
    | .error e => .error e
    | .ok lv =>
      match f upper with
      | .error e => .error e
      | .ok uv => bracketLoop f 30 lower upper (upper - lower) lv uv

/-- `_bisect` once the endpoint values are known, `mechanism_calibration.py:128-149`. -/
noncomputable def bisectLoop (f : ℝ → Except CalErr EReal) (tol : ℝ) :
    (fuel : ℕ) → (lower upper : ℝ) → (lv uv : EReal) → Except CalErr ℝ
  | fuel, lower, upper, lv, uv =>
    if lv = 0 then .ok lower
    else if uv = 0 then .ok upper
    else if lv * uv > 0 then .error (.py .valueError)
    else if upper - lower ≤ tol then .ok (if lv < 0 then lower else upper)
    else
      match fuel with
      | 0 => .error .outOfFuel
      | fuel + 1 =>
        match f ((lower + upper) / 2) with
        | .error e => .error e
        | .ok mv =>
          if mv = 0 then .ok ((lower + upper) / 2)
          else if lv * mv < 0 then bisectLoop f tol fuel lower ((lower + upper) / 2) lv mv
          else bisectLoop f tol fuel ((lower + upper) / 2) upper mv uv

/-- `_bisect(function, lower, upper, tol)`, `mechanism_calibration.py:99-149`. -/
noncomputable def bisect (fuel : ℕ) (f : ℝ → Except CalErr EReal) (lower upper tol : ℝ) : Except CalErr ℝ :=
  match f lower with
  | .error e => .error e
  | .ok lv =>
    match f upper with
    | .error e => .error e
    | .ok uv => bisectLoop f tol fuel lower upper lv uv

variable {σ : Type}

/-- `epsilon_gap`, `mechanism_calibration.py:234-242`.  `mk` is `make_event_from_param`, `fresh` the object returned by
`make_fresh_accountant()`, `getEps` the accountant's `get_epsilon`. -/
noncomputable def epsilonGap (A : Accountant σ) (fresh : AcctState σ) (getEps : AcctState σ → ℝ → Except Err EReal)
    (mk : ℝ → Except Err DpEvent) (targetEps targetDelta : ℝ) (discrete : Bool) (x : ℝ) : Except CalErr EReal :=
  match mk (if discrete then (pyRound x : ℝ) else x) with
  | .error e => .error (.py e)
  | .ok event =>
    match (Accountant.ledger fresh).2 with
    | .noOp =>
      match A.compose (Accountant.ledger fresh).1 (.event event) (.int 1) with
      | (_, .error e) => .error (.py e)
      | (s, .ok ()) =>
        match getEps s targetDelta with
        | .error e => .error (.py e)
        | .ok eps => .ok (eps - (targetEps : EReal))
    | _ => .error .nonEmptyAccountant

/-- The tolerance actually used, `mechanism_calibration.py:227-232`. -/
noncomputable def effTol (discrete : Bool) : Option ℝ → Except CalErr ℝ
  | .none => .ok (if discrete then 1 else 1e-6)
  | .some tol =>
    if discrete then .ok (max tol 1)
    else if tol ≤ 0 then .error (.py .valueError)
    else .ok tol

/-- Post-processing of the root returned by `brentq`, `mechanism_calibration.py:262-277`: the accepted root, or `none`. -/
noncomputable def acceptRoot (f : ℝ → Except CalErr EReal) (tol root : ℝ) (converged : Bool) :
    Except CalErr (Option ℝ) :=
  if !converged then .ok none
  else
    match f root with
    | .error e => .error e
    | .ok v =>
      if v > 0 then
        match f (root + tol) with
        | .error e => .error e
        | .ok vp =>
          if vp < 0 then .ok (some (root + tol))
          else
            match f (root - tol) with
            | .error e => .error e
            | .ok vm => if vm < 0 then .ok (some (root - tol)) else .ok none
      else .ok (some root)

/-- The explicit interval searched, `mechanism_calibration.py:224-225, 244-249`. -/
noncomputable def resolveBracket (f : ℝ → Except CalErr EReal) : Bracket → Except CalErr (ℝ × ℝ)
  | .none => searchBracket 0 1 f
  | .lowerAndGuess l g => searchBracket l g f
  | .explicit a b => .ok (a, b)
  | .other => .error (.py .typeError)

/-- Lines 244-290 of `mechanism_calibration.py`: search with a given `epsilon_gap`.  `brentq` is
`scipy.optimize.brentq` (root and `converged` flag, or an exception), an arbitrary function here. -/
noncomputable def search (fuel : ℕ) (brentq : (ℝ → Except CalErr EReal) → ℝ → ℝ → ℝ → Except CalErr (ℝ × Bool))
    (f : ℝ → Except CalErr EReal) (bracket : Bracket) (discrete : Bool) (tol : ℝ) : Except CalErr ℝ :=
  match resolveBracket f bracket with
  | .error e => .error e
  | .ok (a, b) =>
    match brentq f a b tol with
    | .error e => .error e
    | .ok (root, converged) =>
      match acceptRoot f tol root converged with
      | .error e => .error e
      | .ok r =>
        match (match r with
          | some x => Except.ok x
          | none => bisect fuel f a b tol) with
        | .error e => .error e
        | .ok x => .ok (if discrete then (pyRound x : ℝ) else x)

/-- `calibrate_dp_mechanism`, `mechanism_calibration.py:152-290` (the two `callable` checks are static typing here). -/
noncomputable def calibrate (fuel : ℕ)
    (brentq : (ℝ → Except CalErr EReal) → ℝ → ℝ → ℝ → Except CalErr (ℝ × Bool))
    (A : Accountant σ) (fresh : AcctState σ) (getEps : AcctState σ → ℝ → Except Err EReal) (mk : ℝ → Except Err DpEvent)
    (targetEps targetDelta : ℝ) (bracket : Bracket) (discrete : Bool) (tol : Option ℝ) : Except CalErr ℝ :=
  if targetEps < 0 then .error (.py .valueError)
  else if ¬ (0 ≤ targetDelta ∧ targetDelta ≤ 1) then .error (.py .valueError)
  else
    match effTol discrete tol with
    | .error e => .error e
    | .ok t => search fuel brentq (epsilonGap A fresh getEps mk targetEps targetDelta discrete) bracket discrete t

end Calibration
end Verif
