import Verif.Model.PldPmf
import Verif.Model.Accountant
import Mathlib.Data.Int.Log
import Mathlib.Algebra.Order.Floor.Ring

/-!
# Model of `pld/privacy_loss_distribution.py`: the class and the constructors from explicit distributions
-/

namespace Verif

/-- `PrivacyLossDistribution`, `privacy_loss_distribution.py:41-101`: `_pmf_remove`, `_pmf_add`, `_symmetric`. -/
structure Pld where
  remove : Pmf
  add : Pmf
  symmetric : Bool

namespace Pld
open PldPmf

/-- `PrivacyLossDistribution.__init__`, `privacy_loss_distribution.py:97-103`. -/
def mk' (remove : Pmf) (add : Option Pmf) : Pld :=
  match add with
  | none => ⟨remove, remove, true⟩
  | some a => ⟨remove, a, false⟩

/-- `PrivacyLossDistribution.create_from_rounded_probability`, `privacy_loss_distribution.py:105-162`. -/
def createFromRounded (pmf : PyDict) (infinityMass disc : ℝ) (pessimistic : Bool) (pmfAdd : Option PyDict)
    (infinityMassAdd : Option ℝ) (symmetric : Bool) : Except Err Pld :=
  match createPmf pmf disc infinityMass pessimistic with
  | .error e => .error e
  | .ok remove =>
    if symmetric then
      if pmfAdd.isSome ∨ infinityMassAdd.isSome then .error .valueError else .ok (mk' remove none)
    else
      match pmfAdd, infinityMassAdd with
      | some pa, some ia =>
        match createPmf pa disc ia pessimistic with
        | .error e => .error e
        | .ok add => .ok (mk' remove (some add))
      | _, _ => .error .valueError

/-- `PrivacyLossDistribution.get_delta_for_epsilon`, scalar, `privacy_loss_distribution.py:516-538`. -/
noncomputable def getDeltaForEpsilon (p : Pld) (epsilon : EReal) : ℝ :=
  let deltaRemove := p.remove.getDeltaForEpsilon epsilon
  if p.symmetric then deltaRemove else max deltaRemove (p.add.getDeltaForEpsilon epsilon)

/-- `PrivacyLossDistribution.get_delta_for_epsilon`, sequence, `privacy_loss_distribution.py:516-538`. -/
noncomputable def getDeltaForEpsilons (p : Pld) (epsilons : List EReal) : Except Err (List ℝ) :=
  match p.remove.getDeltaForEpsilons epsilons with
  | .error e => .error e
  | .ok dr =>
    if p.symmetric then .ok dr
    else
      match p.add.getDeltaForEpsilons epsilons with
      | .error e => .error e
      | .ok da => .ok (List.zipWith max dr da)

/-- `PrivacyLossDistribution.get_epsilon_for_delta`, `privacy_loss_distribution.py:540-565`. -/
noncomputable def getEpsilonForDelta (p : Pld) (delta : ℝ) : EReal :=
  let epsilonRemove := p.remove.getEpsilonForDelta delta
  if p.symmetric then epsilonRemove else max epsilonRemove (p.add.getEpsilonForDelta delta)

/-- `PrivacyLossDistribution.validate_composable`, `privacy_loss_distribution.py:567-583`: only the REMOVE PMFs are
compared. -/
noncomputable def validateComposable (p q : Pld) : Except Err Unit := p.remove.validateComposable q.remove

/-- `PrivacyLossDistribution.compose`, `privacy_loss_distribution.py:585-612`. -/
noncomputable def compose (p q : Pld) (t : ℝ) : Except Err Pld :=
  match composePmfs p.remove q.remove t with
  | .error e => .error e
  | .ok remove =>
    if p.symmetric && q.symmetric then .ok (mk' remove none)
    else
      match composePmfs p.add q.add t with
      | .error e => .error e
      | .ok add => .ok (mk' remove (some add))

/-- `PrivacyLossDistribution.get_delta_for_epsilon_for_composed_pld`, `privacy_loss_distribution.py:614-642`. -/
noncomputable def deltaForComposed (p q : Pld) (epsilon : ℝ) : Except Err ℝ :=
  match p.remove.deltaForComposed q.remove epsilon with
  | .error e => .error e
  | .ok dr =>
    if p.symmetric && q.symmetric then .ok dr
    else
      match p.add.deltaForComposed q.add epsilon with
      | .error e => .error e
      | .ok da => .ok (max dr da)

/-- `PrivacyLossDistribution.self_compose`, `privacy_loss_distribution.py:644-661`. -/
noncomputable def selfCompose (nextFastLen : ℕ → ℕ) (p : Pld) (numTimes : ℤ) (t : ℝ) : Except Err Pld :=
  match p.remove.selfCompose nextFastLen numTimes t with
  | .error e => .error e
  | .ok remove =>
    if p.symmetric then .ok (mk' remove none)
    else
      match p.add.selfCompose nextFastLen numTimes t with
      | .error e => .error e
      | .ok add => .ok (mk' remove (some add))

/-- `identity`, `privacy_loss_distribution.py:664-679`. -/
def identity (disc : ℝ) : Except Err Pld := createFromRounded [(0, 1)] 0 disc true none none true

/-! ### `from_two_probability_mass_functions` -/

/-- Log probabilities: a real or `-math.inf`. `pld/privacy_loss_distribution.py:683-684`, `687`. -/
abbrev LogProb := WithBot ℝ

/-- `math.exp` of a log probability. `pld/privacy_loss_distribution.py:730`, `744`, `751`. -/
noncomputable def expLog : LogProb → ℝ
  | ⊥ => 0
  | (x : ℝ) => Real.exp x

/-- A python mapping from outcomes to log probabilities, in iteration order. `pld/privacy_loss_distribution.py:683-684`. -/
abbrev LogPmf (O : Type) := List (O × LogProb)

variable {O : Type} [DecidableEq O]

/-- `d.get(outcome, -math.inf)`. `pld/privacy_loss_distribution.py:726`, `739`, `751`. -/
def LogPmf.get (d : LogPmf O) (o : O) : LogProb :=
  match d with
  | [] => ⊥
  | (o', v) :: d => if o' = o then v else LogPmf.get d o

open Classical in
/-- `pmf[x] = pmf.get(x, 0) + v` on the float-keyed dictionary `pmf` of lines 735 and 745-747. -/
noncomputable def addLoss (d : List (ℝ × ℝ)) (x v : ℝ) : List (ℝ × ℝ) :=
  match d with
  | [] => [(x, 0 + v)]
  | (x', w) :: d => if x' = x then (x, w + v) :: d else (x', w) :: addLoss d x v

/-- First loop, `privacy_loss_distribution.py:725-731`: mass of the outcomes the lower distribution never produces. -/
noncomputable def outsideMass (lower : LogPmf O) : LogPmf O → ℝ → ℝ
  | [], acc => acc
  | (o, lu) :: rest, acc =>
    outsideMass lower rest (if LogPmf.get lower o = ⊥ then acc + expLog lu else acc)

open Classical in
/-- Second loop, `privacy_loss_distribution.py:736-753`, over `log_pmf_lower.items()`. Returns `infinity_mass` and `pmf`. -/
noncomputable def lossLoop (upper : LogPmf O) (bound : LogProb) (pessimistic : Bool) :
    LogPmf O → ℝ → List (ℝ × ℝ) → ℝ × List (ℝ × ℝ)
  | [], inf, pmf => (inf, pmf)
  | (o, ll) :: rest, inf, pmf =>
    match ll with
    | ⊥ => lossLoop upper bound pessimistic rest inf pmf
    | (l : ℝ) =>
      if bound < LogPmf.get upper o then
        match LogPmf.get upper o with
        | ⊥ => lossLoop upper bound pessimistic rest inf pmf                 -- not reached: nothing is `< -inf`
        | (u : ℝ) => lossLoop upper bound pessimistic rest inf (addLoss pmf (u - l) (Real.exp u))
      else
        lossLoop upper bound pessimistic rest (if pessimistic then inf + expLog (LogPmf.get upper o) else inf) pmf

/-- `round_fn`: `math.ceil` if pessimistic else `math.floor` (`privacy_loss_distribution.py:757, 874`). -/
noncomputable def roundFn (pessimistic : Bool) (x : ℝ) : ℤ := if pessimistic then ⌈x⌉ else ⌊x⌋

/-- Third loop, `privacy_loss_distribution.py:756-759`. -/
noncomputable def roundLoop (disc : ℝ) (pessimistic : Bool) : List (ℝ × ℝ) → PyDict → PyDict
  | [], d => d
  | (x, v) :: rest, d => roundLoop disc pessimistic rest (d.add (roundFn pessimistic (x / disc)) v)

/-- `_create_rounded_probability_mass_function`, `privacy_loss_distribution.py:719-760`. A zero interval raises
`ZeroDivisionError` as soon as there is a loss to round. -/
noncomputable def roundedPmf (lower upper : LogPmf O) (pessimistic : Bool) (disc : ℝ) (bound : LogProb) : ℝ × PyDict :=
  let r := lossLoop upper bound pessimistic lower (outsideMass lower upper 0) []
  (r.1, roundLoop disc pessimistic r.2 [])

/-- `from_two_probability_mass_functions`, `privacy_loss_distribution.py:682-784` (interval assumed non-zero). -/
noncomputable def fromTwoPmfs (lower upper : LogPmf O) (pessimistic : Bool) (disc : ℝ) (bound : LogProb)
    (symmetric : Bool) : Except Err Pld :=
  let r := roundedPmf lower upper pessimistic disc bound
  if symmetric then createFromRounded r.2 r.1 disc pessimistic none none true
  else
    let ra := roundedPmf upper lower pessimistic disc bound
    createFromRounded r.2 r.1 disc pessimistic (some ra.2) (some ra.1) false

/-! ### `create_from_cdf` -/

open Classical in
/-- First loop of `create_from_cdf`, `privacy_loss_distribution.py:967-974`. `k` counts the iterations: `value` is
`k * value_discretization_interval` and `rounded_value` is its initial value plus `k`. `none` when the fuel runs out. -/
noncomputable def cdfUp (cdf : ℝ → ℝ) (disc t : ℝ) (rounded : ℤ) : (fuel : ℕ) → (value : ℝ) → PyDict → Option PyDict
  | fuel, value, d =>
    if cdf value < 1 - t / 2 then
      match fuel with
      | 0 => none
      | fuel + 1 => cdfUp cdf disc t (rounded + 1) fuel (value + disc) (d.set rounded (cdf (value + disc) - cdf value))
    else some d
  termination_by fuel => fuel

open Classical in
/-- Second loop of `create_from_cdf`, `privacy_loss_distribution.py:977-984`. -/
noncomputable def cdfDown (cdf : ℝ → ℝ) (disc t : ℝ) (rounded : ℤ) : (fuel : ℕ) → (value : ℝ) → PyDict → Option PyDict
  | fuel, value, d =>
    if cdf value > t / 2 then
      match fuel with
      | 0 => none
      | fuel + 1 => cdfDown cdf disc t (rounded - 1) fuel (value - disc) (d.set rounded (cdf value - cdf (value - disc)))
    else some d
  termination_by fuel => fuel

/-- `create_from_cdf`, `privacy_loss_distribution.py:943-990`; `none` if a loop does not stop within the fuel. -/
noncomputable def createFromCdf (fuel : ℕ) (cdf : ℝ → ℝ) (pessimistic : Bool) (disc t : ℝ) : Option (Except Err Pld) :=
  match cdfUp cdf disc t (if pessimistic then 1 else 0) fuel 0 [] with
  | none => none
  | some d =>
    match cdfDown cdf disc t (if pessimistic then 0 else -1) fuel 0 d with
    | none => none
    | some d => some (createFromRounded d (if pessimistic then t else 0) disc pessimistic none none true)

/-! ### Randomised response -/

/-- `math.log` of a positive real as a log probability. `pld/privacy_loss_distribution.py:1087-1113`. -/
noncomputable def logP (x : ℝ) : LogProb := ((Real.log x : ℝ) : LogProb)

open Classical in
/-- `from_randomized_response`, `privacy_loss_distribution.py:993-1122`. `math.log1p(-1/k)` is `log (1 - 1/k)`. -/
noncomputable def fromRandomizedResponse (noise : ℝ) (numBuckets : ℤ) (pessimistic : Bool) (disc : ℝ)
    (nr : NeighborRel) : Except Err Pld :=
  if noise ≤ 0 ∨ noise ≥ 1 then .error .valueError
  else if numBuckets ≤ 1 then .error .valueError
  else
    let k : ℝ := numBuckets
    match nr with
    | .addOrRemoveOne => .error .valueError
    | .replaceOne =>
      let u0 := logP (1 - noise * (k - 1) / k)
      let u1 := logP (noise / k)
      let rest : LogPmf ℕ := if numBuckets > 2 then [(2, logP ((k - 2) * noise / k))] else []
      fromTwoPmfs ([(0, u1), (1, u0)] ++ rest) ([(0, u0), (1, u1)] ++ rest) pessimistic disc ⊥ true
    | .replaceSpecial =>
      let upper : LogPmf ℕ := [(0, logP (1 - noise * (k - 1) / k)), (1, logP ((k - 1) * noise / k))]
      let lower : LogPmf ℕ := [(0, ((-Real.log k : ℝ) : LogProb)), (1, logP (1 - 1 / k))]
      fromTwoPmfs lower upper pessimistic disc ⊥ false

/-! ### `from_privacy_parameters` -/

/-- `DifferentialPrivacyParameters.__post_init__`, `common.py:28-43`. -/
noncomputable def validatePrivacyParameters (epsilon delta : ℝ) : Except Err Unit :=
  open Classical in
  if epsilon < 0 then .error .valueError
  else if delta < 0 ∨ delta > 1 then .error .valueError
  else .ok ()

/-- `from_privacy_parameters`, `privacy_loss_distribution.py:1435-1472`. -/
noncomputable def fromPrivacyParameters (epsilon delta disc : ℝ) : Except Err Pld :=
  let d : PyDict := PyDict.set [] ⌈epsilon / disc⌉ ((1 - delta) / (1 + Real.exp (-epsilon)))
  let d := d.add ⌈-epsilon / disc⌉ ((1 - delta) / (1 + Real.exp epsilon))
  createFromRounded d delta disc true none none true

end Pld
end Verif
