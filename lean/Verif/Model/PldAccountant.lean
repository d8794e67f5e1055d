import Verif.Model.Accountant
import Mathlib.Analysis.SpecialFunctions.Pow.Real

/-!
# Model of `PLDAccountant` (`pld_privacy_accountant.py`)

The traversal is modelled branch by branch over an abstract type `P` of privacy loss distributions; the constructors and
operations of `privacy_loss_distribution.py` it calls are the fields of `PldFns`.
-/

namespace Verif

/-- The PLD operations called by `PLDAccountant`; every one may raise. The calls of `pld/pld_privacy_accountant.py:38-40` and `73-154`. -/
structure PldFns (P : Type) where
  /-- `PLD.identity(value_discretization_interval)` -/
  identity : P
  /-- `pld.compose(other)` -/
  compose : P → P → Except Err P
  /-- `pld.self_compose(count)` -/
  selfCompose : P → ℤ → Except Err P
  /-- `PLD.from_randomized_response(noise_parameter, num_buckets, ..., neighboring_relation)` -/
  fromRR : PyNum → ℤ → NeighborRel → Except Err P
  /-- `PLD.from_gaussian_mechanism(standard_deviation, ..., sampling_prob)`; the standard deviation is given as
  noise multiplier and count, `noise_multiplier / math.sqrt(count)` -/
  fromGaussian : (noiseMultiplier : PyNum) → (count : ℤ) → (samplingProb : PyNum) → Except Err P
  /-- `PLD.from_laplace_mechanism(parameter, ..., sampling_prob)` -/
  fromLaplace : PyNum → (samplingProb : PyNum) → Except Err P
  /-- `PLD.from_mixture_gaussian_mechanism(standard_deviation, sensitivities, sampling_probs, ...)` -/
  fromMixture : PyNum → List PyNum → List PyNum → Except Err P
  /-- `pld.get_epsilon_for_delta(delta)` -/
  epsilonForDelta : P → ℝ → EReal
  /-- `pld.get_delta_for_epsilon(epsilon)` -/
  deltaForEpsilon : P → ℝ → ℝ

/-- State of `PLDAccountant` (`pld_privacy_accountant.py:36-39`): `_contains_non_dp_event`, `_pld`. -/
structure PldState (P : Type) where
  nonDp : Bool
  pld : P

namespace PldAccountant
variable {P : Type}

/-- `self._pld = self._pld.compose(other)`, where computing `other` may have raised. `pld/pld_privacy_accountant.py:80`, `90`, `101`, `116`, `140`, `154`. -/
def composeWith (F : PldFns P) (s : PldState P) (other : Except Err P) :
    PldState P × Except Err (Option CompositionError) :=
  match other with
  | .error err => (s, .error err)
  | .ok p =>
    match F.compose s.pld p with
    | .error err => (s, .error err)
    | .ok r => ({ s with pld := r }, .ok none)

open Classical in
/-- Python's test `x == 0`. -/
noncomputable def isZero (z : PyNum) : Bool := decide (z.val = 0)

/-- `len(event.sensitivities) == 1 and event.sensitivities[0] == 0.0`, line 105. -/
noncomputable def trivialSens : List PyNum → Bool
  | [s] => isZero s
  | _ => false

/-- `self._contains_non_dp_event = True; return None`. `pld/pld_privacy_accountant.py:48`, `72`, `85`, `95`, `108`, `133`, `147`. -/
def markNonDp (s : PldState P) : PldState P × Except Err (Option CompositionError) :=
  ({ s with nonDp := true }, .ok none)

mutual
/-- `PLDAccountant._maybe_compose`, `pld_privacy_accountant.py:42-165`. -/
noncomputable def maybeCompose (F : PldFns P) (nr : NeighborRel) :
    DpEvent → ℤ → Bool → PldState P → PldState P × Except Err (Option CompositionError)
  | .noOp, _, _, s => (s, .ok none)
  | .nonPrivate, _, doC, s => if doC then markNonDp s else (s, .ok none)
  | .selfComposed e m, count, doC, s => maybeCompose F nr e (m * count) doC s
  | .composed es, count, doC, s => composeList F nr es count doC s
  | .randomizedResponse p k, _count, doC, s =>                       -- line 58: `count` is not used
    if nr = .replaceOne ∨ nr = .replaceSpecial then
      if doC then
        if k = 1 then (s, .ok none)
        else if isZero p then markNonDp s
        else composeWith F s (F.fromRR p k nr)
      else (s, .ok none)
    else (s, .ok (some ⟨.randomizedResponse p k⟩))
  | .gaussian z, count, doC, s =>                                    -- line 82
    if doC then
      if isZero z then markNonDp s
      else composeWith F s (F.fromGaussian z count (.float 1))
    else (s, .ok none)
  | .laplace z, count, doC, s =>                                     -- line 92
    if doC then
      if isZero z then markNonDp s
      else composeWith F s (F.fromLaplace z (.float 1) >>= fun p => F.selfCompose p count)
    else (s, .ok none)
  | .mixtureOfGaussians d ss ps, count, doC, s =>                    -- line 103
    if doC then
      if trivialSens ss then (s, .ok none)
      else if isZero d then markNonDp s
      else composeWith F s (F.fromMixture d ss ps >>= fun p => F.selfCompose p count)
    else (s, .ok none)
  | .poissonSampled q e, count, doC, s =>                            -- line 118
    if nr = .addOrRemoveOne ∨ nr = .replaceSpecial then
      match e with
      | .gaussian z =>
        if doC then
          if isZero q then (s, .ok none)
          else if isZero z then markNonDp s
          else composeWith F s (F.fromGaussian z 1 q >>= fun p => F.selfCompose p count)
        else (s, .ok none)
      | .laplace z =>
        if doC then
          if isZero q then (s, .ok none)
          else if isZero z then markNonDp s
          else composeWith F s (F.fromLaplace z q >>= fun p => F.selfCompose p count)
        else (s, .ok none)
      | e => (s, .ok (some ⟨.poissonSampled q e⟩))
    else (s, .ok (some ⟨.poissonSampled q e⟩))
  | .unsupported, _, _, s => (s, .ok (some ⟨.unsupported⟩))          -- line 160
  | .sampledWithReplacement a b e, _, _, s => (s, .ok (some ⟨.sampledWithReplacement a b e⟩))
  | .sampledWithoutReplacement a b e, _, _, s => (s, .ok (some ⟨.sampledWithoutReplacement a b e⟩))
  | .singleEpochTreeAggregation a b, _, _, s => (s, .ok (some ⟨.singleEpochTreeAggregation a b⟩))
  | .repeatAndSelect a b c, _, _, s => (s, .ok (some ⟨.repeatAndSelect a b c⟩))
/-- The loop over `event.events`, lines 52-57. -/
noncomputable def composeList (F : PldFns P) (nr : NeighborRel) :
    List DpEvent → ℤ → Bool → PldState P → PldState P × Except Err (Option CompositionError)
  | [], _, _, s => (s, .ok none)
  | e :: es, count, doC, s =>
    match maybeCompose F nr e count doC s with
    | (s', .ok none) => composeList F nr es count doC s'
    | r => r
end

/-- `PLDAccountant` as an accountant object. `pld/pld_privacy_accountant.py:28-177`. -/
noncomputable def accountant (F : PldFns P) (nr : NeighborRel) : Accountant (PldState P) where
  maybeCompose := maybeCompose F nr

/-- Initial state, `pld_privacy_accountant.py:31-40`. -/
def init (F : PldFns P) : PldState P := ⟨false, F.identity⟩

/-- `PLDAccountant.get_epsilon`, `pld_privacy_accountant.py:167-170`. -/
noncomputable def getEpsilon (F : PldFns P) (s : PldState P) (targetDelta : ℝ) : EReal :=
  if s.nonDp then ⊤ else F.epsilonForDelta s.pld targetDelta

/-- `PLDAccountant.get_delta`, `pld_privacy_accountant.py:172-175`. -/
def getDelta (F : PldFns P) (s : PldState P) (targetEpsilon : ℝ) : ℝ :=
  if s.nonDp then 1 else F.deltaForEpsilon s.pld targetEpsilon

end PldAccountant
end Verif
