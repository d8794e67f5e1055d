import Verif.Model.Accountant
import Mathlib.Analysis.SpecialFunctions.Pow.Real

/-!
# Model of `RdpAccountant` (`rdp_privacy_accountant.py:980-1209`)

The accountant's traversal is modelled branch by branch; the numeric functions it calls are the fields of `RdpFns`
(so the theorems about the traversal hold whatever they compute); the functions that are modelled themselves are in
`Verif.Model.Rdp`.  RDP values are `EReal` (floats with `inf`; the NaN of `0 * inf` is not modelled).
-/

namespace Verif

/-- A float array with one entry per RDP order. `rdp/rdp_privacy_accountant.py:983-998`. -/
abbrev Arr (n : ℕ) := Fin n → EReal

/-- A value returned by `_effective_gaussian_noise_multiplier` (`rdp_privacy_accountant.py:544-581`): a number, a
complex number (python: `negative ** -0.5`), or the offending subevent. -/
inductive EffNoise where
  | num (z : PyNum)
  | complex
  | badEvent (e : DpEvent)

namespace EffNoise

/-- `sigma**-2` for a float (`rdp_privacy_accountant.py:573`); `0.0**-2` raises. -/
noncomputable def invSq : PyNum → Except Err ℝ
  | .int z => .ok ((z : ℝ) ^ (-2 : ℤ))
  | .float x => if x = 0 then .error .zeroDivisionError else .ok (x ^ (-2 : ℤ))
  | .inf => .ok 0

/-- `sum_sigma_inv_sq**-0.5` (`rdp_privacy_accountant.py:574`); raises for zero.  The sum is never negative. -/
noncomputable def invSqrt (s : ℝ) : Except Err PyNum :=
  if s = 0 then .error .zeroDivisionError else .ok (.float (s ^ (-(1 / 2) : ℝ)))

/-- `sigma * event.count**-0.5` (`rdp_privacy_accountant.py:579`): raises for count 0, complex for negative counts. -/
noncomputable def scale (s : PyNum) (count : ℤ) : Except Err EffNoise :=
  if count = 0 then .error .zeroDivisionError
  else if count < 0 then .ok .complex
  else match s with
    | .int z => .ok (.num (.float ((z : ℝ) * (count : ℝ) ^ (-(1 / 2) : ℝ))))
    | .float x => .ok (.num (.float (x * (count : ℝ) ^ (-(1 / 2) : ℝ))))
    | .inf => .ok (.num .inf)

end EffNoise

mutual
/-- `_effective_gaussian_noise_multiplier`, `rdp_privacy_accountant.py:544-581`. -/
noncomputable def effNoise : DpEvent → Except Err EffNoise
  | .gaussian z => .ok (.num z)
  | .composed es => effNoiseLoop es 0
  | .selfComposed e n =>
    match effNoise e with
    | .error err => .error err
    | .ok (.num s) => if s.isFloat then EffNoise.scale s n else .ok (.num s)
    | .ok r => .ok r
  | e => .ok (.badEvent e)
/-- The loop of `rdp_privacy_accountant.py:567-574`, with the running sum `sum_sigma_inv_sq`. -/
noncomputable def effNoiseLoop : List DpEvent → ℝ → Except Err EffNoise
  | [], acc => (EffNoise.invSqrt acc).map .num
  | e :: es, acc =>
    match effNoise e with
    | .error err => .error err
    | .ok (.num s) =>
      if s.isFloat then
        match EffNoise.invSq s with
        | .error err => .error err
        | .ok v => effNoiseLoop es (acc + v)
      else .ok (.num s)
    | .ok r => .ok r
end

/-- The numeric functions called by `RdpAccountant._maybe_compose` for a fixed array of `n` orders, each returning one
value per order or raising. The calls of `rdp/rdp_privacy_accountant.py:1021-1138`. -/
structure RdpFns (n : ℕ) where
  /-- `_compute_rdp_poisson_subsampled_gaussian(q, noise_multiplier, orders)`, lines 360-397; the noise multiplier
  may be complex (see `EffNoise`). -/
  poissonGaussian : PyNum → EffNoise → Except Err (Arr n)
  /-- `_compute_rdp_sample_wor_gaussian(q, noise_multiplier, orders)`, lines 400-541. -/
  sampleWor : ℝ → EffNoise → Except Err (Arr n)
  /-- `_compute_rdp_single_epoch_tree_aggregation`, lines 584-628. -/
  tree : PyNum → ℤ ⊕ List ℤ → Except Err (Arr n)
  /-- `[_laplace_rdp(eps, order) for order in self._orders]`, lines 824-861, 1102-1104. -/
  laplace : ℝ → Except Err (Arr n)
  /-- `_compute_rdp_repeat_and_select(orders, rdp, mean, shape)`, lines 748-821. -/
  repeatAndSelect : Arr n → PyNum → PyNum → Except Err (Arr n)
  /-- `_compute_randomized_response_rdp`, lines 938-968. -/
  randomizedResponse : PyNum → ℤ → NeighborRel → Except Err (Arr n)

namespace RdpAccountant
variable {n : ℕ}

/-- `self._rdp += count * value`, with `value` an array or the exception raised while computing it. `rdp/rdp_privacy_accountant.py:1021`, `1050`, `1078`, `1095`, `1102`, `1138`. -/
noncomputable def addTo (rdp : Arr n) (count : ℤ) (v : Except Err (Arr n)) :
    Arr n × Except Err (Option CompositionError) :=
  match v with
  | .error err => (rdp, .error err)
  | .ok a => (fun i => rdp i + ((count : ℝ) : EReal) * a i, .ok none)

/-- `1 / event.noise_multiplier`, line 1101; raises for zero. -/
noncomputable def recip : PyNum → Except Err ℝ
  | .int z => if z = 0 then .error .zeroDivisionError else .ok (1 / (z : ℝ))
  | .float x => if x = 0 then .error .zeroDivisionError else .ok (1 / x)
  | .inf => .ok 0

/-- `event.sample_size / event.source_dataset_size`, line 1079; raises for zero. -/
noncomputable def ratio (sampleSize sourceSize : ℤ) : Except Err ℝ :=
  if sourceSize = 0 then .error .zeroDivisionError else .ok ((sampleSize : ℝ) / (sourceSize : ℝ))

mutual
/-- `RdpAccountant._maybe_compose`, `rdp_privacy_accountant.py:1000-1149`. -/
noncomputable def maybeCompose (F : RdpFns n) (nr : NeighborRel) :
    DpEvent → ℤ → Bool → Arr n → Arr n × Except Err (Option CompositionError)
  | .noOp, _, _, rdp => (rdp, .ok none)                                    -- 1005
  | .nonPrivate, _, doC, rdp =>                                            -- 1007
    if doC then (fun i => rdp i + ⊤, .ok none) else (rdp, .ok none)
  | .selfComposed e m, count, doC, rdp =>                                  -- 1011
    maybeCompose F nr e (m * count) doC rdp
  | .composed es, count, doC, rdp => composeList F nr es count doC rdp     -- 1013
  | .gaussian z, count, doC, rdp =>                                        -- 1019
    if doC then addTo rdp count (F.poissonGaussian (.float 1) (.num z)) else (rdp, .ok none)
  | .poissonSampled q e, count, doC, rdp =>                                -- 1025
    if nr = .addOrRemoveOne ∨ nr = .replaceSpecial then
      match effNoise e with
      | .error err => (rdp, .error err)
      | .ok (.badEvent _) => (rdp, .ok (some ⟨.poissonSampled q e⟩))
      | .ok s => if doC then addTo rdp count (F.poissonGaussian q s) else (rdp, .ok none)
    else (rdp, .ok (some ⟨.poissonSampled q e⟩))
  | .sampledWithoutReplacement sz m e, count, doC, rdp =>                  -- 1056
    if nr = .replaceOne then
      match effNoise e with
      | .error err => (rdp, .error err)
      | .ok (.badEvent _) => (rdp, .ok (some ⟨.sampledWithoutReplacement sz m e⟩))
      | .ok s =>
        if doC then
          match ratio m sz with
          | .error err => (rdp, .error err)
          | .ok q => addTo rdp count (F.sampleWor q s)
        else (rdp, .ok none)
    else (rdp, .ok (some ⟨.sampledWithoutReplacement sz m e⟩))
  | .singleEpochTreeAggregation z s, count, doC, rdp =>                    -- 1084
    if nr = .replaceSpecial then
      if doC then addTo rdp count (F.tree z s) else (rdp, .ok none)
    else (rdp, .ok (some ⟨.singleEpochTreeAggregation z s⟩))
  | .laplace z, count, doC, rdp =>                                         -- 1099
    if doC then
      match recip z with
      | .error err => (rdp, .error err)
      | .ok eps => addTo rdp count (F.laplace eps)
    else (rdp, .ok none)
  | .repeatAndSelect e mean shape, count, doC, rdp =>                      -- 1106
    if doC then
      -- `save_rdp = self._rdp; self._rdp = np.zeros_like(...)`, the inner call works on the zeroed array
      match maybeCompose F nr e 1 true (fun _ => 0) with
      | (inner, .error err) => (inner, .error err)
      | (inner, .ok (some c)) => (inner, .ok (some c))
      | (inner, .ok none) =>
        match F.repeatAndSelect inner mean shape with
        | .error err => (inner, .error err)
        | .ok r => (fun i => ((count : ℝ) : EReal) * r i + rdp i, .ok none)
    else maybeCompose F nr e 1 false rdp
  | .randomizedResponse p k, count, doC, rdp =>                            -- 1124
    if nr = .replaceSpecial ∨ nr = .replaceOne then
      if doC then addTo rdp count (F.randomizedResponse p k nr) else (rdp, .ok none)
    else (rdp, .ok (some ⟨.randomizedResponse p k⟩))
  | .unsupported, _, _, rdp => (rdp, .ok (some ⟨.unsupported⟩))            -- 1146
  | .sampledWithReplacement a b e, _, _, rdp => (rdp, .ok (some ⟨.sampledWithReplacement a b e⟩))
  | .mixtureOfGaussians a b c, _, _, rdp => (rdp, .ok (some ⟨.mixtureOfGaussians a b c⟩))
/-- The loop over `event.events`, lines 1013-1018: stop at the first error or exception. -/
noncomputable def composeList (F : RdpFns n) (nr : NeighborRel) :
    List DpEvent → ℤ → Bool → Arr n → Arr n × Except Err (Option CompositionError)
  | [], _, _, rdp => (rdp, .ok none)
  | e :: es, count, doC, rdp =>
    match maybeCompose F nr e count doC rdp with
    | (rdp', .ok none) => composeList F nr es count doC rdp'
    | r => r
end

/-- `RdpAccountant` as an accountant object; `nr` is the neighbouring relation given to `__init__`
(`rdp_privacy_accountant.py:983-998`). -/
noncomputable def accountant (F : RdpFns n) (nr : NeighborRel) : Accountant (Arr n) where
  maybeCompose := maybeCompose F nr

/-- Initial `_rdp`, `rdp_privacy_accountant.py:998`. -/
noncomputable def init : Arr n := fun _ => 0

end RdpAccountant
end Verif
