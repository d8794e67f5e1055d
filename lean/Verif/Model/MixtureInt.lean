import Verif.Model.MixtureGaussian

/-!
# Mixtures of Gaussians: integer epsilons

`np.atleast_1d` of a python `int`, or of a list of them, is an array of integers, and `np.zeros_like` and `np.full_like` of it are arrays of
integers too (`pld/privacy_loss_mechanism.py:2030, 2331-2338, 2378`): cut-offs stored in them are truncated.

What `np.full_like(privacy_losses, np.inf)` does for integers depends on the version of NumPy: it raises, or it stores some integer. Its
result is the parameter `fill`.
-/

namespace Verif.Mixture.Obj
open Verif Verif.Pld
variable (m : Obj)

/-- A float stored in an array of integers is truncated towards zero. `pld/privacy_loss_mechanism.py:2378-2384`. -/
noncomputable def truncate (x : ℝ) : ℝ := if 0 ≤ x then (⌊x⌋ : ℝ) else (⌈x⌉ : ℝ)

open Classical in
/-- `_inverse_privacy_losses_with_range`, `pld/privacy_loss_mechanism.py:2344-2385`, for an array of integers. -/
noncomputable def inverseRangeInt (p : ℝ) : (fuel : ℕ) → (losses : List ℝ) → (lo hi : ℝ) → Option (List ℝ)
  | fuel, losses, lo, hi =>
    if losses = [] then some []
    else if hi - lo ≤ p then some (losses.map fun _ => (⌊hi / p⌋ : ℝ) * p)
    else
      match fuel with
      | 0 => none
      | fuel + 1 => do
        let mid := (lo + hi) / 2
        let split := m.privacyLoss mid
        let lower ← inverseRangeInt p fuel (losses.filter fun l => l < split) mid hi
        let higher ← inverseRangeInt p fuel (losses.filter fun l => ¬ l < split) lo mid
        some (scatter (losses.map fun l => decide (l < split)) (lower.map truncate) (higher.map truncate))

/-- `privacy_loss_for_single_gaussian(np.full_like(…))`, `pld/privacy_loss_mechanism.py:2167-2191`, `2331-2338`: what is returned for losses
close to the limit. -/
noncomputable def infiniteInt (fill : ℝ) : ℝ := m.single fill 1

open Classical in
/-- `inverse_privacy_losses`, `pld/privacy_loss_mechanism.py:2241-2342`, for an array of integers. -/
noncomputable def inverseLossesInt (fill : Except Err ℝ) (losses : List ℝ) (p : ℝ) : Except Err (List ℝ) :=
  if ¬ losses.Pairwise (· ≤ ·) then .error .valueError
  else if losses = [] then .ok []
  else if m.OutOfRange losses then .error .valueError
  else
    let fin := losses.filter fun l => m.Finite l
    if fin = [] then .error .valueError
    else do
      let minPl := match m.adj with | .add => losses.headD 0 | .remove => listMin fin
      let maxPl := match m.adj with | .add => listMax fin | .remove => losses.getLastD 0
      let c ← m.candidates minPl maxPl
      let lo := (⌊listMin c / p⌋ : ℝ) * p
      let hi := (⌈listMax c / p⌉ : ℝ) * p
      let f ← fill
      match m.inverseRangeInt p (depth p lo hi) fin lo hi with
      | none => .error .notImplementedError                          -- not reached
      | some out => .ok (scatter (losses.map fun l => decide (m.Finite l)) out
          ((losses.filter fun l => ¬ m.Finite l).map fun _ => m.infiniteInt f))

open Classical in
/-- `deltas` before the post-processing, `pld/privacy_loss_mechanism.py:2030-2047`, for integers; `deltas` itself is an array of floats
(line 2033). -/
noncomputable def rawDeltasInt (fill : Except Err ℝ) (eps : List ℤ) : Except Err (List ℝ) :=
  let eps := eps.map fun n : ℤ => (n : ℝ)
  if ¬ eps.Pairwise (· ≤ ·) then .error .valueError
  else do
    let inv := eps.filter fun e => m.Inverted e
    let xs ← m.inverseLossesInt fill inv 1e-6
    .ok ((scatter (eps.map fun e => decide (m.Inverted e)) (List.zipWith (fun e (x : ℝ) => m.cutoffDelta e x) inv xs)
      ((eps.filter fun e => ¬ m.Inverted e).map m.otherDelta)).map Mech.AdditiveNoise.clip01)

/-- `get_delta_for_epsilon`, `pld/privacy_loss_mechanism.py:2017-2055`, for an array of integers. -/
noncomputable def getDeltasInt (fill : Except Err ℝ) (eps : List ℤ) : Except Err (List ℝ) := (m.rawDeltasInt fill eps).map suffixMax

/-- `get_delta_for_epsilon`, `pld/privacy_loss_mechanism.py:2017-2055`, for one integer. -/
noncomputable def getDeltaInt (fill : Except Err ℝ) (eps : ℤ) : Except Err ℝ := (m.rawDeltasInt fill [eps]).map fun r => r.headD 0

end Verif.Mixture.Obj
