import Verif.Model.PldAccountant
import Verif.Model.AdditiveNoisePld
import Verif.Model.MixtureGaussian
import Verif.Model.InfiniteNoise

/-!
# `PLDAccountant` with the library's own privacy loss distributions

`Model/PldAccountant.lean` leaves the PLD operations open. Here they are the modelled functions of
`pld/privacy_loss_distribution.py`, called with the arguments that `pld_privacy_accountant.py` passes and otherwise with their
default values: `pessimistic_estimate=True`, `use_connect_dots=True`, `log_mass_truncation_bound=-50`, `sensitivity=1`,
`tail_mass_truncation=1e-15`.

Gaussian and Laplace noise with an infinite multiplier is in `Model/InfiniteNoise.lean`. Not modelled: an infinite standard deviation or
infinite sensitivities of a mixture of Gaussians, and infinite sampling probabilities; these calls are errors here, so nothing is
claimed about a run that makes them.
-/

namespace Verif

/-- A number as a real; `none` for `math.inf`. For the parameters of the events read in `pld/pld_privacy_accountant.py:64-154`. -/
noncomputable def PyNum.real? : PyNum → Option ℝ
  | .int z => some z
  | .float x => some x
  | .inf => none

namespace PldLibrary

/-- The default `tail_mass_truncation` of `compose` and `self_compose` (`privacy_loss_distribution.py:586-589, 644-647`). -/
noncomputable def tailTruncation : ℝ := 1e-15

/-- A constructor call that does not depend on fuel returns. For the calls in `pld/pld_privacy_accountant.py:73-154`. -/
def total {α : Type} : Option (Except Err α) → Except Err α
  | some r => r
  | none => .error .notImplementedError                              -- not reached with `use_connect_dots`

/-- `PLD.from_gaussian_mechanism(standard_deviation=z / math.sqrt(count), sampling_prob=q, ...)`,
`pld_privacy_accountant.py:86-88, 131-136`. `math.sqrt` raises `ValueError` on a negative number. `ppf σ` is the inverse
distribution function of the normal distribution with standard deviation `σ` (`scipy`). With `z = math.inf` the quotient is infinite for a
positive count. -/
noncomputable def fromGaussian (ppf : ℝ → ℝ → ℝ) (disc : ℝ) (z : PyNum) (count : ℤ) (q : PyNum) : Except Err Pld :=
  match z.real?, q.real? with
  | some z, some q =>
    if count < 0 then .error .valueError
    else if count = 0 then .error .zeroDivisionError
    else total (Mech.fromGaussian 0 (ppf (z / Real.sqrt count)) (z / Real.sqrt count) 1 true disc (-50) q true)
  | none, some q =>
    if count < 0 then .error .valueError
    else if count = 0 then .error .zeroDivisionError
    else do
      let _ ← InfiniteNoise.gaussianGrid (ppf 1 (0.5 * Real.exp (-50))) disc q
      .error .notImplementedError                                    -- not reached: `gaussianGrid` raises
  | _, _ => .error .notImplementedError

open Classical in
/-- `PLD.from_laplace_mechanism(parameter=z, sampling_prob=q, ...)`, `pld_privacy_accountant.py:96-99, 147-152`. With `z = math.inf` the PLD has the
single loss 0 with mass NaN, and it is `self_compose` or `compose` right after it (`pld_privacy_accountant.py:97-101`, `149-154`) that raises
`IndexError`, whatever the accountant holds (`InfiniteNoise.composeLaplace`, `C82_pld_laplace_nan`). Simplification: this error is
returned here already. -/
noncomputable def fromLaplace (disc : ℝ) (z q : PyNum) : Except Err Pld :=
  match z.real?, q.real? with
  | some z, some q => total (Mech.fromLaplace 0 z 1 true disc q true)
  | none, some q => if q ≤ 0 ∨ q > 1 then .error .valueError else .error .indexError
  | _, _ => .error .notImplementedError

/-- `PLD.from_randomized_response(...)`, `pld_privacy_accountant.py:72-78`. -/
noncomputable def fromRR (disc : ℝ) (noise : PyNum) (numBuckets : ℤ) (nr : NeighborRel) : Except Err Pld :=
  match noise.real? with
  | some noise => Pld.fromRandomizedResponse noise numBuckets true disc nr
  | none => .error .valueError

open Classical in
/-- `PLD.from_mixture_gaussian_mechanism(standard_deviation=d, sensitivities=ss, sampling_probs=ps, ...)`,
`pld_privacy_accountant.py:109-115`: the result of the call, if its binary search ends (it does whenever the object is accepted,
`C70_pld_exists`). -/
noncomputable def fromMixture (ppf : ℝ → ℝ → ℝ) (disc : ℝ) (d : PyNum) (ss ps : List PyNum) : Except Err Pld :=
  match d.real?, ss.mapM PyNum.real?, ps.mapM PyNum.real? with
  | some σ, some ss, some ps =>
    if h : ∃ r N, ∀ fuel ≥ N, Mixture.fromMixture fuel (ppf σ) σ ss ps disc (-50) = some r then h.choose
    else .error .notImplementedError
  | _, _, _ => .error .notImplementedError

/-- `PLD.identity(value_discretization_interval)`, `pld_privacy_accountant.py:38`. The PLD of the zero loss, a single point; the
call does not raise (`Proofs/PldEndToEnd.lean`). -/
noncomputable def identity (disc : ℝ) : Pld :=
  match Pld.identity disc with
  | .ok p => p
  | .error _ => Pld.mk' (.sparse ⟨[], disc, 0, true⟩) none          -- not reached for a positive interval

/-- The operations that `PLDAccountant` calls. `nfl` is `scipy.fft.next_fast_len`. `pld/pld_privacy_accountant.py:38-40`, `73-154`. -/
noncomputable def fns (nfl : ℕ → ℕ) (ppf : ℝ → ℝ → ℝ) (disc : ℝ) : PldFns Pld where
  identity := identity disc
  compose p q := p.compose q tailTruncation
  selfCompose p n := p.selfCompose nfl n tailTruncation
  fromRR := fromRR disc
  fromGaussian := fromGaussian ppf disc
  fromLaplace := fromLaplace disc
  fromMixture := fromMixture ppf disc
  epsilonForDelta p δ := p.getEpsilonForDelta δ
  deltaForEpsilon p ε := p.getDeltaForEpsilon ε

end PldLibrary
end Verif
