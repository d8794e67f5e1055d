import Verif.Model.LogDomain
import Verif.Spec.AdditiveNoise

/-!
# Model of the additive noise mechanisms of `pld/privacy_loss_mechanism.py:224-1802`

`X` is the type of outputs: `ℝ` for continuous noise, `ℤ` for discrete noise (outputs that are not `int` are rejected by the
code and not representable here). Cut-off points are extended reals. `scipy`'s cdf and log cdf of the Laplace, normal and
discrete Laplace distributions are taken to be exact.
-/

namespace Verif
open Pld Spec MeasureTheory ProbabilityTheory

namespace Mech

/-- An object of a subclass of `AdditiveNoisePrivacyLoss`: its attributes and the methods the subclass implements. `pld/privacy_loss_mechanism.py:224-648`. -/
structure AdditiveNoise (X : Type) [AddCommGroup X] where
  /-- outputs as numbers -/
  toReal : X →+ ℝ
  sensitivity : X
  samplingProb : ℝ
  adj : Adj
  /-- `privacy_loss_without_subsampling` -/
  lossNo : X → Except Err EReal
  /-- `inverse_privacy_loss_without_subsampling` -/
  invNo : EReal → EReal
  /-- `noise_cdf` -/
  noiseCdf : EReal → ℝ
  /-- `noise_log_cdf` -/
  noiseLogCdf : EReal → LogProb

/-- `math.isclose(a, b)` with the default tolerances `rel_tol=1e-9`, `abs_tol=0`. -/
def IsClose (a b : ℝ) : Prop := a = b ∨ |a - b| ≤ 1e-9 * max |a| |b|

/-- The value of a logarithm; NaN (not produced by the calls below) is turned into an exception. For the calls in `pld/privacy_loss_mechanism.py:459-468` and `pld/privacy_loss_mechanism.py:540-556`. -/
noncomputable def ofLogRes : LogRes → Except Err EReal
  | .val ⊥ => .ok ⊥
  | .val (x : ℝ) => .ok (x : EReal)
  | .nan => .error .valueError
  | .raise e => .error e

/-- `common.log_a_times_exp_b_plus_c(a, b, c)`, `pld/common.py:337-358`, where `b` may be infinite (then `a > 0` and `c > 0`:
`_log_add(inf, log c)` is `inf`, `_log_add(-inf, log c)` is `log c`). -/
noncomputable def logAExpBC (a : ℝ) (b : EReal) (c : ℝ) : Except Err EReal :=
  match b with
  | ⊤ => .ok ⊤
  | ⊥ => .ok ((Real.log c : ℝ) : EReal)
  | (b : ℝ) => ofLogRes (LogDomain.logATimesExpBPlusC a b c)

/-- `-x` where computing `x` may raise. `pld/privacy_loss_mechanism.py:459`, `pld/privacy_loss_mechanism.py:540`. -/
noncomputable def negate (x : Except Err EReal) : Except Err EReal := x.map fun y => -y

namespace AdditiveNoise
variable {X : Type} [AddCommGroup X] (m : AdditiveNoise X)

open Classical in
/-- `mu_upper_cdf`, lines 295-320. -/
noncomputable def muUpperCdf (x : EReal) : ℝ :=
  match m.adj with
  | .add => m.noiseCdf x
  | .remove =>
    if m.samplingProb = 1 then m.noiseCdf (x + (m.toReal m.sensitivity : EReal))
    else (1 - m.samplingProb) * m.noiseCdf x + m.samplingProb * m.noiseCdf (x + (m.toReal m.sensitivity : EReal))

open Classical in
/-- `mu_lower_log_cdf`, lines 322-351. `np.logaddexp` is `logAdd`. -/
noncomputable def muLowerLogCdf (x : EReal) : LogProb :=
  match m.adj with
  | .add =>
    if m.samplingProb = 1 then m.noiseLogCdf (x + ((-m.toReal m.sensitivity : ℝ) : EReal))
    else LogDomain.logAdd (((Real.log (1 + -m.samplingProb) : ℝ) : LogProb) + m.noiseLogCdf x)
      (((Real.log m.samplingProb : ℝ) : LogProb) + m.noiseLogCdf (x + ((-m.toReal m.sensitivity : ℝ) : EReal)))
  | .remove => m.noiseLogCdf x

open Classical in
/-- `privacy_loss`, lines 429-469. -/
noncomputable def privacyLoss (x : X) : Except Err EReal :=
  match m.lossNo x with
  | .error e => .error e
  | .ok l =>
    if m.samplingProb = 1 then .ok l
    else match m.adj with
      | .add => negate (logAExpBC m.samplingProb (-l) (1 - m.samplingProb))
      | .remove => logAExpBC m.samplingProb l (1 - m.samplingProb)

open Classical in
/-- `inverse_privacy_loss`, lines 493-558, at a finite privacy loss. -/
noncomputable def inversePrivacyLoss (l : ℝ) : Except Err EReal :=
  let q := m.samplingProb
  if q = 1 then .ok (m.invNo l)
  else match m.adj with
    | .add =>
      if IsClose l (-Real.log (1 - q)) then .ok (m.invNo ⊤)
      else if l > -Real.log (1 - q) then .error .valueError
      else (negate (logAExpBC (1 / q) ((-l : ℝ) : EReal) (1 - 1 / q))).map m.invNo
    | .remove =>
      if IsClose l (Real.log (1 - q)) then .ok (m.invNo ⊥)
      else if l ≤ Real.log (1 - q) then .error .valueError
      else (logAExpBC (1 / q) (l : EReal) (1 - 1 / q)).map m.invNo

/-- `np.clip(delta, 0, 1)`. -/
noncomputable def clip01 (x : ℝ) : ℝ := min 1 (max 0 x)

/-- Lines 396-404 for one epsilon: `mu_upper_cdf(x) - exp(epsilon + mu_lower_log_cdf(x))` at the cut-off `x`, clipped. -/
noncomputable def deltaAtCutoff (eps : ℝ) : Except Err ℝ :=
  (m.inversePrivacyLoss eps).map fun x => clip01 (m.muUpperCdf x - expLog ((eps : LogProb) + m.muLowerLogCdf x))

open Classical in
/-- `get_delta_for_epsilon`, lines 353-404, for one epsilon. -/
noncomputable def getDelta (eps : ℝ) : Except Err ℝ :=
  if m.samplingProb = 1 then m.deltaAtCutoff eps
  else match m.adj with
    | .add => if eps < -Real.log (1 + -m.samplingProb) then m.deltaAtCutoff eps else .ok (clip01 0)
    | .remove =>
      if eps > Real.log (1 + -m.samplingProb) then m.deltaAtCutoff eps else .ok (clip01 (-(Real.exp eps - 1)))

/-- `get_delta_for_epsilon` for an array. `pld/privacy_loss_mechanism.py:353-402`. -/
noncomputable def getDeltas (eps : List ℝ) : Except Err (List ℝ) := eps.mapM m.getDelta

end AdditiveNoise

open Classical in
/-- The checks of `AdditiveNoisePrivacyLoss.__init__`, lines 279-293. -/
noncomputable def checkBase (s q : ℝ) : Except Err Unit :=
  if s ≤ 0 then .error .valueError
  else if q ≤ 0 ∨ q > 1 then .error .valueError
  else .ok ()

/-- Probability that a variable with law `μ` is at most `x`. The `cdf` of the scipy objects, called in `pld/privacy_loss_mechanism.py:823-835`, `pld/privacy_loss_mechanism.py:1108-1120`, `pld/privacy_loss_mechanism.py:1378-1391`. -/
noncomputable def cdfOf {X : Type} [MeasurableSpace X] (toReal : X → ℝ) (μ : Measure X) (x : EReal) : ℝ :=
  μ.real {y | ((toReal y : ℝ) : EReal) ≤ x}

open Classical in
/-- The log of a probability. The `logcdf` of the scipy objects, called in `pld/privacy_loss_mechanism.py:849`, `pld/privacy_loss_mechanism.py:1134`, `pld/privacy_loss_mechanism.py:1406`. -/
noncomputable def logOf (p : ℝ) : LogProb := if p = 0 then ⊥ else ((Real.log p : ℝ) : LogProb)

/-- `LaplacePrivacyLoss.privacy_loss_without_subsampling`, lines 776-791. -/
noncomputable def laplaceLossNo (b s : ℝ) (adj : Adj) (x : ℝ) : ℝ :=
  match adj with
  | .add => (|x - s| - |x|) / b
  | .remove => (|x| - |x + s|) / b

open Classical in
/-- `LaplacePrivacyLoss.inverse_privacy_loss_without_subsampling`, lines 793-821. -/
noncomputable def laplaceInvNo (b s : ℝ) (adj : Adj) (l : EReal) : EReal :=
  match l with
  | ⊤ => ⊥
  | ⊥ => ⊤
  | (l : ℝ) =>
    let t := l * b
    if t > s then ⊥
    else if t ≤ -s then ⊤
    else match adj with
      | .add => ((0.5 * (s - t) : ℝ) : EReal)
      | .remove => ((0.5 * (-s - t) : ℝ) : EReal)

open Classical in
/-- `LaplacePrivacyLoss(parameter, sensitivity, sampling_prob, adjacency_type)`, lines 691-711, 823-849. -/
noncomputable def mkLaplace (b s q : ℝ) (adj : Adj) : Except Err (AdditiveNoise ℝ) :=
  if b ≤ 0 then .error .valueError
  else (checkBase s q).map fun _ =>
    { toReal := AddMonoidHom.id ℝ
      sensitivity := s
      samplingProb := q
      adj := adj
      lossNo := fun x => .ok (laplaceLossNo b s adj x : ℝ)
      invNo := laplaceInvNo b s adj
      noiseCdf := cdfOf id (laplace 0 b)
      noiseLogCdf := fun x => logOf (cdfOf id (laplace 0 b) x) }

/-- `GaussianPrivacyLoss.privacy_loss_without_subsampling`, lines 1062-1084. -/
noncomputable def gaussianLossNo (σ s : ℝ) (adj : Adj) (x : ℝ) : ℝ :=
  match adj with
  | .add => s * (0.5 * s - x) / σ ^ 2
  | .remove => s * (-0.5 * s - x) / σ ^ 2

/-- `GaussianPrivacyLoss.inverse_privacy_loss_without_subsampling`, lines 1086-1106. -/
noncomputable def gaussianInvNo (σ s : ℝ) (adj : Adj) (l : EReal) : EReal :=
  match l with
  | ⊤ => ⊥
  | ⊥ => ⊤
  | (l : ℝ) =>
    match adj with
    | .add => ((0.5 * s - l * σ ^ 2 / s : ℝ) : EReal)
    | .remove => ((-0.5 * s - l * σ ^ 2 / s : ℝ) : EReal)

open Classical in
/-- `GaussianPrivacyLoss(standard_deviation, sensitivity, ..., log_mass_truncation_bound, sampling_prob, adjacency_type)`,
lines 941-975, 1108-1134. -/
noncomputable def mkGaussian (σ s logBound q : ℝ) (adj : Adj) : Except Err (AdditiveNoise ℝ) :=
  if σ ≤ 0 then .error .valueError
  else if logBound > 0 then .error .valueError
  else (checkBase s q).map fun _ =>
    { toReal := AddMonoidHom.id ℝ
      sensitivity := s
      samplingProb := q
      adj := adj
      lossNo := fun x => .ok (gaussianLossNo σ s adj x : ℝ)
      invNo := gaussianInvNo σ s adj
      noiseCdf := cdfOf id (gaussianReal 0 (Real.toNNReal (σ ^ 2)))
      noiseLogCdf := fun x => logOf (cdfOf id (gaussianReal 0 (Real.toNNReal (σ ^ 2))) x) }

/-- `DiscreteLaplacePrivacyLoss.privacy_loss_without_subsampling`, lines 1328-1346. -/
noncomputable def dLaplaceLossNo (a : ℝ) (s : ℤ) (adj : Adj) (x : ℤ) : ℝ :=
  match adj with
  | .add => ((|x - s| - |x| : ℤ) : ℝ) * a
  | .remove => ((|x| - |x + s| : ℤ) : ℝ) * a

open Classical in
/-- `DiscreteLaplacePrivacyLoss.inverse_privacy_loss_without_subsampling`, lines 1348-1376. -/
noncomputable def dLaplaceInvNo (a : ℝ) (s : ℤ) (adj : Adj) (l : EReal) : EReal :=
  match l with
  | ⊤ => ⊥
  | ⊥ => ⊤
  | (l : ℝ) =>
    let t := l / a
    if t > s then ⊥
    else if t ≤ -s then ⊤
    else match adj with
      | .add => (((⌊0.5 * ((s : ℝ) - t)⌋ : ℤ) : ℝ) : EReal)
      | .remove => (((⌊0.5 * (-(s : ℝ) - t)⌋ : ℤ) : ℝ) : EReal)

open Classical in
/-- `DiscreteLaplacePrivacyLoss(parameter, sensitivity, sampling_prob, adjacency_type)`, lines 1254-1277, 1378-1406. -/
noncomputable def mkDiscreteLaplace (a : ℝ) (s : ℤ) (q : ℝ) (adj : Adj) : Except Err (AdditiveNoise ℤ) :=
  if a ≤ 0 then .error .valueError
  else (checkBase (s : ℝ) q).map fun _ =>
    { toReal := Int.castAddHom ℝ
      sensitivity := s
      samplingProb := q
      adj := adj
      lossNo := fun x => .ok (dLaplaceLossNo a s adj x : ℝ)
      invNo := dLaplaceInvNo a s adj
      noiseCdf := cdfOf (fun k : ℤ => (k : ℝ)) (discreteLaplace a)
      noiseLogCdf := fun x => logOf (cdfOf (fun k : ℤ => (k : ℝ)) (discreteLaplace a) x) }

open Classical in
/-- `privacy_loss_without_subsampling_for_add`, lines 1646-1657. -/
noncomputable def dGaussianLossAdd (σ : ℝ) (s T x : ℤ) : Except Err EReal :=
  if x < -T ∨ x > T + s then .error .valueError
  else if x > T then .ok ⊥
  else if x < s - T then .ok ⊤
  else .ok (((s : ℝ) * (0.5 * s - x) / σ ^ 2 : ℝ) : EReal)

/-- `DiscreteGaussianPrivacyLoss.privacy_loss_without_subsampling`, lines 1621-1662. -/
noncomputable def dGaussianLossNo (σ : ℝ) (s T : ℤ) (adj : Adj) (x : ℤ) : Except Err EReal :=
  match adj with
  | .add => dGaussianLossAdd σ s T x
  | .remove => dGaussianLossAdd σ s T (x + s)

/-- `inverse_privacy_loss_without_subsampling_for_add`, lines 1681-1690; `np.clip(x, lo, hi)` is `min hi (max lo x)`. -/
noncomputable def dGaussianInvAdd (σ : ℝ) (s T : ℤ) (l : EReal) : ℤ :=
  match l with
  | ⊥ => T
  | ⊤ => s - T - 1
  | (l : ℝ) => ⌊min (T : ℝ) (max ((s : ℝ) - T - 1) (0.5 * s - l * σ ^ 2 / s))⌋

/-- `DiscreteGaussianPrivacyLoss.inverse_privacy_loss_without_subsampling`, lines 1664-1696. -/
noncomputable def dGaussianInvNo (σ : ℝ) (s T : ℤ) (adj : Adj) (l : EReal) : EReal :=
  match adj with
  | .add => (((dGaussianInvAdd σ s T l : ℤ) : ℝ) : EReal)
  | .remove => (((dGaussianInvAdd σ s T l - s : ℤ) : ℝ) : EReal)

/-- `np.logaddexp.accumulate`. `pld/privacy_loss_mechanism.py:1558`. -/
noncomputable def accumulate : LogProb → List LogProb → List LogProb
  | _, [] => []
  | acc, x :: l => LogDomain.logAdd acc x :: accumulate (LogDomain.logAdd acc x) l

/-- `x - c` for a log probability `x` and a finite number `c`. `pld/privacy_loss_mechanism.py:1559`. -/
noncomputable def shiftLog (c : ℝ) (x : LogProb) : LogProb := x + ((-c : ℝ) : LogProb)

/-- The initial `_log_pmf_array`, lines 1556-1557: `-inf` and then `-0.5 k² / σ²` for `k = -T, …, T`. -/
noncomputable def dGaussianLogPmf (σ : ℝ) (T : ℤ) : List LogProb :=
  ⊥ :: (PldCommon.pyRange (-1 * T) (T + 1)).map fun k : ℤ => ((-0.5 * (k : ℝ) ^ 2 / σ ^ 2 : ℝ) : LogProb)

/-- The final `_log_cdf_array`, lines 1558-1560. -/
noncomputable def dGaussianLogCdf (σ : ℝ) (T : ℤ) : List LogProb :=
  let acc := accumulate ⊥ (dGaussianLogPmf σ T)
  acc.map (shiftLog ((acc.getLastD ⊥).unbotD 0))

/-- `indices` of `noise_cdf` and `noise_log_cdf`, lines 1711-1713, 1730-1732. -/
noncomputable def dGaussianIndex (T : ℤ) (x : EReal) : ℤ :=
  let clipped : EReal := min ((T : ℝ) : EReal) (max ((-1 * (T : ℝ) - 1 : ℝ) : EReal) x)
  ⌊clipped.toReal⌋ - (-1 * T - 1)

/-- `noise_log_cdf`, lines 1716-1733 (the indices are always in range). -/
noncomputable def dGaussianNoiseLogCdf (σ : ℝ) (T : ℤ) (x : EReal) : LogProb :=
  (dGaussianLogCdf σ T).getD (dGaussianIndex T x).toNat ⊥

/-- `noise_cdf`, lines 1698-1714, 1562. -/
noncomputable def dGaussianNoiseCdf (σ : ℝ) (T : ℤ) (x : EReal) : ℝ :=
  ((dGaussianLogCdf σ T).map expLog).getD (dGaussianIndex T x).toNat 0

/-- The truncation bound in use, lines 1543-1548: `ceil(11.6 * sigma)` by default. -/
noncomputable def dgBound (σ : ℝ) : Option ℤ → ℤ
  | none => ⌈11.6 * σ⌉
  | some t => t

open Classical in
/-- `DiscreteGaussianPrivacyLoss(sigma, sensitivity, truncation_bound, sampling_prob, adjacency_type)`, lines 1515-1564. -/
noncomputable def mkDiscreteGaussian (σ : ℝ) (s : ℤ) (bound : Option ℤ) (q : ℝ) (adj : Adj) : Except Err (AdditiveNoise ℤ) :=
  if σ ≤ 0 then .error .valueError
  else
    let T := dgBound σ bound
    if 2 * T < s then .error .valueError
    else (checkBase (s : ℝ) q).map fun _ =>
      { toReal := Int.castAddHom ℝ
        sensitivity := s
        samplingProb := q
        adj := adj
        lossNo := dGaussianLossNo σ s T adj
        invNo := dGaussianInvNo σ s T adj
        noiseCdf := dGaussianNoiseCdf σ T
        noiseLogCdf := dGaussianNoiseLogCdf σ T }

end Mech
end Verif
