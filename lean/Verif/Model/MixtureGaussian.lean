import Verif.Model.AdditiveNoisePld
import Verif.Model.InverseMonotone

/-!
# Model of `MixtureGaussianPrivacyLoss` and `from_mixture_gaussian_mechanism`

`pld/privacy_loss_mechanism.py:1804-2417` and `pld/privacy_loss_distribution.py:1372-1431`. A sensitivity and its probability are
kept as a pair. `scipy`'s normal cdf and log cdf are exact, `np.logaddexp.reduce` and `logsumexp` are exact.
-/

namespace Verif
open Pld Spec MeasureTheory ProbabilityTheory

namespace Mixture

/-- `np.isclose(a, b)` with the default tolerances `rtol=1e-5`, `atol=1e-8`. -/
def NpClose (a b : ℝ) : Prop := |a - b| ≤ 1e-8 + 1e-5 * |b|

/-- A `MixtureGaussianPrivacyLoss` object: `_standard_deviation`, the pairs of `sensitivities` and `sampling_probs`, and
`adjacency_type`, `_pessimistic_estimate`, `_log_mass_truncation_bound`. `pld/privacy_loss_mechanism.py:1940-1952`. -/
structure Obj where
  σ : ℝ
  comps : List (ℝ × ℝ)
  adj : Adj
  pessimistic : Bool
  logBound : ℝ

open Classical in
/-- `MixtureGaussianPrivacyLoss.__init__`, lines 1873-1953. `max()` of an empty array raises `ValueError`, too (line 1926). -/
noncomputable def mk (σ : ℝ) (sens probs : List ℝ) (pessimistic : Bool) (logBound : ℝ) (adj : Adj) : Except Err Obj :=
  if σ ≤ 0 then .error .valueError
  else if logBound > 0 then .error .valueError
  else if probs.length ≠ sens.length then .error .valueError
  else
    let cs := (sens.zip probs).filter fun c => c.2 ≠ 0
    if ∃ c ∈ cs, c.1 < 0 then .error .valueError
    else if ∀ c ∈ cs, c.1 = 0 then .error .valueError
    else if ¬ Mech.IsClose (cs.map Prod.snd).sum 1 then .error .valueError
    else if ∃ c ∈ cs, c.2 ≤ 0 ∨ c.2 > 1 then .error .valueError
    else .ok ⟨σ, cs, adj, pessimistic, logBound⟩

namespace Obj
variable (m : Obj)

open Classical in
/-- The pairs with positive sensitivity. `pld/privacy_loss_mechanism.py:1948-1950`. -/
noncomputable def pos : List (ℝ × ℝ) := m.comps.filter fun c => 0 < c.1

/-- `_sampling_prob`, line 1949. -/
noncomputable def q : ℝ := min 1 (max 0 (m.pos.map Prod.snd).sum)

/-- `_min_sens`, lines 1950-1951. -/
noncomputable def minSens : ℝ := (m.pos.map Prod.fst).foldl min ((m.pos.map Prod.fst).headD 0)

/-- `_max_sens`, line 1952. -/
noncomputable def maxSens : ℝ := (m.pos.map Prod.fst).foldl max ((m.pos.map Prod.fst).headD 0)

/-- `noise_cdf`, lines 2387-2400. -/
noncomputable def noiseCdf (x : EReal) : ℝ := Mech.cdfOf id (gaussianReal 0 (Real.toNNReal (m.σ ^ 2))) x

/-- `noise_log_cdf`, lines 2402-2417. -/
noncomputable def noiseLogCdf (x : EReal) : LogProb := Mech.logOf (m.noiseCdf x)

/-- `mu_upper_cdf`, lines 1955-1983. -/
noncomputable def muUpperCdf (x : EReal) : ℝ :=
  match m.adj with
  | .add => m.noiseCdf x
  | .remove => (m.comps.map fun c => m.noiseCdf (x + (c.1 : EReal)) * c.2).sum

/-- `mu_lower_log_cdf`, lines 1985-2015; `logsumexp(a, b=b)` is `log(sum(b * exp(a)))`. -/
noncomputable def muLowerLogCdf (x : EReal) : LogProb :=
  match m.adj with
  | .add => Mech.logOf (m.comps.map fun c => c.2 * expLog (m.noiseLogCdf (x + ((-c.1 : ℝ) : EReal)))).sum
  | .remove => m.noiseLogCdf x

/-- `privacy_loss_for_single_gaussian`, lines 2167-2191. -/
noncomputable def single (x s : ℝ) : ℝ :=
  match m.adj with
  | .add => s * (0.5 * s - x) / m.σ ^ 2
  | .remove => s * (-0.5 * s - x) / m.σ ^ 2

/-- `np.logaddexp.reduce`. `pld/privacy_loss_mechanism.py:2162`, `2165`. -/
noncomputable def logReduce (l : List ℝ) : ℝ := Real.log (l.map Real.exp).sum

/-- `privacy_loss`, lines 2134-2165. -/
noncomputable def privacyLoss (x : ℝ) : ℝ :=
  match m.adj with
  | .add => -logReduce (m.comps.map fun c => Real.log c.2 - m.single 0 c.1 + c.1 * x / m.σ ^ 2)
  | .remove => logReduce (m.comps.map fun c => Real.log c.2 + m.single 0 c.1 - c.1 * x / m.σ ^ 2)

/-- `inverse_privacy_loss_for_single_gaussian`, lines 2193-2214. -/
noncomputable def inverseSingle (l s : ℝ) : ℝ :=
  match m.adj with
  | .add => 0.5 * s - l * m.σ ^ 2 / s
  | .remove => 0.5 * s - l * m.σ ^ 2 / s - s

/-- `_pl_without_sampling_add` and `_pl_without_sampling_remove`, lines 1805-1814. Only called where the result is finite. -/
noncomputable def withoutSampling (l : ℝ) : Except Err EReal :=
  match m.adj with
  | .add => Mech.negate (Mech.logAExpBC (1 / m.q) ((-l : ℝ) : EReal) (1 - 1 / m.q))
  | .remove => Mech.negate (Mech.negate (Mech.logAExpBC (1 / m.q) ((-(-l) : ℝ) : EReal) (1 - 1 / m.q)))

/-- Write-back through a mask: `out[mask] = a; out[~mask] = b`. `pld/privacy_loss_mechanism.py:2379-2384`. -/
def scatter {α : Type} : List Bool → List α → List α → List α
  | true :: ms, a :: as, bs => a :: scatter ms as bs
  | false :: ms, as, b :: bs => b :: scatter ms as bs
  | _, _, _ => []

open Classical in
/-- `_inverse_privacy_losses_with_range`, lines 2344-2385. `none` when the fuel (depth of the recursion) runs out. -/
noncomputable def inverseRange (p : ℝ) : (fuel : ℕ) → (losses : List ℝ) → (lo hi : ℝ) → Option (List ℝ)
  | fuel, losses, lo, hi =>
    if losses = [] then some []
    else if hi - lo ≤ p then some (losses.map fun _ => (⌊hi / p⌋ : ℝ) * p)
    else
      match fuel with
      | 0 => none
      | fuel + 1 => do
        let mid := (lo + hi) / 2
        let split := m.privacyLoss mid
        let lower ← inverseRange p fuel (losses.filter fun l => l < split) mid hi
        let higher ← inverseRange p fuel (losses.filter fun l => ¬ l < split) lo mid
        some (scatter (losses.map fun l => decide (l < split)) lower higher)

/-- The limit of the privacy loss, `-log(1 - q)` or `log(1 - q)`, lines 2284-2302; `none` if infinite. -/
noncomputable def limit : Option ℝ :=
  if m.q < 1 then
    match m.adj with
    | .add => some (-Real.log (1 + -m.q))
    | .remove => some (Real.log (1 + -m.q))
  else none

/-- Is the privacy loss out of the range, lines 2288, 2296? -/
def OutOfRange (losses : List ℝ) : Prop :=
  match m.limit with
  | none => False
  | some L =>
    match m.adj with
    | .add => losses.getLastD 0 > L
    | .remove => losses.headD 0 ≤ L

/-- An entry of `finite_indices`, lines 2293, 2301. -/
def Finite (l : ℝ) : Prop :=
  match m.limit with
  | none => True
  | some L => ¬ NpClose l L

/-- The four candidate bounds, lines 2309-2326. -/
noncomputable def candidates (minPl maxPl : ℝ) : Except Err (List ℝ) := do
  let a ← m.withoutSampling minPl
  let b ← m.withoutSampling maxPl
  .ok [m.inverseSingle a.toReal m.minSens, m.inverseSingle a.toReal m.maxSens,
    m.inverseSingle b.toReal m.minSens, m.inverseSingle b.toReal m.maxSens]

/-- `np.min` and `np.max` of a non-empty array. `pld/privacy_loss_mechanism.py:1951-1952`, `2328-2329`. -/
noncomputable def listMin (l : List ℝ) : ℝ := l.foldl min (l.headD 0)
/-- `np.max` of a non-empty array. `pld/privacy_loss_mechanism.py:1952`, `2329`. -/
noncomputable def listMax (l : List ℝ) : ℝ := l.foldl max (l.headD 0)

/-- What is returned for losses close to the limit, lines 2331-2338. -/
noncomputable def infinite : EReal :=
  match m.adj with
  | .add => ⊥
  | .remove => ⊤

/-- The depth of the recursion that `_inverse_privacy_losses_with_range` needs (see `C70_inverse_total`). -/
noncomputable def depth (p lo hi : ℝ) : ℕ := ⌈(hi - lo) / p⌉₊

open Classical in
/-- `inverse_privacy_losses`, lines 2241-2342. `np.max` and `np.min` of an empty array raise `ValueError` (lines 2294, 2302). For an
empty array python returns an array of dimension zero, of which the caller uses no element. -/
noncomputable def inverseLosses (losses : List ℝ) (p : ℝ) : Except Err (List EReal) :=
  if ¬ losses.Pairwise (· ≤ ·) then .error .valueError
  else if losses = [] then .ok []
  else if m.OutOfRange losses then .error .valueError
  else
    let fin := losses.filter fun l => m.Finite l
    if fin = [] then .error .valueError
    else do
      let minPl := match m.adj with | .add => losses.headD 0 | .remove => listMin fin
      let maxPl := match m.adj with | .add => listMax fin | .remove => losses.getLastD 0
      let c ← m.candidates minPl maxPl
      let lo := (⌊listMin c / p⌋ : ℝ) * p
      let hi := (⌈listMax c / p⌉ : ℝ) * p
      match m.inverseRange p (depth p lo hi) fin lo hi with
      | none => .error .notImplementedError                          -- not reached
      | some out => .ok (scatter (losses.map fun l => decide (m.Finite l)) (out.map fun x : ℝ => (x : EReal))
          ((losses.filter fun l => ¬ m.Finite l).map fun _ => m.infinite))

/-- `inverse_privacy_loss`, lines 2216-2239. -/
noncomputable def inverseLoss (l p : ℝ) : Except Err EReal := (m.inverseLosses [l] p).map fun r => r.headD ⊤

/-- An entry of `inverse_indices`, lines 2034-2039. -/
def Inverted (eps : ℝ) : Prop :=
  match m.limit with
  | none => True
  | some L =>
    match m.adj with
    | .add => eps < L
    | .remove => eps > L

/-- The deltas that need no inverse, lines 2033, 2040-2041. -/
noncomputable def otherDelta (eps : ℝ) : ℝ :=
  match m.adj with
  | .add => 0
  | .remove => -(Real.exp eps - 1)

/-- Lines 2043-2045 for one epsilon. -/
noncomputable def cutoffDelta (eps : ℝ) (x : EReal) : ℝ := m.muUpperCdf x - expLog ((eps : LogProb) + m.muLowerLogCdf x)

open Classical in
/-- `deltas` before the post-processing of lines 2050-2055, `precision = 1e-6`. -/
noncomputable def rawDeltas (eps : List ℝ) : Except Err (List ℝ) :=
  if ¬ eps.Pairwise (· ≤ ·) then .error .valueError
  else do
    let inv := eps.filter fun e => m.Inverted e
    let xs ← m.inverseLosses inv 1e-6
    .ok ((scatter (eps.map fun e => decide (m.Inverted e)) (List.zipWith m.cutoffDelta inv xs)
      ((eps.filter fun e => ¬ m.Inverted e).map m.otherDelta)).map Mech.AdditiveNoise.clip01)

/-- The loop of lines 2053-2054. -/
noncomputable def suffixMax : List ℝ → List ℝ
  | [] => []
  | d :: ds =>
    match suffixMax ds with
    | [] => [d]
    | e :: es => max d e :: e :: es

/-- `get_delta_for_epsilon`, lines 2017-2055, for an array. -/
noncomputable def getDeltas (eps : List ℝ) : Except Err (List ℝ) := (m.rawDeltas eps).map suffixMax

/-- `get_delta_for_epsilon`, lines 2017-2055, for a number. -/
noncomputable def getDelta (eps : ℝ) : Except Err ℝ := (m.rawDeltas [eps]).map fun r => r.headD 0

open Classical in
/-- The truncation points of `privacy_loss_tail`, lines 2087-2104. `fuel` bounds the binary search, of which `precision = 1e-4` is the
tolerance. If the search returned `None` the next operation would raise `TypeError`. -/
noncomputable def truncation (fuel : ℕ) (ppf : ℝ → ℝ) : Option (Except Err (ℝ × ℝ)) :=
  let tailMass := 0.5 * Real.exp m.logBound
  let z := ppf tailMass
  match m.adj with
  | .add => some (.ok (z, -z))
  | .remove =>
    match InverseMonotone.inverse fuel (fun x => m.muUpperCdf (x : EReal)) tailMass
        ⟨((z - m.maxSens : ℝ) : EReal), (z : EReal), none, 1e-4, false⟩ true with
    | .found x => some (.ok (x, -z))
    | .notFound => some (.error .typeError)
    | .infiniteInterval => some (.error .typeError)
    | .outOfFuel => none

/-- `connect_dots_bounds`, lines 2120-2132: `(epsilon_lower, epsilon_upper)`. -/
noncomputable def bounds (fuel : ℕ) (ppf : ℝ → ℝ) : Option (Except Err (ℝ × ℝ)) :=
  (m.truncation fuel ppf).map fun r => r.map fun t => (m.privacyLoss t.2, m.privacyLoss t.1)

/-- `privacy_loss_tail`, lines 2057-2118. -/
noncomputable def tail (fuel : ℕ) (ppf : ℝ → ℝ) : Option (Except Err (Mech.Tail ℝ)) :=
  (m.truncation fuel ppf).map fun r => r.map fun t =>
    ⟨t.1, t.2, if m.pessimistic = true then
        Mech.dictPair ⊤ (m.muUpperCdf (t.1 : EReal)) (m.privacyLoss t.2 : EReal) (1 - m.muUpperCdf (t.2 : EReal))
      else [((m.privacyLoss t.1 : EReal), m.muUpperCdf (t.1 : EReal))]⟩

/-- Privacy buckets, `privacy_loss_distribution.py:879-890, 904-938`. -/
noncomputable def buckets (fuel : ℕ) (t : Mech.Tail ℝ) (disc : ℝ) : Option (Except Err Pmf) :=
  match Mech.roundTail m.pessimistic disc t.masses [] with
  | .error e => some (.error e)
  | .ok d =>
    (Mech.bucketLoop (fun l => m.inverseLoss l 1e-6) disc (t.upperX : EReal) (m.privacyLoss t.upperX : EReal) fuel (t.lowerX : EReal)
      ⌊m.privacyLoss t.lowerX / disc⌋).map fun r => do
        let l ← r
        PldPmf.createPmf (Mech.addBuckets m.muUpperCdf m.pessimistic (t.lowerX : EReal) l d) disc (Mech.infinityMassOf t.masses)
          m.pessimistic

/-- Connect-the-dots, `privacy_loss_distribution.py:856-877`. -/
noncomputable def dots (b : ℝ × ℝ) (disc : ℝ) : Except Err Pmf := do
  let deltas ← m.getDeltas ((PldCommon.pyRange ⌊b.1 / disc⌋ (⌈b.2 / disc⌉ + 1)).map fun k : ℤ => (k : ℝ) * disc)
  PldPmf.connectDotsFixedGap disc ⌊b.1 / disc⌋ ⌈b.2 / disc⌉ deltas

end Obj

/-- `single_pld_pmf` of `from_mixture_gaussian_mechanism`, `privacy_loss_distribution.py:1412-1427`, with connect-the-dots. -/
noncomputable def singlePmf (fuel : ℕ) (ppf : ℝ → ℝ) (σ : ℝ) (sens probs : List ℝ) (disc logBound : ℝ) (adj : Adj) :
    Option (Except Err Pmf) :=
  match mk σ sens probs true logBound adj with
  | .error e => some (.error e)
  | .ok m => (m.bounds fuel ppf).map fun r => r >>= fun b => m.dots b disc

/-- `from_mixture_gaussian_mechanism`, `privacy_loss_distribution.py:1372-1431`, with `pessimistic_estimate=True` and
`use_connect_dots=True` (the defaults). -/
noncomputable def fromMixture (fuel : ℕ) (ppf : ℝ → ℝ) (σ : ℝ) (sens probs : List ℝ) (disc logBound : ℝ) : Option (Except Err Pld) :=
  match singlePmf fuel ppf σ sens probs disc logBound .remove with
  | none => none
  | some (.error e) => some (.error e)
  | some (.ok r) =>
    match singlePmf fuel ppf σ sens probs disc logBound .add with
    | none => none
    | some (.error e) => some (.error e)
    | some (.ok a) => some (.ok (Pld.mk' r (some a)))

/-- `single_pld_pmf` of `from_mixture_gaussian_mechanism`, `privacy_loss_distribution.py:1412-1427`, for all arguments;
connect-the-dots is used only for a pessimistic estimate (lines 822-877), otherwise there is a warning and privacy buckets are used. -/
noncomputable def singleWith (fuel : ℕ) (ppf : ℝ → ℝ) (σ : ℝ) (sens probs : List ℝ) (pessimistic : Bool) (disc logBound : ℝ)
    (useDots : Bool) (adj : Adj) : Option (Except Err Pmf) :=
  match mk σ sens probs pessimistic logBound adj with
  | .error e => some (.error e)
  | .ok m =>
    if useDots = true ∧ pessimistic = true then (m.bounds fuel ppf).map fun r => r >>= fun b => m.dots b disc
    else
      match m.tail fuel ppf with
      | none => none
      | some (.error e) => some (.error e)
      | some (.ok t) => m.buckets fuel t disc

/-- `from_mixture_gaussian_mechanism`, `privacy_loss_distribution.py:1372-1431`, for all arguments. -/
noncomputable def fromMixtureWith (fuel : ℕ) (ppf : ℝ → ℝ) (σ : ℝ) (sens probs : List ℝ) (pessimistic : Bool) (disc logBound : ℝ)
    (useDots : Bool) : Option (Except Err Pld) :=
  match singleWith fuel ppf σ sens probs pessimistic disc logBound useDots .remove with
  | none => none
  | some (.error e) => some (.error e)
  | some (.ok r) =>
    match singleWith fuel ppf σ sens probs pessimistic disc logBound useDots .add with
    | none => none
    | some (.error e) => some (.error e)
    | some (.ok a) => some (.ok (Pld.mk' r (some a)))

end Mixture
end Verif
