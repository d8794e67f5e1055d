import Verif.Model.AdditiveNoise
import Verif.Model.ConnectDots
import Verif.Model.Pld

/-!
# Model of the PLD constructors for additive noise mechanisms

`_create_pld_pmf_from_monotone_privacy_loss` and `from_laplace_mechanism`, `from_gaussian_mechanism`,
`from_discrete_laplace_mechanism`, `from_discrete_gaussian_mechanism` (`pld/privacy_loss_distribution.py:787-1369`), together
with the `privacy_loss_tail` and `connect_dots_bounds` methods of `pld/privacy_loss_mechanism.py`.

`value_discretization_interval` is assumed non-zero. `scipy`'s `ppf` is an arbitrary real function.
-/

namespace Verif
open Pld Spec

namespace Mech

/-- `math.floor(x / disc)`: `OverflowError` for an infinite `x`. `pld/privacy_loss_distribution.py:864`. -/
noncomputable def floorDiv (x : EReal) (disc : ℝ) : Except Err ℤ :=
  match x with
  | ⊤ => .error .overflowError
  | ⊥ => .error .overflowError
  | (x : ℝ) => .ok ⌊x / disc⌋

/-- `math.ceil(x / disc)`. `pld/privacy_loss_distribution.py:862`. -/
noncomputable def ceilDiv (x : EReal) (disc : ℝ) : Except Err ℤ :=
  match x with
  | ⊤ => .error .overflowError
  | ⊥ => .error .overflowError
  | (x : ℝ) => .ok ⌈x / disc⌉

/-- `round_fn(x / disc)`, `privacy_loss_distribution.py:879`. -/
noncomputable def roundDiv (pessimistic : Bool) (x : EReal) (disc : ℝ) : Except Err ℤ :=
  if pessimistic then ceilDiv x disc else floorDiv x disc

/-- `TailPrivacyLossDistribution`, `privacy_loss_mechanism.py:56-72`. The dictionary is an association list. -/
structure Tail (X : Type) where
  lowerX : X
  upperX : X
  masses : List (EReal × ℝ)

open Classical in
/-- The dictionary `{k1: v1, k2: v2}`. -/
noncomputable def dictPair (k1 : EReal) (v1 : ℝ) (k2 : EReal) (v2 : ℝ) : List (EReal × ℝ) :=
  if k1 = k2 then [(k1, v2)] else [(k1, v1), (k2, v2)]

open Classical in
/-- `dict.get(math.inf, 0)`. -/
noncomputable def infinityMassOf : List (EReal × ℝ) → ℝ
  | [] => 0
  | (k, v) :: l => if k = ⊤ then v else infinityMassOf l

/-! ### Truncation of the tails, bounds for connect-the-dots -/

/-- `LaplacePrivacyLoss.privacy_loss_tail`, lines 713-740. -/
noncomputable def laplaceTail (m : AdditiveNoise ℝ) : Except Err (Tail ℝ) := do
  let lo := match m.adj with | .add => 0 | .remove => -m.sensitivity
  let up := match m.adj with | .add => m.sensitivity | .remove => 0
  let l1 ← m.privacyLoss lo
  let l2 ← m.privacyLoss up
  .ok ⟨lo, up, dictPair l1 (m.muUpperCdf (lo : ℝ)) l2 (1 - m.muUpperCdf (up : ℝ))⟩

open Classical in
/-- `LaplacePrivacyLoss.connect_dots_bounds`, lines 742-774: `(epsilon_lower, epsilon_upper)`. The arguments of the logarithms
are positive. `OverflowError` of `math.exp` is not modelled. -/
noncomputable def laplaceBounds (b : ℝ) (m : AdditiveNoise ℝ) : Except Err (EReal × EReal) :=
  let q := m.samplingProb
  let e := m.sensitivity / b
  if q = 1 then .ok (((-e : ℝ) : EReal), ((e : ℝ) : EReal))
  else match m.adj with
    | .add => .ok (((-Real.log (1 - q + q * Real.exp e) : ℝ) : EReal), ((-Real.log (1 - q + q * Real.exp (-e)) : ℝ) : EReal))
    | .remove => .ok (((Real.log (1 - q + q * Real.exp (-e)) : ℝ) : EReal), ((Real.log (1 - q + q * Real.exp e) : ℝ) : EReal))

/-- `GaussianPrivacyLoss.privacy_loss_tail`, lines 977-1041. -/
noncomputable def gaussianTail (ppf : ℝ → ℝ) (logBound : ℝ) (pessimistic : Bool) (m : AdditiveNoise ℝ) : Except Err (Tail ℝ) := do
  let x := ppf (0.5 * Real.exp logBound)
  let lo := match m.adj with | .add => x | .remove => x - m.sensitivity
  let up := match m.adj with | .add => -x + m.sensitivity | .remove => -x
  if pessimistic then
    let l2 ← m.privacyLoss up
    .ok ⟨lo, up, dictPair ⊤ (m.muUpperCdf (lo : ℝ)) l2 (1 - m.muUpperCdf (up : ℝ))⟩
  else
    let l1 ← m.privacyLoss lo
    .ok ⟨lo, up, [(l1, m.muUpperCdf (lo : ℝ))]⟩

/-- `GaussianPrivacyLoss.connect_dots_bounds`, lines 1043-1060. -/
noncomputable def gaussianBounds (ppf : ℝ → ℝ) (logBound : ℝ) (pessimistic : Bool) (m : AdditiveNoise ℝ) :
    Except Err (EReal × EReal) := do
  let t ← gaussianTail ppf logBound pessimistic m
  let u ← m.privacyLoss t.lowerX
  let l ← m.privacyLoss t.upperX
  .ok (l, u)

/-- `DiscreteLaplacePrivacyLoss.privacy_loss_tail`, lines 1279-1305. -/
noncomputable def dLaplaceTail (m : AdditiveNoise ℤ) : Except Err (Tail ℤ) := do
  let lo := match m.adj with | .add => 1 | .remove => 1 - m.sensitivity
  let up := match m.adj with | .add => m.sensitivity - 1 | .remove => -1
  let l1 ← m.privacyLoss (lo - 1)
  let l2 ← m.privacyLoss (up + 1)
  .ok ⟨lo, up, dictPair l1 (m.muUpperCdf (((lo - 1 : ℤ) : ℝ) : EReal)) l2 (1 - m.muUpperCdf (((up : ℤ) : ℝ) : EReal))⟩

/-- `DiscreteLaplacePrivacyLoss.connect_dots_bounds`, lines 1307-1326: `(lower_x, upper_x)`. -/
def dLaplaceBounds (m : AdditiveNoise ℤ) : ℤ × ℤ :=
  match m.adj with
  | .add => (0, m.sensitivity)
  | .remove => (-m.sensitivity, 0)

open Classical in
/-- `DiscreteGaussianPrivacyLoss.privacy_loss_tail`, lines 1566-1604. -/
noncomputable def dGaussianTail (T : ℤ) (m : AdditiveNoise ℤ) : Tail ℤ :=
  let lo := match m.adj with
    | .add => if m.samplingProb = 1 then m.sensitivity - T else -1 * T
    | .remove => -1 * T
  let up := match m.adj with
    | .add => T
    | .remove => if m.samplingProb = 1 then T - m.sensitivity else T
  ⟨lo, up, [(⊤, m.muUpperCdf (((lo - 1 : ℤ) : ℝ) : EReal))]⟩

/-- `DiscreteGaussianPrivacyLoss.connect_dots_bounds`, lines 1606-1619. -/
noncomputable def dGaussianBounds (T : ℤ) (m : AdditiveNoise ℤ) : ℤ × ℤ := ((dGaussianTail T m).lowerX, (dGaussianTail T m).upperX)

/-! ### `_create_pld_pmf_from_monotone_privacy_loss` -/

/-- Lines 836-846: the rounded epsilons of the outputs `xs`, each appended if larger than the last one. `acc` is the list so
far, last element first. -/
noncomputable def roundEpsilons (m : AdditiveNoise ℤ) (disc : ℝ) : List ℤ → List ℤ → Except Err (List ℤ)
  | [], acc => .ok acc.reverse
  | x :: xs, acc => do
    let l ← m.privacyLoss x
    let f ← floorDiv l disc
    let acc := match acc with
      | [] => [f]
      | a :: r => if f > a then f :: a :: r else a :: r
    let c ← ceilDiv l disc
    let acc := match acc with
      | [] => []
      | a :: r => if c > a then c :: a :: r else a :: r
    roundEpsilons m disc xs acc

/-- Lines 829-855: connect-the-dots, discrete noise. -/
noncomputable def dotsDiscrete (m : AdditiveNoise ℤ) (bounds : ℤ × ℤ) (disc : ℝ) : Except Err Pmf := do
  let eps ← roundEpsilons m disc (PldCommon.pyRange bounds.1 (bounds.2 + 1)).reverse []
  let deltas ← m.getDeltas (eps.map fun k : ℤ => (k : ℝ) * disc)
  PldPmf.connectDots disc eps deltas

/-- Lines 856-877: connect-the-dots, continuous noise. -/
noncomputable def dotsContinuous (m : AdditiveNoise ℝ) (bounds : EReal × EReal) (disc : ℝ) : Except Err Pmf := do
  let up ← ceilDiv bounds.2 disc
  let lo ← floorDiv bounds.1 disc
  let deltas ← m.getDeltas ((PldCommon.pyRange lo (up + 1)).map fun k : ℤ => (k : ℝ) * disc)
  PldPmf.connectDotsFixedGap disc lo up deltas

open Classical in
/-- Lines 884-890: the finite losses of the tail. -/
noncomputable def roundTail (pessimistic : Bool) (disc : ℝ) : List (EReal × ℝ) → PyDict → Except Err PyDict
  | [], d => .ok d
  | (k, v) :: l, d =>
    if k = ⊤ then roundTail pessimistic disc l d
    else do
      let r ← roundDiv pessimistic k disc
      roundTail pessimistic disc l (d.add r v)

/-- Lines 893-903: the masses `mu_upper_cdf(x) - mu_upper_cdf(x - 1)` of the outputs `x` of `xs`. -/
noncomputable def addMasses (m : AdditiveNoise ℤ) (pessimistic : Bool) (disc : ℝ) : List ℤ → PyDict → Except Err PyDict
  | [], d => .ok d
  | x :: xs, d => do
    let l ← m.privacyLoss x
    let r ← roundDiv pessimistic l disc
    addMasses m pessimistic disc xs
      (d.add r (m.muUpperCdf (((x : ℤ) : ℝ) : EReal) - m.muUpperCdf (((x - 1 : ℤ) : ℝ) : EReal)))

/-- Lines 879-903, 936-940: privacy buckets, discrete noise. `xs[1:]` is `range(lower_x, upper_x + 1)`. -/
noncomputable def bucketsDiscrete (m : AdditiveNoise ℤ) (t : Tail ℤ) (pessimistic : Bool) (disc : ℝ) : Except Err Pmf := do
  let d ← roundTail pessimistic disc t.masses []
  let d ← addMasses m pessimistic disc (PldCommon.pyRange t.lowerX (t.upperX + 1)) d
  PldPmf.createPmf d disc (infinityMassOf t.masses) pessimistic

open Classical in
/-- The while loop of lines 911-922: the list of the appended `(x, rounded_down_value)`. `inv` is `inverse_privacy_loss`. `none` when
the fuel runs out. -/
noncomputable def bucketLoop (inv : ℝ → Except Err EReal) (disc : ℝ) (upperX upperLoss : EReal) :
    (fuel : ℕ) → (x : EReal) → (rounded : ℤ) → Option (Except Err (List (EReal × ℤ)))
  | fuel, x, rounded =>
    if x < upperX then
      match fuel with
      | 0 => none
      | fuel + 1 =>
        let next : Except Err EReal :=
          if ((disc * rounded : ℝ) : EReal) ≤ upperLoss then .ok upperX else inv (disc * rounded)
        match next with
        | .error e => some (.error e)
        | .ok x' => (bucketLoop inv disc upperX upperLoss fuel x' (rounded - 1)).map fun r => r.map fun l => (x', rounded) :: l
    else some (.ok [])
  termination_by fuel => fuel

/-- Lines 924-932: the masses `mu_upper_cdf(x_i) - mu_upper_cdf(x_(i-1))` at `round_fn(rounded_down_value + 0.5)`. `cdf` is
`mu_upper_cdf`. -/
noncomputable def addBuckets (cdf : EReal → ℝ) (pessimistic : Bool) : EReal → List (EReal × ℤ) → PyDict → PyDict
  | _, [], d => d
  | x, (x', r) :: l, d =>
    addBuckets cdf pessimistic x' l (d.add (roundFn pessimistic ((r : ℝ) + 0.5)) (cdf x' - cdf x))

/-- Lines 879-890, 904-938: privacy buckets, continuous noise. -/
noncomputable def bucketsContinuous (fuel : ℕ) (m : AdditiveNoise ℝ) (t : Tail ℝ) (pessimistic : Bool) (disc : ℝ) :
    Option (Except Err Pmf) :=
  let start : Except Err (PyDict × ℤ × EReal) := do
    let d ← roundTail pessimistic disc t.masses []
    let l ← m.privacyLoss t.lowerX
    let rounded ← floorDiv l disc
    let upperLoss ← m.privacyLoss t.upperX
    .ok (d, rounded, upperLoss)
  match start with
  | .error e => some (.error e)
  | .ok (d, rounded, upperLoss) =>
    (bucketLoop m.inversePrivacyLoss disc ((t.upperX : ℝ) : EReal) upperLoss fuel ((t.lowerX : ℝ) : EReal) rounded).map fun r => do
      let l ← r
      PldPmf.createPmf (addBuckets m.muUpperCdf pessimistic ((t.lowerX : ℝ) : EReal) l d) disc (infinityMassOf t.masses) pessimistic

/-- `_create_pld_pmf_from_monotone_privacy_loss`, lines 787-940, for discrete noise with the given connect-the-dots bounds and
tail. -/
noncomputable def createDiscrete (m : AdditiveNoise ℤ) (bounds : ℤ × ℤ) (tail : Except Err (Tail ℤ)) (pessimistic : Bool)
    (disc : ℝ) (useDots : Bool) : Except Err Pmf :=
  if useDots = true ∧ pessimistic = true then dotsDiscrete m bounds disc
  else do
    let t ← tail
    bucketsDiscrete m t pessimistic disc

/-- `_create_pld_pmf_from_monotone_privacy_loss`, lines 787-940, for continuous noise. -/
noncomputable def createContinuous (fuel : ℕ) (m : AdditiveNoise ℝ) (bounds : Except Err (EReal × EReal))
    (tail : Except Err (Tail ℝ)) (pessimistic : Bool) (disc : ℝ) (useDots : Bool) : Option (Except Err Pmf) :=
  if useDots = true ∧ pessimistic = true then
    some (do
      let b ← bounds
      dotsContinuous m b disc)
  else
    match tail with
    | .error e => some (.error e)
    | .ok t => bucketsContinuous fuel m t pessimistic disc

/-! ### The constructors -/

open Classical in
/-- `_pld_for_subsampled_mechanism`, lines 1125-1149; `none` if the construction of a PMF does not stop within the fuel. -/
noncomputable def subsampledPld (single : Adj → Option (Except Err Pmf)) (q : ℝ) : Option (Except Err Pld) :=
  match single .remove with
  | none => none
  | some (.error e) => some (.error e)
  | some (.ok r) =>
    if q = 1 then some (.ok (Pld.mk' r none))
    else
      match single .add with
      | none => none
      | some (.error e) => some (.error e)
      | some (.ok a) => some (.ok (Pld.mk' r (some a)))

/-- `from_laplace_mechanism`, lines 1152-1200. -/
noncomputable def fromLaplace (fuel : ℕ) (b s : ℝ) (pessimistic : Bool) (disc q : ℝ) (useDots : Bool) : Option (Except Err Pld) :=
  subsampledPld (fun adj => match mkLaplace b s q adj with
    | .error e => some (.error e)
    | .ok m => createContinuous fuel m (laplaceBounds b m) (laplaceTail m) pessimistic disc useDots) q

/-- `from_gaussian_mechanism`, lines 1203-1257. -/
noncomputable def fromGaussian (fuel : ℕ) (ppf : ℝ → ℝ) (σ s : ℝ) (pessimistic : Bool) (disc logBound q : ℝ) (useDots : Bool) :
    Option (Except Err Pld) :=
  subsampledPld (fun adj => match mkGaussian σ s logBound q adj with
    | .error e => some (.error e)
    | .ok m => createContinuous fuel m (gaussianBounds ppf logBound pessimistic m) (gaussianTail ppf logBound pessimistic m)
        pessimistic disc useDots) q

/-- `from_discrete_laplace_mechanism`, lines 1260-1309. -/
noncomputable def fromDiscreteLaplace (a : ℝ) (s : ℤ) (pessimistic : Bool) (disc q : ℝ) (useDots : Bool) : Option (Except Err Pld) :=
  subsampledPld (fun adj => some (do
    let m ← mkDiscreteLaplace a s q adj
    createDiscrete m (dLaplaceBounds m) (dLaplaceTail m) pessimistic disc useDots)) q

/-- `from_discrete_gaussian_mechanism`, lines 1312-1369. -/
noncomputable def fromDiscreteGaussian (σ : ℝ) (s : ℤ) (bound : Option ℤ) (pessimistic : Bool) (disc q : ℝ) (useDots : Bool) :
    Option (Except Err Pld) :=
  subsampledPld (fun adj => some (do
    let m ← mkDiscreteGaussian σ s bound q adj
    createDiscrete m (dGaussianBounds (dgBound σ bound) m) (.ok (dGaussianTail (dgBound σ bound) m)) pessimistic disc useDots)) q

end Mech
end Verif
