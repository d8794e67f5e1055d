import Verif.Model.PldCommon
import Mathlib.Data.EReal.Basic

/-!
# Model of `pld/pld_pmf.py`
-/

namespace Verif

/-- `np.exp` on extended reals; only ever applied to arguments `< +∞` (the code tests `np.isposinf` first, or
restricts to `losses > epsilon`), so the value at `⊤` is irrelevant. Called in `pld/pld_pmf.py:107`, `111`, `144`. -/
noncomputable def pyExp (x : EReal) : ℝ :=
  open Classical in if x = ⊥ ∨ x = ⊤ then 0 else Real.exp x.toReal

namespace PldPmf

open Classical in
/-- `_get_delta_for_epsilon`, `pld_pmf.py:38-60`; `-expm1(x) = 1 - exp(x)`. -/
noncomputable def getDelta (infinityMass : ℝ) (losses probs : List ℝ) (epsilon : EReal) : ℝ :=
  infinityMass +
    (((losses.zip probs).filter fun lp => decide (epsilon < (lp.1 : EReal))).map
      fun lp => (1 - pyExp (epsilon - (lp.1 : EReal))) * lp.2).sum

open Classical in
/-- The `while j >= 0` loop of `_get_delta_for_epsilon_vectorized`, `pld_pmf.py:101-112`. The indices `i`, `j` count down;
here the remaining losses/probs and the remaining epsilons are given in descending order and an index step drops the head.
Returns `deltas[j], deltas[j-1], ..., deltas[0]`. -/
noncomputable def sweep (infinityMass : ℝ) : (lps : List (ℝ × ℝ)) → (epsilons : List EReal) → (upper lower : ℝ) → List ℝ
  | _, [], _, _ => []
  | lps, e :: es, upper, lower =>
    if e = ⊤ then infinityMass :: sweep infinityMass lps es upper lower
    else
      match lps with
      | [] => (upper - pyExp e * lower) :: sweep infinityMass [] es upper lower
      | (l, p) :: rest =>
        if (l : EReal) ≤ e then (upper - pyExp e * lower) :: sweep infinityMass ((l, p) :: rest) es upper lower
        else sweep infinityMass rest (e :: es) (upper + p) (lower + p * Real.exp (-l))
  termination_by lps es => lps.length + es.length

open Classical in
/-- `_get_delta_for_epsilon_vectorized`, `pld_pmf.py:63-114`. -/
noncomputable def getDeltaVectorized (infinityMass : ℝ) (losses probs : List ℝ) (epsilons : List EReal) :
    Except Err (List ℝ) :=
  if ¬ epsilons.IsChain (· ≤ ·) then .error .valueError
  else .ok (sweep infinityMass (losses.zip probs).reverse epsilons.reverse infinityMass 0).reverse

open Classical in
/-- The `for` loop and the final lines of `_get_epsilon_for_delta`, `pld_pmf.py:135-153`. -/
noncomputable def epsilonLoop (delta : ℝ) : List (ℝ × ℝ) → (upper lower : ℝ) → ℝ
  | [], upper, lower =>
    if upper ≤ lower + delta then 0 else Real.log ((upper - delta) / lower)
  | (l, p) :: rest, upper, lower =>
    if upper > delta ∧ lower > 0 ∧ Real.log ((upper - delta) / lower) ≥ l then          -- break
      if upper ≤ lower + delta then 0 else Real.log ((upper - delta) / lower)
    else
      let upper := upper + p
      let lower := lower + Real.exp (-l) * p
      if upper ≥ delta ∧ lower = 0 then max 0 l
      else epsilonLoop delta rest upper lower

open Classical in
/-- `_get_epsilon_for_delta`, `pld_pmf.py:117-153`. -/
noncomputable def getEpsilon (infinityMass : ℝ) (reversedLosses probs : List ℝ) (delta : ℝ) : EReal :=
  if infinityMass > delta then ⊤
  else (epsilonLoop delta (reversedLosses.zip probs) infinityMass 0 : ℝ)

open Classical in
/-- `_find_prefix_to_truncate`, `pld_pmf.py:178-186`: first index at which the running sum exceeds the threshold. -/
noncomputable def findPrefix (threshold : ℝ) : ℝ → List ℝ → ℕ
  | _, [] => 0
  | s, v :: vs => if s + v > threshold then 0 else findPrefix threshold (s + v) vs + 1

/-- `a[0] += x`; `IndexError` on an empty array. -/
noncomputable def addFirst (x : ℝ) : List ℝ → Except Err (List ℝ)
  | [] => .error .indexError
  | v :: vs => .ok ((v + x) :: vs)

/-- `a[-1] += x`; `IndexError` on an empty array. -/
noncomputable def addLast (x : ℝ) : List ℝ → Except Err (List ℝ)
  | [] => .error .indexError
  | [v] => .ok [v + x]
  | v :: w :: vs => (addLast x (w :: vs)).map (v :: ·)

open Classical in
/-- `_truncate_tails`, `pld_pmf.py:156-208`. -/
noncomputable def truncateTails (probs : List ℝ) (t : ℝ) (pessimistic : Bool) : Except Err (ℕ × List ℝ × ℝ) :=
  if t = 0 then .ok (0, probs, 0)
  else
    let leftIdx := findPrefix (t / 2) 0 probs
    let rightIdx := probs.length - findPrefix (t / 2) 0 probs.reverse
    let rightIdx := max rightIdx (leftIdx + 1)
    let leftMass := (probs.take leftIdx).sum
    let rightMass := (probs.drop rightIdx).sum
    let truncated := (probs.take rightIdx).drop leftIdx
    if pessimistic then (addFirst leftMass truncated).map fun ps => (leftIdx, ps, rightMass)
    else (addLast rightMass truncated).map fun ps => (leftIdx, ps, 0)

end PldPmf

/-- `DensePLDPmf`, `pld_pmf.py:315-331`. -/
structure Dense where
  disc : ℝ
  lowerLoss : ℤ
  probs : List ℝ
  infinityMass : ℝ
  pessimistic : Bool

/-- `SparsePLDPmf`, `pld_pmf.py:445-459`. -/
structure Sparse where
  lossProbs : PyDict
  disc : ℝ
  infinityMass : ℝ
  pessimistic : Bool

/-- A `PLDPmf` object. `pld/pld_pmf.py:211-243`, with the subclasses `pld/pld_pmf.py:315-328` and `pld/pld_pmf.py:445-456`. -/
inductive Pmf where
  | dense (d : Dense)
  | sparse (s : Sparse)

open PldPmf PldCommon

/-- `_MAX_PMF_SPARSE_SIZE`, `pld_pmf.py:35`. -/
def maxPmfSparseSize : ℕ := 1000

namespace Dense

/-- `np.arange(self.size) + self._lower_loss`, as integers (`pld_pmf.py:372`). -/
def keys (d : Dense) : List ℤ := (List.range d.probs.length).map fun (i : ℕ) => (i : ℤ) + d.lowerLoss

/-- `(np.arange(self.size) + self._lower_loss) * self._discretization`, `pld_pmf.py:372`. -/
noncomputable def losses (d : Dense) : List ℝ := d.keys.map fun (k : ℤ) => (k : ℝ) * d.disc

/-- `PLDPmf.validate_composable` on two objects of class `DensePLDPmf`, `pld_pmf.py:298-311`. -/
noncomputable def validateComposable (a b : Dense) : Except Err Unit :=
  open Classical in
  if a.disc ≠ b.disc then .error .valueError
  else if a.pessimistic ≠ b.pessimistic then .error .valueError
  else .ok ()

/-- `DensePLDPmf.compose`, `pld_pmf.py:333-348`. -/
noncomputable def compose (a b : Dense) (t : ℝ) : Except Err Dense :=
  match a.validateComposable b with
  | .error e => .error e
  | .ok () =>
    let lowerLoss := a.lowerLoss + b.lowerLoss
    let probs := fftconvolve a.probs b.probs
    let infinityMass := a.infinityMass + b.infinityMass - a.infinityMass * b.infinityMass
    match truncateTails probs t a.pessimistic with
    | .error e => .error e
    | .ok (offset, probs, rightTail) =>
      .ok ⟨a.disc, lowerLoss + offset, probs, infinityMass + rightTail, a.pessimistic⟩

open Classical in
/-- `DensePLDPmf.self_compose`, `pld_pmf.py:350-367`; `math.log1p(-1)` and beyond raises `ValueError`. -/
noncomputable def selfCompose (nextFastLen : ℕ → ℕ) (d : Dense) (numTimes : ℤ) (t : ℝ) : Except Err Dense :=
  if numTimes ≤ 0 then .error .valueError
  else
    match selfConvolve nextFastLen d.probs numTimes.toNat t with
    | .error e => .error e
    | .ok (truncationLowerBound, probs) =>
      if d.infinityMass ≥ 1 then .error .valueError
      else
        let infProb := t - (Real.exp (numTimes * Real.log (1 - d.infinityMass)) - 1)
        .ok ⟨d.disc, d.lowerLoss * numTimes + truncationLowerBound, probs, infProb, d.pessimistic⟩

/-- `DensePLDPmf.get_delta_for_epsilon`, scalar case, `pld_pmf.py:369-376`. -/
noncomputable def getDeltaForEpsilon (d : Dense) (epsilon : EReal) : ℝ :=
  getDelta d.infinityMass d.losses d.probs epsilon

/-- `DensePLDPmf.get_delta_for_epsilon`, sequence case, `pld_pmf.py:377-378`. -/
noncomputable def getDeltaForEpsilons (d : Dense) (epsilons : List EReal) : Except Err (List ℝ) :=
  getDeltaVectorized d.infinityMass d.losses d.probs epsilons

/-- `itertools.count(upper_loss, -discretization)` cut to the number of probs, `pld_pmf.py:382-384`. -/
noncomputable def reversedLosses (d : Dense) : List ℝ :=
  let upperLoss := ((d.lowerLoss : ℝ) + d.probs.length - 1) * d.disc
  (List.range d.probs.length).map fun (i : ℕ) => upperLoss - (i : ℝ) * d.disc

/-- `DensePLDPmf.get_epsilon_for_delta`, `pld_pmf.py:380-387`. -/
noncomputable def getEpsilonForDelta (d : Dense) (delta : ℝ) : EReal :=
  getEpsilon d.infinityMass d.reversedLosses d.probs.reverse delta

/-- `self_loss` / `other_loss`, `pld_pmf.py:399-400`. -/
noncomputable def lossAt (d : Dense) (index : ℤ) : ℝ := ((index : ℝ) + d.lowerLoss) * d.disc

open Classical in
/-- `while self_loss(i) + other_loss(j) < epsilon: i += 1`, `pld_pmf.py:422-423`. Fuel bounds the number of steps;
`none` when it runs out. -/
noncomputable def advanceI (a b : Dense) (epsilon : ℝ) (j : ℤ) : ℕ → ℕ → Option ℕ
  | 0, _ => none
  | fuel + 1, i =>
    if a.lossAt i + b.lossAt j < epsilon then advanceI a b epsilon j fuel (i + 1) else some i

open Classical in
/-- `while j >= 0 and self_loss(i) + other_loss(j - 1) >= epsilon: ...; j -= 1`, `pld_pmf.py:426-429`.
The natural number argument is `j + 1`. Returns `(j + 1, upper_mass, lower_mass)`. -/
noncomputable def retreatJ (a b : Dense) (epsilon : ℝ) (i : ℕ) : ℕ → ℝ → ℝ → ℕ × ℝ × ℝ
  | 0, u, l => (0, u, l)
  | j + 1, u, l =>
    if a.lossAt i + b.lossAt ((j : ℤ) - 1) ≥ epsilon then
      retreatJ a b epsilon i j (u + b.probs.getD j 0) (l + b.probs.getD j 0 * Real.exp (-(b.lossAt j)))
    else (j + 1, u, l)

/-- `for i in range(i, len_self): ...`, `pld_pmf.py:434-440`, over the remaining entries of `self_probs`.
`j` is the natural number `j + 1` (`0` once `j` is negative). -/
noncomputable def sumI (a b : Dense) (epsilon : ℝ) : List ℝ → (i j : ℕ) → (u l delta : ℝ) → ℝ
  | [], _, _, _, _, delta => delta
  | p :: ps, i, j, u, l, delta =>
    let u' := match j with
      | 0 => u
      | j + 1 => u + b.probs.getD j 0
    let l' := match j with
      | 0 => l
      | j + 1 => l + b.probs.getD j 0 * Real.exp (-(b.lossAt j))
    sumI a b epsilon ps (i + 1) (j - 1) u' l'
      (delta + p * (u' - Real.exp (epsilon - a.lossAt i) * l'))

open Classical in
/-- `DensePLDPmf.get_delta_for_epsilon_for_composed_pld`, `pld_pmf.py:392-442`, on a dense `other`.
For an empty `self` or `other` index `-1` is taken literally in `lossAt`, as in the code. The `while` loop on `i` stops
within `len_self` steps (theorem `C14_...`), the fuel is `len_self + 1`. -/
noncomputable def deltaForComposed (a b : Dense) (epsilon : ℝ) : Except Err ℝ :=
  match a.validateComposable b with
  | .error e => .error e
  | .ok () =>
    let delta := a.infinityMass + b.infinityMass - a.infinityMass * b.infinityMass
    if a.lossAt ((a.probs.length : ℤ) - 1) + b.lossAt ((b.probs.length : ℤ) - 1) ≤ epsilon then .ok delta
    else
      match advanceI a b epsilon ((b.probs.length : ℤ) - 1) (a.probs.length + 1) 0 with
      | none => .error .indexError
      | some i =>
        let (j, u, l) := retreatJ a b epsilon i b.probs.length 0 0
        .ok (sumI a b epsilon (a.probs.drop i) i j u l delta)

end Dense

namespace Sparse

/-- `PLDPmf.validate_composable` on two objects of class `SparsePLDPmf`, `pld_pmf.py:298-311`. -/
noncomputable def validateComposable (a b : Sparse) : Except Err Unit :=
  open Classical in
  if a.disc ≠ b.disc then .error .valueError
  else if a.pessimistic ≠ b.pessimistic then .error .valueError
  else .ok ()

/-- The inner loop `for key2, value2 in other._loss_probs.items()`, `pld_pmf.py:470-472`. -/
noncomputable def convolveInner (key1 : ℤ) (value1 : ℝ) (conv : PyDict) : PyDict → PyDict
  | [] => conv
  | (key2, value2) :: rest =>
    convolveInner key1 value1 (conv.set (key1 + key2) (conv.get (key1 + key2) + value1 * value2)) rest

/-- The double loop of `SparsePLDPmf.compose`, `pld_pmf.py:467-472`. -/
noncomputable def convolve (other : PyDict) (conv : PyDict) : PyDict → PyDict
  | [] => conv
  | (key1, value1) :: rest => convolve other (convolveInner key1 value1 conv other) rest

/-- `SparsePLDPmf.compose`, `pld_pmf.py:461-485`. -/
noncomputable def compose (a b : Sparse) (t : ℝ) : Except Err Sparse :=
  match a.validateComposable b with
  | .error e => .error e
  | .ok () =>
    let convolution := convolve b.lossProbs [] a.lossProbs
    let infinityMass := a.infinityMass + b.infinityMass - a.infinityMass * b.infinityMass
    let sortedLosses := convolution.sortedKeys
    let probs := sortedLosses.map convolution.get
    match truncateTails probs t a.pessimistic with
    | .error e => .error e
    | .ok (offset, probs, rightMass) =>
      let sortedLosses := (sortedLosses.take (offset + probs.length)).drop offset
      .ok ⟨sortedLosses.zip probs, a.disc, infinityMass + rightMass, a.pessimistic⟩

/-- `SparsePLDPmf._get_losses_probs`, the losses, `pld_pmf.py:514-519`. -/
noncomputable def losses (s : Sparse) : List ℝ := s.lossProbs.sortedKeys.map fun (k : ℤ) => (k : ℝ) * s.disc

/-- `SparsePLDPmf._get_losses_probs`, the probabilities, `pld_pmf.py:514-519`. -/
noncomputable def sortedProbs (s : Sparse) : List ℝ := s.lossProbs.sortedKeys.map s.lossProbs.get

/-- `SparsePLDPmf.to_dense_pmf`, `pld_pmf.py:542-546`. -/
def toDense (s : Sparse) : Except Err Dense :=
  match dictionaryToList s.lossProbs with
  | .error e => .error e
  | .ok (lowerLoss, probs) => .ok ⟨s.disc, lowerLoss, probs, s.infinityMass, s.pessimistic⟩

open Classical in
/-- The loop `for i in range(2, num_times + 1)` of `SparsePLDPmf.self_compose`, `pld_pmf.py:505-510`, with `k` more
rounds to go; only the last one truncates. -/
noncomputable def selfComposeLoop (s : Sparse) (t : ℝ) : ℕ → Sparse → Except Err Sparse
  | 0, result => .ok result
  | k + 1, result =>
    match result.compose s (if k = 0 then t else 0) with
    | .error e => .error e
    | .ok r => selfComposeLoop s t k r

/-- `SparsePLDPmf.self_compose`, `pld_pmf.py:487-512`. -/
noncomputable def selfCompose (nextFastLen : ℕ → ℕ) (s : Sparse) (numTimes : ℤ) (t : ℝ) : Except Err Pmf :=
  if numTimes ≤ 0 then .error .valueError
  else if numTimes = 1 then .ok (.sparse s)
  else if s.lossProbs.length ^ numTimes.toNat > maxPmfSparseSize then
    match s.toDense with
    | .error e => .error e
    | .ok d =>
      match d.selfCompose nextFastLen numTimes t with
      | .error e => .error e
      | .ok r => .ok (.dense r)
  else
    match selfComposeLoop s t (numTimes.toNat - 1) s with
    | .error e => .error e
    | .ok r => .ok (.sparse r)

/-- `SparsePLDPmf.get_delta_for_epsilon`, scalar case, `pld_pmf.py:521-526`. -/
noncomputable def getDeltaForEpsilon (s : Sparse) (epsilon : EReal) : ℝ :=
  getDelta s.infinityMass s.losses s.sortedProbs epsilon

/-- `SparsePLDPmf.get_delta_for_epsilon`, sequence case, `pld_pmf.py:527-529`. -/
noncomputable def getDeltaForEpsilons (s : Sparse) (epsilons : List EReal) : Except Err (List ℝ) :=
  getDeltaVectorized s.infinityMass s.losses s.sortedProbs epsilons

/-- `SparsePLDPmf.get_epsilon_for_delta`, `pld_pmf.py:531-535`. -/
noncomputable def getEpsilonForDelta (s : Sparse) (delta : ℝ) : EReal :=
  getEpsilon s.infinityMass s.losses.reverse s.sortedProbs.reverse delta

end Sparse

namespace Pmf

/-- `PLDPmf.size`. `pld/pld_pmf.py:246`, `330-331`, `458-459`. -/
def size : Pmf → ℕ
  | dense d => d.probs.length
  | sparse s => s.lossProbs.length

/-- `_discretization`. `pld/pld_pmf.py:240`. -/
def disc : Pmf → ℝ
  | dense d => d.disc
  | sparse s => s.disc

/-- `_infinity_mass`. `pld/pld_pmf.py:241`. -/
def infinityMass : Pmf → ℝ
  | dense d => d.infinityMass
  | sparse s => s.infinityMass

/-- `_pessimistic_estimate`. `pld/pld_pmf.py:242`. -/
def pessimistic : Pmf → Bool
  | dense d => d.pessimistic
  | sparse s => s.pessimistic

/-- `PLDPmf.validate_composable`, `pld_pmf.py:298-311`, for any two classes. -/
noncomputable def validateComposable : Pmf → Pmf → Except Err Unit
  | dense a, dense b => a.validateComposable b
  | sparse a, sparse b => a.validateComposable b
  | _, _ => .error .valueError

/-- `to_dense_pmf()`. `pld/pld_pmf.py:389-390`, `542-546`. -/
def toDense : Pmf → Except Err Dense
  | dense d => .ok d
  | sparse s => s.toDense

/-- `get_delta_for_epsilon(epsilon)`, scalar. `pld/pld_pmf.py:369-376`, `519-524`. -/
noncomputable def getDeltaForEpsilon : Pmf → EReal → ℝ
  | dense d, e => d.getDeltaForEpsilon e
  | sparse s, e => s.getDeltaForEpsilon e

/-- `get_delta_for_epsilon(epsilons)`, sequence. `pld/pld_pmf.py:369-378`, `519-527`. -/
noncomputable def getDeltaForEpsilons : Pmf → List EReal → Except Err (List ℝ)
  | dense d, es => d.getDeltaForEpsilons es
  | sparse s, es => s.getDeltaForEpsilons es

/-- `get_epsilon_for_delta(delta)`. `pld/pld_pmf.py:380-387`, `529-533`. -/
noncomputable def getEpsilonForDelta : Pmf → ℝ → EReal
  | dense d, x => d.getEpsilonForDelta x
  | sparse s, x => s.getEpsilonForDelta x

/-- `self_compose(num_times, tail_mass_truncation)`. `pld/pld_pmf.py:350-367`, `486-509`. -/
noncomputable def selfCompose (nextFastLen : ℕ → ℕ) : Pmf → ℤ → ℝ → Except Err Pmf
  | dense d, n, t =>
    match d.selfCompose nextFastLen n t with
    | .error e => .error e
    | .ok r => .ok (.dense r)
  | sparse s, n, t => s.selfCompose nextFastLen n t

/-- `get_delta_for_epsilon_for_composed_pld(other, epsilon)`, `pld_pmf.py:392-442` and `537-541`. -/
noncomputable def deltaForComposed (a b : Pmf) (epsilon : ℝ) : Except Err ℝ :=
  match a.toDense with
  | .error e => .error e
  | .ok a =>
    match b.toDense with
    | .error e => .error e
    | .ok b => a.deltaForComposed b epsilon

end Pmf

namespace PldPmf

/-- `create_pmf`, `pld_pmf.py:549-576`. -/
def createPmf (lossProbs : PyDict) (disc infinityMass : ℝ) (pessimistic : Bool) : Except Err Pmf :=
  if lossProbs.length ≤ maxPmfSparseSize then .ok (.sparse ⟨lossProbs, disc, infinityMass, pessimistic⟩)
  else
    match dictionaryToList lossProbs with
    | .error e => .error e
    | .ok (lowerLoss, probs) => .ok (.dense ⟨disc, lowerLoss, probs, infinityMass, pessimistic⟩)

/-- The last three lines of `compose_pmfs`, `pld_pmf.py:808-810`. -/
noncomputable def composeAsDense (a b : Pmf) (t : ℝ) : Except Err Pmf :=
  match a.toDense with
  | .error e => .error e
  | .ok a =>
    match b.toDense with
    | .error e => .error e
    | .ok b =>
      match a.compose b t with
      | .error e => .error e
      | .ok r => .ok (.dense r)

/-- `compose_pmfs`, `pld_pmf.py:785-810`. -/
noncomputable def composePmfs (pmf1 pmf2 : Pmf) (t : ℝ) : Except Err Pmf :=
  match pmf1, pmf2 with
  | .sparse a, .sparse b =>
    if a.lossProbs.length * b.lossProbs.length ≤ maxPmfSparseSize then
      match a.compose b t with
      | .error e => .error e
      | .ok r => .ok (.sparse r)
    else composeAsDense (.sparse a) (.sparse b) t
  | a, b => composeAsDense a b t

end PldPmf
end Verif
