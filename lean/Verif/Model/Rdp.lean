import Verif.Model.RdpAccountant
import Verif.Model.LogDomain
import Mathlib.Analysis.SpecialFunctions.Gamma.Basic
import Mathlib.Analysis.SpecialFunctions.Log.Base

/-!
# Model of the RDP functions of the mechanisms (`rdp_privacy_accountant.py:57-78, 351-397, 584-628, 824-968`)

Floats are reals; an RDP order is a float that may be `inf` (`EReal`), RDP values are `EReal`.  `special.gammaln(x)` is
`log |Γ(x)|` and `special.logsumexp(a, b)` is `log ∑ b exp(a)`.  `_compute_log_a_frac` (lines 84-134), a
truncated series for fractional orders, is a parameter here and modelled in `RdpFrac`. Not modelled: NaN, see `poissonOneOrder`.
-/

namespace Verif.Rdp
open Verif LogDomain Pld

/-- `special.gammaln`. Called in `rdp/rdp_privacy_accountant.py:60-62`. -/
noncomputable def gammaln (x : ℝ) : ℝ := Real.log (Real.Gamma x)

/-- `_log_comb`, lines 57-63. -/
noncomputable def logComb (n k : ℝ) : ℝ := gammaln (n + 1) - gammaln (k + 1) - gammaln (n - k + 1)

/-- `1 / (2 * sigma**2)` for a noise multiplier that is not zero; zero for `inf`. -/
noncomputable def halfInvSq : PyNum → ℝ
  | .int z => 1 / (2 * (z : ℝ) ^ 2)
  | .float x => 1 / (2 * x ^ 2)
  | .inf => 0

/-- Body of the loop of `_compute_log_a_int`, lines 74-75: the summand `s`. -/
noncomputable def logAIntTerm (q : ℝ) (sigma : PyNum) (alpha : ℤ) (i : ℕ) : ℝ :=
  let logCoef := logComb alpha i + i * Real.log q + ((alpha : ℝ) - i) * Real.log (1 + -q)
  logCoef + ((i : ℝ) * i - i) * halfInvSq sigma

/-- `_compute_log_a_int`, lines 66-78: the loop over `range(alpha + 1)`. -/
noncomputable def logAInt (q : ℝ) (sigma : PyNum) (alpha : ℤ) : LogProb :=
  (List.range (alpha + 1).toNat).foldl (fun logA i => logAdd logA (logAIntTerm q sigma alpha i : LogProb)) ⊥

/-- A logarithm as an extended real. Used for `rdp/rdp_privacy_accountant.py:351-397`. -/
noncomputable def toEReal : LogProb → EReal
  | ⊥ => ⊥
  | (x : ℝ) => (x : EReal)

open Classical in
/-- `_compute_log_a`, lines 351-357; `frac` stands for `_compute_log_a_frac`. -/
noncomputable def logA (frac : ℝ → PyNum → ℝ → EReal) (q : ℝ) (sigma : PyNum) (alpha : ℝ) : EReal :=
  if h : ∃ m : ℤ, alpha = m then toEReal (logAInt q sigma h.choose) else frac q sigma alpha

open Classical in
/-- `compute_one_order`, lines 383-395, for `0 <= q <= 1` and a non-negative noise multiplier. For order 1 (and
`0 < q < 1`, positive noise) python computes `0 / 0`, which numpy evaluates to NaN; NaN is not modelled, the model raises
instead. -/
noncomputable def poissonOneOrder (frac : ℝ → PyNum → ℝ → EReal) (q : ℝ) (sigma : PyNum) (alpha : EReal) : Except Err EReal :=
  if q = 0 then .ok 0
  else if alpha = ⊤ ∨ sigma.val = 0 then .ok ⊤
  else if q = 1 then .ok (alpha * ((halfInvSq sigma : ℝ) : EReal))
  else if alpha = 1 then .error .zeroDivisionError
  else .ok (logA frac q sigma alpha.toReal * (((alpha.toReal - 1)⁻¹ : ℝ) : EReal))

/-- `np.array([f(order) for order in orders])`: the first exception, or the array. `rdp/rdp_privacy_accountant.py:397`, `424-427`, `628`, `965-977`. -/
noncomputable def collect {n : ℕ} (f : Fin n → Except Err EReal) : Except Err (Arr n) :=
  match (List.ofFn f).findSome? (fun r => match r with | .error e => some e | .ok _ => none) with
  | some e => .error e
  | none => .ok fun i => match f i with | .ok x => x | .error _ => 0

open Classical in
/-- `_compute_rdp_poisson_subsampled_gaussian`, lines 360-397. Comparing a complex noise multiplier raises `TypeError`; an
event is never passed. -/
noncomputable def poissonGaussian {n : ℕ} (frac : ℝ → PyNum → ℝ → EReal) (orders : Fin n → EReal) (q : PyNum) (noise : EffNoise) :
    Except Err (Arr n) :=
  if ¬ (0 ≤ q.val ∧ q.val ≤ 1) then .error .valueError
  else match noise with
    | .num z => if z.val < 0 then .error .valueError else collect fun i => poissonOneOrder frac q.val.toReal z (orders i)
    | _ => .error .typeError

open Classical in
/-- `_compute_rdp_single_epoch_tree_aggregation`, lines 584-628. -/
noncomputable def tree {n : ℕ} (orders : Fin n → EReal) (noise : PyNum) (stepCounts : ℤ ⊕ List ℤ) : Except Err (Arr n) :=
  if noise.val < 0 then .error .valueError
  else if noise.val = 0 then .ok fun _ => ⊤
  else if stepCounts = .inl 0 ∨ stepCounts = .inr [] then .error .valueError
  else
    let counts := match stepCounts with | .inl c => [c] | .inr l => l
    if ∃ c ∈ counts, c < 0 then .error .valueError
    else
      let maxDepth : ℤ := ⌈Real.logb 2 ((counts.foldr max 0 : ℤ) + 1)⌉
      .ok fun i => orders i * ((maxDepth : ℝ) : EReal) * ((halfInvSq noise : ℝ) : EReal)

/-- The partial sum `math.fsum(v**(k-1) / k for k in range(1, 100))`, line 857. -/
noncomputable def laplaceSeries (v : ℝ) : ℝ := ∑ j ∈ Finset.range 99, v ^ j / (j + 1)

open Classical in
/-- `_laplace_rdp`, lines 824-861. -/
noncomputable def laplaceRdp (eps : ℝ) (order : EReal) : Except Err EReal :=
  if eps < 0 then .error .valueError
  else if order = ⊤ ∨ order < 1 then .error .valueError
  else
    let a := order.toReal
    if a = 1 then .ok ((eps + (Real.exp (-eps) - 1) : ℝ) : EReal)
    else if a < 1.1 then
      let c := (Real.exp (eps * (1 - 2 * a)) - 1) / (2 * a - 1)
      let v := -c * (a - 1)
      .ok ((eps + c * laplaceSeries v : ℝ) : EReal)
    else
      .ok ((eps + Real.log (1 + (a - 1) * (Real.exp (eps * (1 - 2 * a)) - 1) / (2 * a - 1)) / (a - 1) : ℝ) : EReal)

/-- `special.logsumexp(a, b)`. Called in `rdp/rdp_privacy_accountant.py:893` and `932`. -/
noncomputable def logSumExp (l : List (ℝ × ℝ)) : ℝ := Real.log ((l.map fun x => x.2 * Real.exp x.1).sum)

open Classical in
/-- `_randomized_response_rdp_replace_special`, lines 864-896. -/
noncomputable def rrReplaceSpecial (p : ℝ) (k : ℤ) (alpha : EReal) : Except Err EReal :=
  if alpha ≤ 1 then .error .valueError
  else if k = 1 ∨ p = 1 then .ok 0
  else if p = 0 then .ok ⊤
  else
    let log1 := Real.log (k * (1 - p) + p)
    let log2 := Real.log p
    if alpha = ⊤ then .ok ((max log1 (-log2) : ℝ) : EReal)
    else
      let a := alpha.toReal
      let bound := fun x : ℝ => logSumExp [(x * log1, 1 / (k : ℝ)), (x * log2, 1 - 1 / (k : ℝ))]
      .ok ((max (bound a) (bound (1 - a)) / (a - 1) : ℝ) : EReal)

open Classical in
/-- `_randomized_response_rdp_replace_one`, lines 899-935. -/
noncomputable def rrReplaceOne (p : ℝ) (k : ℤ) (alpha : EReal) : Except Err EReal :=
  if alpha ≤ 1 then .error .valueError
  else if k = 1 ∨ p = 1 then .ok 0
  else if p = 0 then .ok ⊤
  else
    let log1 := Real.log (k / p - k + 1)
    if alpha = ⊤ then .ok ((log1 : ℝ) : EReal)
    else
      let a := alpha.toReal
      .ok ((logSumExp [(a * log1, p / k), (-a * log1, 1 - p + p / k), (0, (1 - 2 / k) * p)] / (a - 1) : ℝ) : EReal)

open Classical in
/-- `_compute_randomized_response_rdp`, lines 938-968. -/
noncomputable def randomizedResponse {n : ℕ} (orders : Fin n → EReal) (p : PyNum) (k : ℤ) (nr : NeighborRel) : Except Err (Arr n) :=
  if p.val < 0 ∨ p.val > 1 then .error .valueError
  else if k < 1 then .error .valueError
  else collect fun i =>
    if nr = .replaceOne then rrReplaceOne p.val.toReal k (orders i) else rrReplaceSpecial p.val.toReal k (orders i)

/-- The functions called by `RdpAccountant` for given `orders`; `frac`, `wor` and `ras` stand for `_compute_log_a_frac`,
`_compute_rdp_sample_wor_gaussian` and `_compute_rdp_repeat_and_select`. The calls of `rdp/rdp_privacy_accountant.py:1021-1138`. -/
noncomputable def fns {n : ℕ} (orders : Fin n → EReal) (frac : ℝ → PyNum → ℝ → EReal)
    (wor : ℝ → EffNoise → Except Err (Arr n)) (ras : Arr n → PyNum → PyNum → Except Err (Arr n)) : RdpFns n where
  poissonGaussian := poissonGaussian frac orders
  sampleWor := wor
  tree := tree orders
  laplace := fun eps => collect fun i => laplaceRdp eps (orders i)
  repeatAndSelect := ras
  randomizedResponse := randomizedResponse orders

end Verif.Rdp
