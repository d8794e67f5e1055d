import Verif.Spec.EventMeaning
import Mathlib.Analysis.SpecialFunctions.Pow.Real
import Mathlib.Algebra.Order.Floor.Ring

/-!
# Specification: how far the values of the RDP accountant may be above the Rényi divergence
-/

namespace Verif.Spec

/-- For a Poisson sample with probability `q` and Gaussian noise of precision `p` (one over the variance), at order `α` with fractional part `f`:
`2 f (1 - f) / (⌈α⌉ (α - 1)) * (1-q)^(α-s) q^s exp(s (s-1) p / 2)`. Zero at integer orders, and small for small `q` and large `s`. -/
noncomputable def fracExcess (q p α s : ℝ) : ℝ :=
  2 * Int.fract α * (1 - Int.fract α) / (⌈α⌉₊ * (α - 1)) * ((1 - q) ^ (α - s) * q ^ s * Real.exp ((s ^ 2 - s) / 2 * p))

open Classical in
/-- How far the value of one event may be above the divergence at order `α`: for Poisson samples the excess with the better one of the exponents
`0` and `⌈α⌉ + 1` (the effective precision of several Gaussian queries on one sample is the sum of theirs), for Laplace noise at orders
below 1.1 `1e-100`; otherwise nothing. -/
noncomputable def eventExcess (α : ℝ) : DpEvent → ℝ
  | .laplace _ => if α < 1.1 then 10 ^ (-100 : ℤ) else 0
  | .poissonSampled q e =>
    if 0 < q.val.toReal ∧ q.val.toReal < 1 then
      min (fracExcess q.val.toReal ((noises e).map fun x => 1 / x ^ 2).sum α 0) (fracExcess q.val.toReal ((noises e).map fun x => 1 / x ^ 2).sum α (⌈α⌉₊ + 1))
    else 0
  | _ => 0

/-- The excess of Poisson samples only. -/
noncomputable def sampleExcess (α : ℝ) : DpEvent → ℝ
  | .poissonSampled q e => eventExcess α (.poissonSampled q e)
  | _ => 0

/-- The events for which the RDP accountant's value is close to the divergence: all those it accepts, except samples without replacement,
`RepeatAndSelect`, samples of anything but Gaussian queries with positive noise, and trees with neither noise nor steps. -/
def RenyiNear : DpEvent → Prop
  | .poissonSampled _ e => (∃ z, e = .gaussian z ∧ 0 < z.val ∧ z.val ≠ ⊤) ∨ FloatGaussians e
  | .singleEpochTreeAggregation z s => z.val ≠ 0 ∨ ∃ c ∈ treeCounts s, 0 < c
  | .sampledWithoutReplacement _ _ _ => False
  | .repeatAndSelect _ _ _ => False
  | _ => True

end Verif.Spec
