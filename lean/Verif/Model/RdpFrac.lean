import Verif.Model.Rdp
import Mathlib.Probability.Distributions.Gaussian.Real

/-!
# Model of `_compute_log_a_frac` (`rdp_privacy_accountant.py:81-140`)

Floats are reals; logarithms are `LogProb = WithBot ℝ` (`⊥` is `-inf`). `special.log_ndtr(x)` is the logarithm of the standard
normal distribution function. Not modelled: the `except NameError` branch of `_log_erfc` (lines 141-158) for versions of scipy
without `log_ndtr`; the log message.
-/

namespace Verif.Rdp
open Verif LogDomain Pld ProbabilityTheory

/-- `special.log_ndtr`. Called in `rdp/rdp_privacy_accountant.py:140`. -/
noncomputable def logNdtr (x : ℝ) : ℝ := Real.log ((gaussianReal 0 1).real (Set.Iic x))

/-- `_log_erfc`, lines 137-140. -/
noncomputable def logErfc (x : ℝ) : ℝ := Real.log 2 + logNdtr (-x * Real.sqrt 2)

/-- `_MAX_STEPS_LOG_A_FRAC`, line 81. -/
def maxStepsLogAFrac : ℕ := 1000

/-- `z0`, line 90. -/
noncomputable def fracZ0 (q sigma : ℝ) : ℝ := sigma ^ 2 * Real.log (1 / q - 1) + 0.5

/-- `log_s0` of step `i`, lines 96-105. -/
noncomputable def fracS0 (q sigma alpha : ℝ) (i : ℕ) : ℝ :=
  let logCoef := logComb alpha i
  let j := alpha - i
  let logT0 := logCoef + i * Real.log q + j * Real.log (1 + -q)
  let logE0 := Real.log 0.5 + logErfc ((i - fracZ0 q sigma) / (Real.sqrt 2 * sigma))
  logT0 + ((i : ℝ) * i - i) / (2 * sigma ^ 2) + logE0

/-- `log_s1` of step `i`, lines 96-106. -/
noncomputable def fracS1 (q sigma alpha : ℝ) (i : ℕ) : ℝ :=
  let logCoef := logComb alpha i
  let j := alpha - i
  let logT1 := logCoef + j * Real.log q + i * Real.log (1 + -q)
  let logE1 := Real.log 0.5 + logErfc ((fracZ0 q sigma - j) / (Real.sqrt 2 * sigma))
  logT1 + (j * j - j) / (2 * sigma ^ 2) + logE1

open Classical in
/-- The loop, lines 95-134, with `fuel` steps left; `inf` when there are none. -/
noncomputable def fracLoop (q sigma alpha : ℝ) : (fuel i : ℕ) → (logA0 logA1 lastS0 lastS1 : LogProb) → EReal
  | 0, _, _, _, _, _ => ⊤
  | fuel + 1, i, logA0, logA1, lastS0, lastS1 =>
    let logS0 : LogProb := (fracS0 q sigma alpha i : ℝ)
    let logS1 : LogProb := (fracS1 q sigma alpha i : ℝ)
    let logA0 := logAdd logA0 logS0
    let logA1 := logAdd logA1 logS1
    let total := logAdd logA0 logA1
    if logS0 < lastS0 ∧ logS1 < lastS1 ∧ max logS0 logS1 < total + ((-30 : ℝ) : LogProb) then toEReal total
    else fracLoop q sigma alpha fuel (i + 1) logA0 logA1 logS0 logS1

/-- `_compute_log_a_frac` for a finite noise multiplier, lines 84-134. -/
noncomputable def logAFracReal (q sigma alpha : ℝ) : EReal := fracLoop q sigma alpha maxStepsLogAFrac 0 ⊥ ⊥ ⊥ ⊥

/-- `_compute_log_a_frac`, lines 84-134. With an infinite noise multiplier the arguments of `_log_erfc` are `inf / inf`, so that
`total` is NaN, no comparison with it is true and the loop ends without a `return`: the result is `inf`. -/
noncomputable def logAFrac (q : ℝ) (sigma : PyNum) (alpha : ℝ) : EReal :=
  match sigma with
  | .int z => logAFracReal q z alpha
  | .float x => logAFracReal q x alpha
  | .inf => ⊤

end Verif.Rdp
