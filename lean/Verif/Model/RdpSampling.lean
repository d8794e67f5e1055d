import Verif.Model.Rdp

/-!
# Model of sampling without replacement (`rdp_privacy_accountant.py:280-348, 400-541`)

A numpy array is a function on indices; `vec` and `signs` are updated in place.  Floats are reals; a logarithm that may be
`-inf` is a `LogProb`.
-/

namespace Verif.Rdp
open Verif LogDomain Pld

/-- The pair of arrays `(signs, vec)`. `rdp/rdp_privacy_accountant.py:280-318`, `336-340`. -/
abbrev SignedVec := (ℕ → Bool) × (ℕ → LogProb)

/-- Body of the loop of `_stable_inplace_diff_in_log`, lines 307-318. -/
noncomputable def diffStep (st : SignedVec) (j : ℕ) : SignedVec :=
  if st.1 j = st.1 (j + 1) then
    let r := logSubSign (st.2 (j + 1)) (st.2 j)
    let signs := Function.update st.1 j r.1
    let vec := Function.update st.2 j r.2
    if ¬ signs (j + 1) then (Function.update signs j (!(signs j)), vec) else (signs, vec)
  else
    let vec := Function.update st.2 j (logAdd (st.2 j) (st.2 (j + 1)))
    (Function.update st.1 j (st.1 (j + 1)), vec)

/-- `_stable_inplace_diff_in_log`, lines 280-318, for arrays of matching shapes with more than `n` entries. -/
noncomputable def inplaceDiff (st : SignedVec) (n : ℕ) : SignedVec := (List.range n).foldl diffStep st

/-- The initial arrays of `_get_forward_diffs`, lines 334-341. -/
noncomputable def initVec (f : ℝ → ℝ) : SignedVec :=
  (fun _ => true, fun i => if i = 0 then ((0 : ℝ) : LogProb) else ((f ((i : ℝ) - 1) : ℝ) : LogProb))

/-- The arrays after the first `i` iterations of the loop in lines 343-347. -/
noncomputable def diffIter (f : ℝ → ℝ) (n : ℕ) : ℕ → SignedVec
  | 0 => initVec f
  | i + 1 => inplaceDiff (diffIter f n i) (n + 2 - i)

/-- `_get_forward_diffs`, lines 321-348: the entry `i < n + 2` of `(signs_deltas, deltas)`. -/
noncomputable def forwardDiffs (f : ℝ → ℝ) (n i : ℕ) : Bool × LogProb := ((diffIter f n (i + 1)).1 0, (diffIter f n (i + 1)).2 0)

/-- `0.5 * x`. -/
noncomputable def halve (x : LogProb) : LogProb := x.map (0.5 * ·)

/-- The summand for `i == 2` in `_compute_rdp_sample_wor_gaussian_int`, lines 517-522, 534-539; `h` is `1 / (2 sigma**2)`. -/
noncomputable def worTerm2 (q h : ℝ) (alpha : ℕ) : ℝ :=
  let func2 := 2 * h
  let logF2m1 := func2 + Real.log (1 + -Real.exp (-func2))
  2 * Real.log q + logComb alpha 2 + min (Real.log 4 + logF2m1) (func2 + Real.log 2)

/-- `cgf`, lines 497-499. -/
noncomputable def cgf (h x : ℝ) : ℝ := x * (x + 1) * h

/-- The summand for `i > 2`, `alpha <= 256`, lines 523-528. -/
noncomputable def worTermLow (q h : ℝ) (alpha i : ℕ) : LogProb :=
  let deltaLo := (forwardDiffs (cgf h) alpha (2 * (i / 2) - 1)).2
  let deltaHi := (forwardDiffs (cgf h) alpha (2 * ((i + 1) / 2) - 1)).2
  let s := ((Real.log 4 : ℝ) : LogProb) + halve (deltaLo + deltaHi)
  let s := min s ((Real.log 2 + cgf h ((i : ℝ) - 1) : ℝ) : LogProb)
  s + ((i * Real.log q + logComb alpha i : ℝ) : LogProb)

/-- The summand for `i > 2`, `alpha > 256`, line 541. -/
noncomputable def worTermHigh (q h : ℝ) (alpha i : ℕ) : LogProb :=
  ((Real.log 2 + cgf h ((i : ℝ) - 1) + i * Real.log q + logComb alpha i : ℝ) : LogProb)

/-- The summand `s`. `rdp/rdp_privacy_accountant.py:514-526`, `532-538`. -/
noncomputable def worTerm (q h : ℝ) (alpha i : ℕ) : LogProb :=
  if i = 2 then (worTerm2 q h alpha : LogProb) else if alpha ≤ 256 then worTermLow q h alpha i else worTermHigh q h alpha i

open Classical in
/-- `_compute_rdp_sample_wor_gaussian_int`, lines 471-541. With zero noise `func` divides by zero; with infinite noise
`math.log1p(-1)` raises `ValueError`. -/
noncomputable def worInt (q : ℝ) (sigma : PyNum) (alpha : ℕ) : Except Err LogProb :=
  if alpha = 1 then .ok ((0 : ℝ) : LogProb)
  else if sigma.val = 0 then .error .zeroDivisionError
  else if halfInvSq sigma = 0 then .error .valueError
  else .ok ((List.range' 2 (alpha - 1)).foldl (fun logA i => logAdd logA (worTerm q (halfInvSq sigma) alpha i)) ((0 : ℝ) : LogProb))

open Classical in
/-- `_compute_rdp_sample_wor_gaussian_scalar`, lines 430-468. A failing assertion is represented by `valueError`; for order 1
(and `0 < q < 1`) python computes `0 / 0`, the model raises instead. Dividing a numpy float by zero gives `inf`. -/
noncomputable def worScalar (q : ℝ) (sigma : PyNum) (alpha : EReal) : Except Err EReal :=
  if ¬ (q ≤ 1 ∧ 0 ≤ q ∧ 1 ≤ alpha) then .error .valueError
  else if q = 0 then .ok 0
  else if q = 1 then (if sigma.val = 0 then .ok ⊤ else .ok (alpha * ((halfInvSq sigma : ℝ) : EReal)))
  else if alpha = ⊤ then .ok ⊤
  else if alpha = 1 then .error .zeroDivisionError
  else
    let a := alpha.toReal
    if ∃ m : ℕ, a = m then
      match worInt q sigma ⌊a⌋₊ with
      | .error e => .error e
      | .ok x => .ok (toEReal x * (((a - 1)⁻¹ : ℝ) : EReal))
    else
      match worInt q sigma ⌊a⌋₊, worInt q sigma ⌈a⌉₊ with
      | .error e, _ => .error e
      | .ok _, .error e => .error e
      | .ok x, .ok y =>
        let t := a - ⌊a⌋₊
        .ok ((((1 - t : ℝ) : EReal) * toEReal x + ((t : ℝ) : EReal) * toEReal y) * (((a - 1)⁻¹ : ℝ) : EReal))

/-- `_compute_rdp_sample_wor_gaussian`, lines 400-427, for a real noise multiplier (for a complex one the model raises). -/
noncomputable def wor {n : ℕ} (orders : Fin n → EReal) (q : ℝ) (noise : EffNoise) : Except Err (Arr n) :=
  match noise with
  | .num z => collect fun i => worScalar q z (orders i)
  | _ => .error .typeError

end Verif.Rdp
