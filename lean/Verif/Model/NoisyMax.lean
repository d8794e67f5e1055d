import Verif.Model.Builder
import Mathlib.Data.Real.Basic
import Mathlib.Data.List.FinRange
import Mathlib.Data.List.Count

/-!
# Model of the noisy max mechanism (`dp_auditorium/mechanisms/noisy_max.py`)

`rng.gumbel(0, scale)` is `scale` times a draw of the standard Gumbel distribution, as in numpy, and raises `ValueError` for a negative
scale; the standard draws are parameters. Records are reals; those that are no element are counted nowhere.
-/

namespace Verif.NoisyMax

open Classical in
/-- `counts_array`, lines 48-49. -/
noncomputable def counts (data : List ℝ) (k : ℕ) (i : Fin k) : ℕ := data.countP fun x => decide (x = (i.val : ℝ))

open Classical in
/-- `np.argmax` of one row: the first index of the largest entry. `mechanisms/noisy_max.py:55`. -/
noncomputable def argmax {k : ℕ} (a : Fin (k + 1) → ℝ) : Fin (k + 1) :=
  (List.finRange (k + 1)).foldl (fun best i => if a best < a i then i else best) 0

open Classical in
/-- `NoisyMaxMechanism.__call__`, lines 47-55. The number of elements is not negative (`rng.gumbel` raises for a negative one). -/
noncomputable def call (epsilon : ℝ) : (k : ℕ) → (data : List ℝ) → (n : ℕ) → (draws : Fin n → Fin k → ℝ) → Except Err (Fin n → Fin k)
  | 0, _, _, _ => if epsilon = 0 then .error .zeroDivisionError else .error .valueError
  | k + 1, data, _, draws =>
    if epsilon = 0 then .error .zeroDivisionError
    else if 2 / epsilon < 0 then .error .valueError
    else .ok fun s => argmax fun i => (counts data (k + 1) i : ℝ) + 2 / epsilon * draws s i

end Verif.NoisyMax
