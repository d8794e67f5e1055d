import Verif.Model.Svt
import Verif.Spec.Mechanisms
import Mathlib.MeasureTheory.Constructions.Pi

/-!
# What the sparse vector mechanisms should do
-/

namespace Verif

/-- An answer that says that a query is above the threshold. -/
def SvtOut.Positive : SvtOut → Prop
  | .above => True
  | .value _ => True
  | _ => False

end Verif

namespace Verif.Spec
open MeasureTheory

open Classical in
/-- The number of indices below `i` at which `p` holds. -/
noncomputable def countBelow {k : ℕ} (p : Fin k → Prop) (i : ℕ) : ℕ := (Finset.univ.filter fun j : Fin k => j.val < i ∧ p j).card

/-- Independent standard Laplace draws for one sample: one for the threshold and one for each query. -/
noncomputable def svtDraw (k : ℕ) : Measure (ℝ × (Fin k → ℝ)) := (laplace 0 1).prod (Measure.pi fun _ => laplace 0 1)

/-- The probability that a call on `data` with `n` samples succeeds with the row of sample `s` in `S`. -/
noncomputable def svtProb (v : SvtVariant) (cfg : SvtConfig) (data : List ℝ) (n : ℕ) (s : Fin n) (S : Set (Fin cfg.numQueries → SvtOut)) : ℝ :=
  (Measure.pi fun _ : Fin n => svtDraw cfg.numQueries).real
    {draws | ∃ out, Svt.call v cfg data n draws = .ok out ∧ out s ∈ S}

/-- The queries have answers on both data sets, and they differ by at most the declared sensitivity. -/
def svtClose (cfg : SvtConfig) (data data' : List ℝ) : Prop :=
  ∃ q q', Svt.queryValues cfg data = .ok q ∧ Svt.queryValues cfg data' = .ok q' ∧ ∀ i, |q i - q' i| ≤ Svt.sensitivity cfg

end Verif.Spec
