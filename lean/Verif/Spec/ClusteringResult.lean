import Mathlib.Data.Fintype.Card
import Mathlib.Data.Fintype.Prod
import Mathlib.Data.Finset.Max
import Mathlib.Data.Int.Order.Basic

/-!
# What the clustering metrics should count
-/

namespace Verif.Spec

open Classical in
/-- The number of unordered pairs of different points that are related. -/
noncomputable def pairCount {n : ℕ} (r : Fin n → Fin n → Prop) : ℕ :=
  (Finset.univ.filter fun p : Fin n × Fin n => p.1 < p.2 ∧ r p.1 p.2).card

/-- The number of points whose true label `t` is predicted from the cluster `c` if cluster `i` is given the label `g i`. -/
def correctCount {n : ℕ} (c t : Fin n → ℤ) (g : ℤ → ℤ) : ℕ := (Finset.univ.filter fun a => g (c a) = t a).card

end Verif.Spec
