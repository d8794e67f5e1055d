import Verif.Model.Clustering

/-!
# Specification vocabulary for the LSH tree

The hash of a point is the sequence of the signs of its products with the projection vectors.
-/

namespace Verif.Spec
open Verif Verif.Clustering
open scoped RealInnerProductSpace

variable {d : ℕ}

open Classical in
/-- The first `n` bits of the hash of `x`: bit `i` says that the product with vector `i` is negative. -/
noncomputable def hashOf (v : ℕ → Point d) (x : Point d) (n : ℕ) : List Bool := (List.range n).map fun i => decide (⟪x, v i⟫ < 0)

/-- The point hashes to the prefix. -/
def InPrefix (v : ℕ → Point d) (p : List Bool) (x : Point d) : Prop := hashOf v x p.length = p

/-- The tree parameters passed the checks of `TreeParam`. -/
def TreeOk (t : TreeParam) : Prop := 1 ≤ t.minNode ∧ t.minNode ≤ t.minBranching

end Verif.Spec
