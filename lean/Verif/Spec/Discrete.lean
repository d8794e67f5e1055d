import Verif.Model.Pld
import Verif.Spec.LossDist
import Mathlib.Algebra.BigOperators.Group.Finset.Basic
import Mathlib.Algebra.Order.BigOperators.Group.Finset

/-!
# Specification: hockey-stick divergence of finite distributions, well-formed PLD objects
-/

namespace Verif.Spec

/-- `Σ_o max(0, P(o) - e^eps Q(o))`: the `eps`-hockey-stick divergence of `P` from `Q` over a finite set of outcomes
(class comment, `privacy_loss_distribution.py:52-56`). -/
noncomputable def hsFinite {O : Type} (outcomes : Finset O) (P Q : O → ℝ) (eps : ℝ) : ℝ :=
  ∑ o ∈ outcomes, max 0 (P o - Real.exp eps * Q o)

/-- Probability of an outcome under a dictionary of log probabilities; absent outcomes and `-inf` mean zero. -/
noncomputable def prob {O : Type} [DecidableEq O] (d : Pld.LogPmf O) (o : O) : ℝ := Pld.expLog (Pld.LogPmf.get d o)

/-- All outcomes mentioned by the two dictionaries. -/
def outcomes {O : Type} [DecidableEq O] (d1 d2 : Pld.LogPmf O) : Finset O :=
  (d1.map Prod.fst).toFinset ∪ (d2.map Prod.fst).toFinset

open Classical in
/-- Mass of the upper distribution on outcomes possible under the lower one whose upper log probability does not exceed the
truncation bound. -/
noncomputable def truncatedMass {O : Type} [DecidableEq O] (lower upper : Pld.LogPmf O) (bound : Pld.LogProb) : ℝ :=
  ∑ o ∈ outcomes lower upper,
    if prob lower o ≠ 0 ∧ Pld.LogPmf.get upper o ≤ bound then prob upper o else 0

/-- A PLD object as the library builds it: both PMFs well formed, on the same grid and of the same kind, and a symmetric
object carries the same PMF twice. -/
structure _root_.Verif.Pld.Valid (p : Pld) : Prop where
  wfRemove : p.remove.WF
  wfAdd : p.add.WF
  disc : p.add.disc = p.remove.disc
  pess : p.add.pessimistic = p.remove.pessimistic
  symm : p.symmetric = true → p.add = p.remove

/-- Worst case over the two adjacency directions. -/
noncomputable def _root_.Verif.Pld.hs (p : Pld) (eps : EReal) : ℝ := max (p.remove.hs eps) (p.add.hs eps)

/-- `k`-ary randomised response: with probability `noise` a uniform bucket, otherwise the input. -/
noncomputable def rrProb (noise : ℝ) (k : ℕ) (x o : Fin k) : ℝ :=
  (if o = x then 1 - noise else 0) + noise / k

end Verif.Spec
