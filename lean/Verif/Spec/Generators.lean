import Verif.Model.Generators

/-!
# Specification of neighbouring data sets and of sessions of a generator
-/

namespace Verif.Spec

/-- `big` consists of the records of `small`, in any order, and one more record. -/
def AddsRecord {ρ : Type} (small big : List ρ) : Prop := ∃ r, big.Perm (r :: small)

/-- `small` consists of the records of `big`, in any order, that do not belong to one of the users that contribute to `big`. -/
def RemovesUser {ρ υ : Type} [DecidableEq υ] (user : ρ → υ) (small big : List ρ) : Prop :=
  ∃ u, (∃ r ∈ big, user r = u) ∧ small.Perm (big.filter fun r => user r ≠ u)

/-- Calling a generator again and again with the given results: the final generator and what the calls returned or raised. -/
def session {σ α : Type} (call : Option ℝ → σ → σ × Except Err α) : List (Option ℝ) → σ → σ × List (Except Err α)
  | [], g => (g, [])
  | r :: rs, g => ((session call rs (call r g).1).1, (call r g).2 :: (session call rs (call r g).1).2)

/-- The trial gives the value `v i` to the parameter with the `i`-th of `n` names, in any order, and has no other parameter. -/
def Assigns (name : ℕ → ParamName) (n : ℕ) (t : VizierTrial) (v : ℕ → ℝ) : Prop :=
  t.parameters.Perm ((List.range n).map fun i => (name i, v i))

end Verif.Spec
