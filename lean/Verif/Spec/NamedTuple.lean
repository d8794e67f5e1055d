import Verif.Model.NamedTuple

/-! # Specification vocabulary for serialisation -/

namespace Verif.Spec
open Verif

mutual
/-- No attrs object occurs in the value, at any depth. -/
def NoAttrs : PyVal → Prop
  | .num _ => True
  | .attrObj _ _ _ _ => False
  | .namedTuple _ _ _ vs => NoAttrsL vs
  | .seq vs => NoAttrsL vs
  | .mapping _ vs => NoAttrsL vs
/-- `NoAttrs` for every element. -/
def NoAttrsL : List PyVal → Prop
  | [] => True
  | v :: vs => NoAttrs v ∧ NoAttrsL vs
end

mutual
/-- No named tuple occurs in the value, at any depth. -/
def NoNT : PyVal → Prop
  | .num _ => True
  | .attrObj _ _ _ vs => NoNTL vs
  | .namedTuple _ _ _ _ => False
  | .seq vs => NoNTL vs
  | .mapping _ vs => NoNTL vs
/-- `NoNT` for every element. -/
def NoNTL : List PyVal → Prop
  | [] => True
  | v :: vs => NoNT v ∧ NoNTL vs
end

end Verif.Spec
