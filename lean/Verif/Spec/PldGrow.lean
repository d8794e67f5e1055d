import Verif.Spec.PldEvents

/-!
# Specification: how many elementary events a composed event contains
-/

namespace Verif.Spec
open Verif

mutual
/-- Number of elementary events in an event; the repetitions asked for by `SelfComposed` are not counted. -/
def leafCount : DpEvent → ℕ
  | .selfComposed e _ => leafCount e
  | .composed es => leafCountL es
  | _ => 1
/-- Sum over the elements. -/
def leafCountL : List DpEvent → ℕ
  | [] => 0
  | e :: es => leafCount e + leafCountL es
end

mutual
/-- No mixture of Gaussians, and no sampling probability `q` with a grid point close to `log(1 - q)`: the events whose deltas the library
computes exactly (those without `eventSlack`). -/
def ExactEvent (disc : ℝ) : DpEvent → Prop
  | .selfComposed e _ => ExactEvent disc e
  | .composed es => ExactEventL disc es
  | .mixtureOfGaussians _ _ _ => False
  | .poissonSampled q _ => GridFree disc q
  | _ => True
/-- `ExactEvent` for each element. -/
def ExactEventL (disc : ℝ) : List DpEvent → Prop
  | [] => True
  | e :: es => ExactEvent disc e ∧ ExactEventL disc es
end

end Verif.Spec
