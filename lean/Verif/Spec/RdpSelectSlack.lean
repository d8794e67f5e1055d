import Verif.Spec.RdpFrac
import Verif.Spec.EventMeaning

/-! # How much the early stop of the series at fractional orders can hide in a nested event -/

namespace Verif.Spec
open Verif

open Classical in
/-- What an error `c` of the RDP values of a mechanism does to the values for its repetition and selection; `A` is the largest order. For a
Poisson number of repetitions the conversion to `delta` takes part. -/
noncomputable def selectError (A : ℝ) (mean shape : PyNum) (c : ℝ) : ℝ :=
  if shape.val = ⊤ then c + mean.val.toReal * (Real.sqrt c + (Real.exp ((A - 1) * c) - 1)) else (2 + shape.val.toReal) * c

/-- What is hidden for an elementary event if `η` is hidden for a Poisson-sampled event. -/
noncomputable def hiddenBy (A η : ℝ) : DpEvent → ℝ
  | .poissonSampled _ _ => η
  | .repeatAndSelect e mean shape => selectError A mean shape ((expand e).attach.map fun a => hiddenBy A η a.1).sum
  | _ => 0
termination_by e => sizeOf e
decreasing_by
  have := expand_size e a.1 a.2
  simp; omega

end Verif.Spec
