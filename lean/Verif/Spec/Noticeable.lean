import Verif.Spec.Milder

/-! # Vocabulary: samples that are not negligible -/

namespace Verif.Spec
open Verif

mutual
/-- Wherever a Poisson sample is taken in the event, it is used for Gaussian queries, and the sampling probability is at least `2e-5`, and at least
`2e-5` times the noise multiplier of one Gaussian query that is as precise as the queries together. -/
noncomputable def Noticeable : DpEvent → Prop
  | .poissonSampled q e => GaussianQueries e ∧ 2e-5 ≤ q.val.toReal ∧ 2e-5 ≤ q.val.toReal * Real.sqrt (totalPrecision e)
  | .selfComposed e _ => Noticeable e
  | .composed es => NoticeableL es
  | .repeatAndSelect e _ _ => Noticeable e
  | _ => True
/-- `Noticeable` for each element. -/
noncomputable def NoticeableL : List DpEvent → Prop
  | [] => True
  | e :: es => Noticeable e ∧ NoticeableL es
end

end Verif.Spec
