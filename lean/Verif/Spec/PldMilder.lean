import Verif.Spec.PldTight

/-! # Events that lose no more privacy than others, for the PLD accountant -/

namespace Verif.Spec

/-- `PldMilder e e'`: the elementary event `e` is `e'` with more noise or less sampling, and the parameters of both are in range. -/
inductive PldMilder : DpEvent → DpEvent → Prop
  | gaussian (z z' : PyNum) : 0 < z'.val → z'.val ≤ z.val → z.val < ⊤ → PldMilder (.gaussian z) (.gaussian z')
  | laplace (z z' : PyNum) : 0 < z'.val → z'.val ≤ z.val → z.val < ⊤ → PldMilder (.laplace z) (.laplace z')
  | sampledGaussian (q q' z z' : PyNum) : 0 < q.val → q.val ≤ q'.val → q'.val ≤ 1 → 0 < z'.val → z'.val ≤ z.val → z.val < ⊤ →
      PldMilder (.poissonSampled q (.gaussian z)) (.poissonSampled q' (.gaussian z'))
  | sampledLaplace (q q' z z' : PyNum) : 0 < q.val → q.val ≤ q'.val → q'.val ≤ 1 → 0 < z'.val → z'.val ≤ z.val → z.val < ⊤ →
      PldMilder (.poissonSampled q (.laplace z)) (.poissonSampled q' (.laplace z'))
  /-- Sampling is milder than none. -/
  | unsampledGaussian (q z z' : PyNum) : 0 < q.val → q.val ≤ 1 → 0 < z'.val → z'.val ≤ z.val → z.val < ⊤ →
      PldMilder (.poissonSampled q (.gaussian z)) (.gaussian z')
  | unsampledLaplace (q z z' : PyNum) : 0 < q.val → q.val ≤ 1 → 0 < z'.val → z'.val ≤ z.val → z.val < ⊤ →
      PldMilder (.poissonSampled q (.laplace z)) (.laplace z')
  | randomizedResponse (p p' : PyNum) (k : ℤ) : 2 ≤ k → 0 < p'.val → p'.val ≤ p.val → p.val ≤ 1 →
      PldMilder (.randomizedResponse p k) (.randomizedResponse p' k)

/-- Each event of the first list is milder than its own event of the second list. The second list may contain further events, with
parameters in range. -/
inductive PldMilderAll : List DpEvent → List DpEvent → Prop
  | nil : PldMilderAll [] []
  | cons (e e' : DpEvent) (l l' : List DpEvent) : PldMilder e e' → PldMilderAll l l' → PldMilderAll (e :: l) (e' :: l')
  | skip (e' : DpEvent) (l l' : List DpEvent) : PldMilder e' e' → PldMilderAll l l' → PldMilderAll l (e' :: l')

end Verif.Spec
