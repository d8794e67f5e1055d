import Verif.Spec.Mechanisms

/-!
# Specification: points in a ball
-/

namespace Verif.Spec
open MeasureTheory

/-- The uniform distribution on the ball of radius `r` around the origin. -/
noncomputable def uniformBall (d : ℕ) (r : ℝ) : Measure (Vec d) :=
  (volume (Metric.ball (0 : Vec d) r))⁻¹ • volume.restrict (Metric.ball 0 r)

open Classical in
/-- The point itself if its norm is at most `r`, otherwise the point of norm `r` in the same direction. -/
noncomputable def toBall {d : ℕ} (r : ℝ) (x : Vec d) : Vec d := if ‖x‖ ≤ r then x else (r / ‖x‖) • x

/-- How many points a cluster has: they are divided evenly, and the last cluster also gets what is left. -/
def clusterSize (numPoints numClusters : ℕ) (c : Fin numClusters) : ℕ :=
  numPoints / numClusters + if c.1 = numClusters - 1 then numPoints - numClusters * (numPoints / numClusters) else 0

end Verif.Spec
