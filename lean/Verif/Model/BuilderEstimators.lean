import Verif.Model.Builder
import Verif.Model.Global

/-!
# The estimators that `ReconstructionBuilder` creates (src/theia/sfm/reconstruction_estimator.cc:46-62)

The hybrid estimator is left out. The numerical parts may differ from call to call.
-/

namespace Theia
namespace Builder

open Incremental (TwoView)

section
variable {F P M O X L N W D C E : Type}

/-- The incremental estimator (reconstruction_estimator.cc:52-54); it does not change the view graph. A run that has not ended
after `fuel` passes gives no result. -/
def incremental [DecidableEq C] (num : Nat → Incremental.Numerics F P M O X L N W D C) (o : Incremental.Options) (fuel : Nat) :
    Estimator F P M O X (TwoView O X L) := fun k g scene =>
  match Incremental.estimate (num k) o g fuel scene with
  | .abort => .abort
  | .ub => .ub
  | .ok none => .ub
  | .ok (some (summary, s)) => .ok (summary.success, g, s.scene)

/-- The global estimator (reconstruction_estimator.cc:49-51). -/
def global [DecidableEq C] (num : Nat → Global.Numerics F P M O X L N W D C E) (o : Global.Options) :
    Estimator F P M O X (TwoView O X L) := fun k g scene =>
  match Global.estimate (num k) o g scene with
  | .abort => .abort
  | .ub => .ub
  | .ok (summary, s) => .ok (summary.success, s.graph, s.scene)

end
end Builder
end Theia
