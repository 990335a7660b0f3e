import Verif.Base.RotationMatrix
import Verif.Model.TwoViewInfo
import Verif.Model.ViewGraph
import Verif.Model.TripletExtractor

/-!
# Filters of view pairs by rotation

Models src/theia/sfm/filter_view_graph_cycles_by_rotation.cc and filter_view_pairs_from_orientation.cc over the reals.
`ofM` is `ceres::RotationMatrixToAngleAxis`. The order in which an `unordered_set` built here is iterated is a
parameter `order`.
-/

namespace Theia
namespace RotationFilters

open AngleAxis TwoView

/-- `RadToDeg` (math/util.h:50-52). -/
noncomputable def radToDeg (x : ℝ) : ℝ := x * (180 / Real.pi)

/-- `DegToRad` (math/util.h:54-56). -/
noncomputable def degToRad (x : ℝ) : ℝ := x * (Real.pi / 180)

/-- `MultiplyRotations` (math/rotation.cc:121-131). -/
noncomputable def multiply (ofM : M3 ℝ → V3 ℝ) (a b : V3 ℝ) : V3 ℝ := ofM ((toM a).mul (toM b))

/-- The final loop of both filters (filter_view_graph_cycles_by_rotation.cc:142-144,
filter_view_pairs_from_orientation.cc:117-119). -/
def removeAll {I : Type} : List (Nat × Nat) → ViewGraph I → ViewGraph I
  | [], g => g
  | p :: ps, g => removeAll ps (g.removeEdge p.1 p.2).2

/-- `ComputeLoopRotationError` (filter_view_graph_cycles_by_rotation.cc:54-80). -/
noncomputable def loopError (ofM : M3 ℝ → V3 ℝ) (i12 i13 i23 : Info) : ℝ :=
  let v := ofM (((toM i23.rotation).mul (toM i12.rotation)).mul (toM i13.rotation).transpose)
  radToDeg (Real.sqrt (v.dot v))

/-- `RemoveTripletEdgesFromInvalidViewPairs` (lines 82-91). -/
def eraseTriplet (t : Nat × Nat × Nat) (invalid : List (Nat × Nat)) : List (Nat × Nat) :=
  ((invalid.filter (fun p => decide (p ≠ (t.1, t.2.1)))).filter (fun p => decide (p ≠ (t.1, t.2.2)))).filter
    (fun p => decide (p ≠ (t.2.1, t.2.2)))

/-- The loop over all triplets (lines 117-136), the groups one after another. -/
noncomputable def tripletLoop (ofM : M3 ℝ → V3 ℝ) (maxError : ℝ) (g : ViewGraph Info) :
    List (Nat × Nat × Nat) → List (Nat × Nat) → Outcome (List (Nat × Nat))
  | [], invalid => .ok invalid
  | t :: ts, invalid =>
    match g.getEdge t.1 t.2.1, g.getEdge t.1 t.2.2, g.getEdge t.2.1 t.2.2 with
    | some i12, some i13, some i23 =>
      if loopError ofM i12 i13 i23 < maxError then tripletLoop ofM maxError g ts (eraseTriplet t invalid)
      else tripletLoop ofM maxError g ts invalid
    | _, _, _ => .ub

/-- `FilterViewGraphCyclesByRotation` (lines 95-145). `limit` is the largest number of triplets the extractor can
number. -/
noncomputable def filterCycles (ofM : M3 ℝ → V3 ℝ) (limit : Nat) (order : List (Nat × Nat) → List (Nat × Nat))
    (maxError : ℝ) (g : ViewGraph Info) : Outcome (ViewGraph Info) :=
  let invalid := g.allEdges.map (fun e => e.1)
  match Triplets.extract limit (order invalid) [] with
  | .abort => .abort
  | .ub => .ub
  | .ok groups =>
    match tripletLoop ofM maxError g groups.flatten invalid with
    | .abort => .abort
    | .ub => .ub
    | .ok invalid => .ok (removeAll (order invalid) g)

/-- `AngularDifferenceIsAcceptable` (filter_view_pairs_from_orientation.cc:55-68). -/
def Acceptable (ofM : M3 ℝ → V3 ℝ) (o1 o2 relative : V3 ℝ) (maxSq : ℝ) : Prop :=
  let loop := multiply ofM relative.neg (multiply ofM o2 o1.neg)
  loop.dot loop ≤ maxSq

open Classical in
/-- The view pairs to remove (lines 86-114). -/
noncomputable def pairsToRemove (ofM : M3 ℝ → V3 ℝ) (orientations : AMap Nat (V3 ℝ)) (maxSq : ℝ) :
    List ((Nat × Nat) × Info) → List (Nat × Nat)
  | [] => []
  | e :: es =>
    match orientations.get e.1.1, orientations.get e.1.2 with
    | some o1, some o2 =>
      if Acceptable ofM o1 o2 e.2.rotation maxSq then pairsToRemove ofM orientations maxSq es
      else e.1 :: pairsToRemove ofM orientations maxSq es
    | _, _ => e.1 :: pairsToRemove ofM orientations maxSq es

/-- `FilterViewPairsFromOrientation` (lines 72-122). -/
noncomputable def filterOrientation (ofM : M3 ℝ → V3 ℝ) (order : List (Nat × Nat) → List (Nat × Nat))
    (orientations : AMap Nat (V3 ℝ)) (maxDegrees : ℝ) (g : ViewGraph Info) : Outcome (ViewGraph Info) :=
  if maxDegrees < 0 then .abort
  else
    let maxRad := degToRad maxDegrees
    .ok (removeAll (order (pairsToRemove ofM orientations (maxRad * maxRad) g.allEdges)) g)

end RotationFilters
end Theia
