import Verif.Base.Outcome
import Verif.Base.AngleAxis
import Verif.Model.ViewGraph

/-!
# Two-view geometry

Models src/theia/sfm/twoview_info.h and twoview_info.cc over the reals, without rounding. The threshold below which
Ceres approximates a rotation is `eps`.
-/

namespace Theia
namespace TwoView

open AngleAxis

/-- `TwoViewInfo` (twoview_info.h:54-102). -/
@[ext] structure Info where
  focal1 : ℝ
  focal2 : ℝ
  position : V3 ℝ
  rotation : V3 ℝ
  verified : Int
  homography : Int
  visibility : Int

/-- `SwapCameras` (twoview_info.cc:45-62). -/
noncomputable def swap (eps : ℝ) (info : Info) : Outcome Info :=
  if info.focal1 = 0 then .abort
  else if info.focal2 = 0 then .abort
  else .ok { info with
    focal1 := info.focal2
    focal2 := info.focal1
    position := (rotate eps info.rotation info.position).neg
    rotation := info.rotation.smul (-1) }

/-- The parts of a camera used here. -/
structure Cam where
  focal : ℝ
  orientation : V3 ℝ
  position : V3 ℝ

/-- `normalize()`: nothing happens to the zero vector. -/
noncomputable def normalized (v : V3 ℝ) : V3 ℝ :=
  if 0 < v.dot v then v.smul (Real.sqrt (v.dot v))⁻¹ else v

/-- `TwoViewInfoFromTwoCameras` (twoview_info.h:109-141). `multiply` is `MultiplyRotations` (math/rotation.cc:121-131),
which goes through Ceres' conversions to and from matrices; the fields it does not set keep their values. -/
noncomputable def fromCameras (eps : ℝ) (multiply : V3 ℝ → V3 ℝ → V3 ℝ) (normalize : Bool) (cam1 cam2 : Cam)
    (info : Info) : Info :=
  let position := rotate eps cam1.orientation (cam2.position.sub cam1.position)
  { info with
    focal1 := cam1.focal
    focal2 := cam2.focal
    rotation := multiply cam2.orientation cam1.orientation.neg
    position := if normalize then normalized position else position }

/-- `ReconstructionBuilder::AddMatchToViewGraph` (reconstruction_builder.cc:417-430). -/
noncomputable def addMatch (eps : ℝ) (a b : Nat) (info : Info) (g : ViewGraph Info) : Outcome (ViewGraph Info) :=
  if a > b then
    match swap eps info with
    | .abort => .abort
    | .ub => .ub
    | .ok info => .ok (g.addEdge a b info)
  else .ok (g.addEdge a b info)

end TwoView
end Theia
