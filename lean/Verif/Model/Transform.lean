import Mathlib.Algebra.Order.Field.Basic
import Mathlib.Data.List.Sort
import Verif.Base.Outcome
import Verif.Base.AMap
import Verif.Base.Geometry

/-!
# Similarity transformations of a reconstruction

Models src/theia/sfm/transformation/transform_reconstruction.cc, `Reconstruction::Normalize`
(src/theia/sfm/reconstruction.cc) and `Camera::ProjectPoint` (src/theia/sfm/camera/camera.cc), without rounding.
Orientations are stored as angle-axis vectors and converted with Ceres; here the stored type and the two
conversions are a parameter `Rep`. Dividing by a zero homogeneous coordinate, or by zero elsewhere, is `ub`.
-/

namespace Theia
namespace Transform

/-- A stored form of rotations: `ceres::AngleAxisToRotationMatrix` and `ceres::RotationMatrixToAngleAxis`
(camera.cc, `GetOrientationAsRotationMatrix`, `SetOrientationFromRotationMatrix`). -/
structure Rep (K : Type) where
  A : Type
  toM : A → M3 K
  ofM : M3 K → A

/-- A view: its estimated flag and its camera. Intrinsics are not touched by anything here. -/
structure View (A I K : Type) where
  estimated : Bool
  orientation : A
  position : V3 K
  intrinsics : I
  deriving DecidableEq

/-- A track: its estimated flag and its homogeneous point. -/
structure Track (K : Type) where
  estimated : Bool
  xyz : V3 K
  w : K
  deriving DecidableEq

/-- The views and tracks of a reconstruction. -/
structure Scene (A I K : Type) where
  views : AMap Nat (View A I K)
  tracks : AMap Nat (Track K)

variable {K I P : Type} [Field K]

/-- `TransformPoint` (transform_reconstruction.cc:48-53). -/
def transformPoint (rotation : M3 K) (translation : V3 K) (scale : K) (point : V3 K) : V3 K :=
  ((rotation.mulVec point).smul scale).add translation

/-- `TransformCamera` (lines 55-67). -/
def transformCamera (rep : Rep K) (rotation : M3 K) (translation : V3 K) (scale : K) (v : View rep.A I K) :
    View rep.A I K :=
  { v with
    orientation := rep.ofM ((rep.toM v.orientation).mul rotation.transpose)
    position := transformPoint rotation translation scale v.position }

/-- The loop over the views (lines 77-83). -/
def viewLoop (rep : Rep K) (rotation : M3 K) (translation : V3 K) (scale : K) :
    List Nat → Scene rep.A I K → Outcome (Scene rep.A I K)
  | [], sc => .ok sc
  | v :: vs, sc =>
    match sc.views.get v with
    | none => .ub
    | some view =>
      viewLoop rep rotation translation scale vs
        (if view.estimated then
          { sc with views := sc.views.insert v (transformCamera rep rotation translation scale view) }
         else sc)

variable [DecidableEq K]

/-- The loop over the tracks (lines 85-93); `hnormalized()` divides by the last coordinate. -/
def trackLoop (rep : Rep K) (rotation : M3 K) (translation : V3 K) (scale : K) :
    List Nat → Scene rep.A I K → Outcome (Scene rep.A I K)
  | [], sc => .ok sc
  | t :: ts, sc =>
    match sc.tracks.get t with
    | none => .ub
    | some track =>
      if track.estimated then
        if track.w = 0 then .ub
        else trackLoop rep rotation translation scale ts
          { sc with
            tracks := sc.tracks.insert t
              ⟨true, transformPoint rotation translation scale (track.xyz.smul track.w⁻¹), 1⟩ }
      else trackLoop rep rotation translation scale ts sc

/-- `TransformReconstruction` (lines 73-94). -/
def transform (rep : Rep K) (rotation : M3 K) (translation : V3 K) (scale : K) (sc : Scene rep.A I K) :
    Outcome (Scene rep.A I K) :=
  match viewLoop rep rotation translation scale sc.views.keys sc with
  | .abort => .abort
  | .ub => .ub
  | .ok sc => trackLoop rep rotation translation scale sc.tracks.keys sc

omit [DecidableEq K] in
/-- `Camera::ProjectPoint` (camera.cc:204-213): the pixel and the depth. `toImage` is the map of the intrinsics. -/
def project (rep : Rep K) (toImage : I → V3 K → P) (v : View rep.A I K) (t : Track K) : P × K :=
  let rotated := (rep.toM v.orientation).mulVec (t.xyz.sub (v.position.smul t.w))
  (toImage v.intrinsics rotated, rotated.z / t.w)

end Transform

namespace Normalize

open Transform

variable {K I : Type} [Field K] [LinearOrder K]

/-- `Median` (reconstruction.cc:73-78): `nth_element` at position `n / 2`; dereferences the end of an empty
vector. -/
def median (data : List K) : Outcome K :=
  match (data.insertionSort (· ≤ ·))[data.length / 2]? with
  | none => .ub
  | some x => .ok x

/-- The positions of the estimated cameras (lines 375-385), in the order of the view ids. -/
def positions {A : Type} (sc : Scene A I K) : List (V3 K) :=
  (sc.views.entries.filter (fun e => e.2.estimated)).map (fun e => e.2.position)

/-- The estimated points (lines 393-403, 413-416); the division by zero is excluded by the transformation before. -/
def points {A : Type} (sc : Scene A I K) : List (V3 K) :=
  (sc.tracks.entries.filter (fun e => e.2.estimated)).map (fun e => e.2.xyz.smul e.2.w⁻¹)

/-- The median of each coordinate (lines 386-388, 421-423). -/
def medianPoint (ps : List (V3 K)) : Outcome (V3 K) := do
  let x ← median (ps.map V3.x)
  let y ← median (ps.map V3.y)
  let z ← median (ps.map V3.z)
  pure ⟨x, y, z⟩

/-- `lpNorm<1>()`. -/
def norm1 (v : V3 K) : K := |v.x| + |v.y| + |v.z|

/-- `correlation` (lines 442-453). -/
def correlation (rep : Rep K) (sc : Scene rep.A I K) : M3 K :=
  ((sc.views.entries.filter (fun e => e.2.estimated)).map (fun e => (rep.toM e.2.orientation).r1)).foldl
    (fun m x => ⟨m.r1.add (x.smul x.x), m.r2.add (x.smul x.y), m.r3.add (x.smul x.z)⟩)
    ⟨V3.zero, V3.zero, V3.zero⟩

/-- `Reconstruction::Normalize` (lines 369-465). `upright` stands for the singular value decomposition of the
correlation matrix and the rotation taking its null vector to the y-axis (lines 456-463). -/
def normalize (rep : Rep K) (upright : M3 K → M3 K) (sc : Scene rep.A I K) : Outcome (Scene rep.A I K) := do
  let m ← medianPoint (positions sc)
  let sc ← transform rep M3.one m.neg 1 sc
  if (points sc).isEmpty then pure sc
  else do
    let m ← medianPoint (points sc)
    let d ← median ((points sc).map fun p => norm1 (p.sub m))
    if d = 0 then Outcome.ub
    else do
      let sc ← transform rep M3.one V3.zero (100 / d) sc
      transform rep (upright (correlation rep sc)) V3.zero 1 sc

end Normalize
end Theia
