import Verif.Model.Bundler

/-!
# Model of the NVM, COLMAP and PLY files (src/theia/io/write_nvm_file.cc, import_nvm_file.cc, write_colmap_files.cc, write_ply_file.cc)

Simplifications. A file is the list of its records, with the counts written in it; numbers are elements of an ordered field, written
and read without loss (the code writes six digits and reads `float`). Files that cannot be opened are not modelled. The
conversion from a rotation matrix to a quaternion (Eigen) is a parameter.
-/

namespace Theia
namespace Export

open Bundler (Cam Point Scene Loaded hnormalized)

variable {K : Type}

/-- A quaternion. -/
structure Quat (K : Type) where
  w : K
  x : K
  y : K
  z : K
  deriving DecidableEq

/-- The orders in which the views, the tracks, the views of a track, the tracks of a view, the groups and the views of a group are
listed. -/
structure Orders where
  views : List ViewId → List ViewId
  tracks : List TrackId → List TrackId
  obs : TrackId → List ViewId → List ViewId
  feats : ViewId → List TrackId → List TrackId
  groups : List GroupId → List GroupId
  members : GroupId → List ViewId → List ViewId

/-- The line of a camera in an NVM file (write_nvm_file.cc:86-94). -/
structure NvmCam (K : Type) where
  name : String
  focal : K
  quat : Quat K
  pos : V3 K
  k1 : K
  deriving DecidableEq

/-- One measurement in an NVM file (write_nvm_file.cc:134-135). -/
structure NvmObs (K : Type) where
  view : Nat
  feature : Nat
  x : K
  y : K
  deriving DecidableEq

/-- The line of a point in an NVM file (write_nvm_file.cc:116-137). -/
structure NvmPoint (K : Type) where
  pos : V3 K
  color : Nat × Nat × Nat
  count : Nat
  obs : List (NvmObs K)
  deriving DecidableEq

/-- An NVM file. -/
structure NvmFile (K : Type) where
  numCams : Nat
  cams : List (NvmCam K)
  numPoints : Nat
  points : List (NvmPoint K)
  deriving DecidableEq

section write
variable [Field K] [DecidableEq K]

/-- The map of the features of one view (write_nvm_file.cc:96-102), from index `i` on. -/
def nvmFeatures : List TrackId → Nat → AMap TrackId Nat → AMap TrackId Nat
  | [], _, m => m
  | t :: ts, i, m => nvmFeatures ts (i + 1) (m.insert t i)

/-- The loop over the views (write_nvm_file.cc:71-103). A view without features has no entry in `features`. -/
def nvmViews (quat : M3 K → Quat K) (s : Scene K) (o : Orders) :
    List ViewId → AMap ViewId Nat → AMap ViewId (AMap TrackId Nat) →
      Outcome (List (NvmCam K) × AMap ViewId Nat × AMap ViewId (AMap TrackId Nat))
  | [], index, features => .ok ([], index, features)
  | v :: vs, index, features =>
    match s.recon.view v with
    | none => .ub
    | some V =>
      if (s.cam v).pinhole then do
        let rest ← nvmViews quat s o vs (index.insert v index.size)
          (if V.trackIds = [] then features else features.insert v (nvmFeatures (o.feats v V.trackIds) 0 .empty))
        .ok (⟨V.name, (s.cam v).focal, quat (s.cam v).rot, (s.cam v).pos, (s.cam v).k1⟩ :: rest.1, rest.2)
      else .abort

/-- The measurements of a track (write_nvm_file.cc:121-136), with `FindOrDie` on lines 131-133. -/
def nvmObs (s : Scene K) (index : AMap ViewId Nat) (features : AMap ViewId (AMap TrackId Nat)) (t : TrackId) :
    List ViewId → Outcome (List (NvmObs K))
  | [] => .ok []
  | v :: vs =>
    match s.recon.view v with
    | none => .ub
    | some V =>
      match V.getFeature t with
      | none => .ub
      | some f =>
        match (features.get v).bind (·.get t), index.get v with
        | some i, some n => do
          let rest ← nvmObs s index features t vs
          .ok (⟨n, i, f.1 - (s.cam v).px, f.2 - (s.cam v).py⟩ :: rest)
        | _, _ => .abort

/-- The loop over the tracks (write_nvm_file.cc:109-138). -/
def nvmPoints (s : Scene K) (o : Orders) (index : AMap ViewId Nat) (features : AMap ViewId (AMap TrackId Nat)) :
    List TrackId → Outcome (List (NvmPoint K))
  | [] => .ok []
  | t :: ts =>
    match s.recon.track t with
    | none => .ub
    | some T => do
      let position ← hnormalized T.payload
      let obs ← nvmObs s index features t (o.obs t T.views)
      let rest ← nvmPoints s o index features ts
      .ok (⟨position, T.payload.color, T.views.length, obs⟩ :: rest)

/-- `WriteNVMFile` (write_nvm_file.cc:52-144). -/
def writeNvm (quat : M3 K → Quat K) (s : Scene K) (o : Orders) : Outcome (NvmFile K) := do
  let views ← nvmViews quat s o (o.views s.recon.viewIds) .empty .empty
  let points ← nvmPoints s o views.2.1 views.2.2 (o.tracks s.recon.trackIds)
  .ok ⟨s.recon.viewIds.length, views.1, s.recon.trackIds.length, points⟩

/-! ## Importing NVM files -/

/-- `SetQuaternionRotation` (libraries/visual_sfm/DataInterface.h:183-208). The code divides every component by the norm; the
entries are quadratic, so the square root cancels. -/
def rotationOf (q : Quat K) : M3 K :=
  let n := q.w * q.w + q.x * q.x + q.y * q.y + q.z * q.z
  if n = 0 then M3.one
  else
    ⟨⟨(q.w * q.w + q.x * q.x - q.z * q.z - q.y * q.y) / n, (2 * q.x * q.y - 2 * q.z * q.w) / n, (2 * q.y * q.w + 2 * q.z * q.x) / n⟩,
     ⟨(2 * q.x * q.y + 2 * q.w * q.z) / n, (q.y * q.y + q.w * q.w - q.z * q.z - q.x * q.x) / n, (2 * q.z * q.y - 2 * q.x * q.w) / n⟩,
     ⟨(2 * q.x * q.z - 2 * q.y * q.w) / n, (2 * q.y * q.z + 2 * q.w * q.x) / n, (q.z * q.z + q.w * q.w - q.y * q.y - q.x * q.x) / n⟩⟩

/-- The camera made of one record: `SetCameraCenterAfterRotation` and `GetCameraCenter`
(libraries/visual_sfm/DataInterface.h:280-290, import_nvm_file.cc:104-117). The rest is as in the camera of a new view. -/
def nvmCamera (default : Cam K) (c : NvmCam K) : Cam K :=
  { default with
    pinhole := true
    focal := c.focal
    rot := rotationOf c.quat
    pos := ((rotationOf c.quat).transpose.mulVec ((rotationOf c.quat).mulVec c.pos).neg).neg }

/-- The loop over the cameras (import_nvm_file.cc:91-118). `base` is `GetFilenameFromFilepath`. -/
def importViews (base : String → String) (default : Cam K) : List (NvmCam K) → Loaded K → Outcome (Loaded K)
  | [], s => .ok s
  | c :: cs, s => do
    let res ← s.recon.addView (base c.name)
    match res.1 with
    | none => .abort
    | some v => do
      let r ← res.2.setViewEstimated v true
      importViews base default cs { s with recon := r, cams := s.cams.insert v (nvmCamera default c) }

/-- The loop over the points (import_nvm_file.cc:120-146). A point without measurements is not a key of the map, so `FindOrDie`
aborts. -/
def importPoints : List (NvmPoint K) → Loaded K → Outcome (Loaded K)
  | [], s => .ok s
  | p :: ps, s =>
    if p.obs = [] then .abort
    else do
      let res ← s.recon.addTrack ⟨⟨0, 0, 0⟩, 1, (0, 0, 0)⟩ (p.obs.map fun m => (m.view, (m.x, m.y)))
      match res.1 with
      | none => .abort
      | some t => do
        let r ← res.2.setTrackEstimated t true ⟨p.pos, 1, (p.color.1 % 256, p.color.2.1 % 256, p.color.2.2 % 256)⟩
        importPoints ps { s with recon := r }

/-- `ImportNVMFile` (import_nvm_file.cc:66-149) with `LoadNVM` (libraries/visual_sfm/util.h:58-132), which takes the wrong fields
if a count is not the number of records, and fails for fewer than two cameras or no points. -/
def importNvm (base : String → String) (default : Cam K) (f : NvmFile K) (s : Loaded K) : Outcome (Loaded K) :=
  if f.numCams ≤ 1 then .abort
  else if f.numCams ≠ f.cams.length then .ub
  else if f.numPoints = 0 then .abort
  else if f.numPoints ≠ f.points.length ∨ (∃ p ∈ f.points, p.count ≠ p.obs.length) then .ub
  else do
    let s1 ← importViews base default f.cams s
    importPoints f.points s1

/-! ## COLMAP -/

/-- A line of cameras.txt (write_colmap_files.cc:82-90). -/
structure ColmapCam (K : Type) where
  id : GroupId
  width : Nat
  height : Nat
  focal : K
  px : K
  py : K
  k1 : K
  k2 : K
  deriving DecidableEq

/-- The two lines of an image in images.txt (write_colmap_files.cc:113-125). -/
structure ColmapImage (K : Type) where
  id : ViewId
  quat : Quat K
  trans : V3 K
  camera : GroupId
  name : String
  points : List (K × K × TrackId)
  deriving DecidableEq

/-- A line of points3D.txt (write_colmap_files.cc:143-155). -/
structure ColmapPoint (K : Type) where
  id : TrackId
  pos : V3 K
  color : Nat × Nat × Nat
  track : List (ViewId × Nat)
  deriving DecidableEq

/-- The three files. -/
structure ColmapFiles (K : Type) where
  cameras : List (ColmapCam K)
  images : List (ColmapImage K)
  points : List (ColmapPoint K)
  deriving DecidableEq

/-- `WriteCamerasFile` (write_colmap_files.cc:60-95): the first view of each group, whose set of views is never empty; `none` is the
return of false. -/
def colmapCameras (size : ViewId → Nat × Nat) (s : Scene K) (o : Orders) : List GroupId → Outcome (Option (List (ColmapCam K)))
  | [] => .ok (some [])
  | g :: gs =>
    match o.members g (s.recon.viewsInGroup g) with
    | [] => .ub
    | v :: _ =>
      if s.recon.view v = none then .ub
      else if (s.cam v).pinhole then do
        let rest ← colmapCameras size s o gs
        .ok (rest.map fun l => ⟨g, (size v).1, (size v).2, (s.cam v).focal, (s.cam v).px, (s.cam v).py, (s.cam v).k1,
          (s.cam v).k1⟩ :: l)
      else .ok none

/-- The features of an image (write_colmap_files.cc:119-124). -/
def colmapFeatures (V : View (K × K)) : List TrackId → Outcome (List (K × K × TrackId))
  | [] => .ok []
  | t :: ts =>
    match V.getFeature t with
    | none => .ub
    | some f => do
      let rest ← colmapFeatures V ts
      .ok ((f.1, f.2, t) :: rest)

/-- `WriteImagesFile` (write_colmap_files.cc:97-129). -/
def colmapImages (quat : M3 K → Quat K) (s : Scene K) (o : Orders) : List ViewId → Outcome (List (ColmapImage K))
  | [] => .ok []
  | v :: vs =>
    match s.recon.view v, s.recon.groupOf v with
    | some V, some g => do
      let points ← colmapFeatures V (o.feats v V.trackIds)
      let rest ← colmapImages quat s o vs
      .ok (⟨v, quat (s.cam v).rot, ((s.cam v).rot.mulVec (s.cam v).pos).neg, g, V.name, points⟩ :: rest)
    | _, _ => .ub

/-- The views of a point (write_colmap_files.cc:147-154); `std::find` gives the number of tracks if there is no such track. -/
def colmapTrack (s : Scene K) (o : Orders) (t : TrackId) : List ViewId → Outcome (List (ViewId × Nat))
  | [] => .ok []
  | v :: vs =>
    match s.recon.view v with
    | none => .ub
    | some V => do
      let rest ← colmapTrack s o t vs
      .ok ((v, (o.feats v V.trackIds).idxOf t) :: rest)

/-- `WritePointsFile` (write_colmap_files.cc:131-160). -/
def colmapPoints (s : Scene K) (o : Orders) : List TrackId → Outcome (List (ColmapPoint K))
  | [] => .ok []
  | t :: ts =>
    match s.recon.track t with
    | none => .ub
    | some T => do
      let position ← hnormalized T.payload
      let track ← colmapTrack s o t (o.obs t T.views)
      let rest ← colmapPoints s o ts
      .ok (⟨t, position, T.payload.color, track⟩ :: rest)

/-- `WriteColmapFiles` (write_colmap_files.cc:164-185). `oc` are the orders used while the estimated part is created. -/
def writeColmap (quat : M3 K → Quat K) (size : ViewId → Nat × Nat) (s : Scene K) (oc o : Orders) :
    Outcome (Option (ColmapFiles K)) := do
  let e ← EstimatedPart.create oc.views oc.tracks s.recon
  let cameras ← colmapCameras size { s with recon := e } o (o.groups e.groupIds)
  match cameras with
  | none => .ok none
  | some cameras => do
    let images ← colmapImages quat { s with recon := e } o (o.views e.viewIds)
    let points ← colmapPoints { s with recon := e } o (o.tracks e.trackIds)
    .ok (some ⟨cameras, images, points⟩)

/-! ## PLY -/

/-- A PLY file: the number of vertices in the header and the vertices with their colours. -/
structure PlyFile (K : Type) where
  count : Nat
  vertices : List (V3 K × (Nat × Nat × Nat))
  deriving DecidableEq

/-- The loop that removes tracks (write_ply_file.cc:91-96), over the tracks listed before it. The comparison is of an `int` and
the option. -/
def plyFilter (min : Int) : List TrackId → Reconstruction (K × K) (Point K) → Outcome (Reconstruction (K × K) (Point K))
  | [], r => .ok r
  | t :: ts, r =>
    match r.track t with
    | none => .ub
    | some T =>
      if T.estimated = false ∨ (T.views.length : Int) < min then plyFilter min ts (r.removeTrack t).2
      else plyFilter min ts r

/-- `GatherTracks` (write_ply_file.cc:47-57). -/
def plyTracks (r : Reconstruction (K × K) (Point K)) : List TrackId → Outcome (List (V3 K × (Nat × Nat × Nat)))
  | [] => .ok []
  | t :: ts =>
    match r.track t with
    | none => .ub
    | some T => do
      let position ← hnormalized T.payload
      let rest ← plyTracks r ts
      .ok ((position, T.payload.color) :: rest)

/-- `GatherCameras` (write_ply_file.cc:60-71). -/
def plyCameras (s : Scene K) : List ViewId → Outcome (List (V3 K × (Nat × Nat × Nat)))
  | [] => .ok []
  | v :: vs =>
    match s.recon.view v with
    | none => .ub
    | some V =>
      if V.estimated then do
        let rest ← plyCameras s vs
        .ok (((s.cam v).pos, (0, 255, 0)) :: rest)
      else plyCameras s vs

/-- `WritePlyFile` (write_ply_file.cc:74-120). -/
def writePly (s : Scene K) (min : Int) (o1 o : Orders) : Outcome (PlyFile K) := do
  let r ← plyFilter min (o1.tracks s.recon.trackIds) s.recon
  let points ← plyTracks r (o.tracks r.trackIds)
  let cameras ← plyCameras { s with recon := r } (o.views r.viewIds)
  .ok ⟨(points ++ cameras).length, points ++ cameras⟩

end write

end Export
end Theia
