import Verif.Base.Outcome
import Verif.Base.AMap

/-!
# Model of `theia::Reconstruction` (src/theia/sfm/reconstruction.{h,cc})

`F` is the feature type, `P` the payload of a track (point and colour).
Ids are unbounded naturals instead of `uint32_t` (src/theia/sfm/types.h:47-56);
`kInvalidViewId` / `kInvalidTrackId` are `none`.
-/

namespace Theia

abbrev ViewId := Nat
abbrev TrackId := Nat
abbrev GroupId := Nat

/-- `theia::View` (src/theia/sfm/view.h:57-101). Of the camera only the identity of the shared
intrinsics object (`std::shared_ptr<CameraIntrinsicsModel>`) is kept; the pose and the
intrinsics prior are left out (no function modelled here reads them). -/
structure View (F : Type) where
  name : String
  estimated : Bool
  intrinsics : Nat
  features : AMap TrackId F
  deriving DecidableEq, Repr

/-- `theia::Track` (src/theia/sfm/track.h, track.cc:47-90). `views` is the
`std::unordered_set<ViewId>`. -/
structure Track (P : Type) where
  estimated : Bool
  payload : P
  views : List ViewId
  deriving DecidableEq, Repr

/-- `View::AddFeature` (view.cc:99-101): `features_[track_id] = feature`. -/
def View.addFeature {F : Type} (v : View F) (t : TrackId) (f : F) : View F :=
  { v with features := v.features.insert t f }

/-- `View::RemoveFeature` (view.cc:103-105): returns whether something was erased. -/
def View.removeFeature {F : Type} (v : View F) (t : TrackId) : Bool × View F :=
  (v.features.contains t, { v with features := v.features.erase t })

/-- `View::TrackIds` (view.cc:86-93). -/
def View.trackIds {F : Type} (v : View F) : List TrackId := v.features.keys

/-- `View::GetFeature` (view.cc:95-97). -/
def View.getFeature {F : Type} (v : View F) (t : TrackId) : Option F := v.features.get t

/-- `Track::AddView` (track.cc:80-82). -/
def Track.addView {P : Type} (t : Track P) (v : ViewId) : Track P :=
  { t with views := if v ∈ t.views then t.views else t.views ++ [v] }

/-- `Track::RemoveView` (track.cc:84-86). -/
def Track.removeView {P : Type} (t : Track P) (v : ViewId) : Bool × Track P :=
  (decide (v ∈ t.views), { t with views := t.views.filter (fun w => decide (w ≠ v)) })

/-- `theia::Reconstruction` (reconstruction.h:169-180). `nextIntrinsics` is a ghost counter: the
address the allocator hands to the next `make_shared` in the `Camera` constructor. -/
structure Reconstruction (F P : Type) where
  nextTrackId : Nat
  nextViewId : Nat
  nextGroupId : Nat
  names : AMap String ViewId
  views : AMap ViewId (View F)
  tracks : AMap TrackId (Track P)
  viewGroup : AMap ViewId GroupId
  groups : AMap GroupId (List ViewId)
  nextIntrinsics : Nat
  deriving DecidableEq, Repr

namespace Reconstruction

variable {F P : Type}

/-- `Reconstruction::Reconstruction` (reconstruction.cc:82-85). -/
def empty : Reconstruction F P where
  nextTrackId := 0
  nextViewId := 0
  nextGroupId := 0
  names := .empty
  views := .empty
  tracks := .empty
  viewGroup := .empty
  groups := .empty
  nextIntrinsics := 0

/-! ## Queries -/

/-- `ViewIdFromName` (reconstruction.cc:89-91). -/
def viewIdFromName (r : Reconstruction F P) (n : String) : Option ViewId := r.names.get n

/-- `View` (reconstruction.cc:192-194). -/
def view (r : Reconstruction F P) (v : ViewId) : Option (View F) := r.views.get v

/-- `Track` (reconstruction.cc:352-354). -/
def track (r : Reconstruction F P) (t : TrackId) : Option (Track P) := r.tracks.get t

/-- `ViewIds` (reconstruction.cc:200-207). -/
def viewIds (r : Reconstruction F P) : List ViewId := r.views.keys

/-- `TrackIds` (reconstruction.cc:360-367). -/
def trackIds (r : Reconstruction F P) : List TrackId := r.tracks.keys

/-- `NumViews` (reconstruction.cc:190). -/
def numViews (r : Reconstruction F P) : Nat := r.views.size

/-- `NumTracks` (reconstruction.cc:350). -/
def numTracks (r : Reconstruction F P) : Nat := r.tracks.size

/-- `CameraIntrinsicsGroupIdFromViewId` (reconstruction.cc:210-215). -/
def groupOf (r : Reconstruction F P) (v : ViewId) : Option GroupId := r.viewGroup.get v

/-- `GetViewsInCameraIntrinsicGroup` (reconstruction.cc:219-223): the empty set for an unknown
group, exactly as `FindWithDefault(..., std::unordered_set<ViewId>())`. -/
def viewsInGroup (r : Reconstruction F P) (g : GroupId) : List ViewId := (r.groups.get g).getD []

/-- `CameraIntrinsicsGroupIds` (reconstruction.cc:225-233). -/
def groupIds (r : Reconstruction F P) : List GroupId := r.groups.keys

/-! ## Mutators -/

/-- `AddView(name, group)` (reconstruction.cc:99-139). Returns `none` for `kInvalidViewId`.
`abort` is the `FindOrDie` on line 121. -/
def addViewToGroup (r : Reconstruction F P) (name : String) (g : GroupId) :
    Outcome (Option ViewId × Reconstruction F P) :=
  if r.names.contains name then .ok (none, r)
  else if name.isEmpty then .ok (none, r)
  else
    -- line 113: the `View` constructor allocates fresh intrinsics
    let fresh := r.nextIntrinsics
    let r := { r with nextIntrinsics := r.nextIntrinsics + 1 }
    let finish (intr : Nat) : Outcome (Option ViewId × Reconstruction F P) :=
      let newView : View F := ⟨name, false, intr, .empty⟩
      let id := r.nextViewId
      let members := (r.groups.get g).getD []        -- operator[] creates an empty set
      .ok (some id,
        { r with
          views := r.views.emplace id newView
          names := r.names.emplace name id
          viewGroup := r.viewGroup.emplace id g
          groups := r.groups.insert g (if id ∈ members then members else members ++ [id])
          nextViewId := id + 1 })
    match (r.groups.get g).getD [] with
    | [] => finish fresh
    | w :: _ =>
      match r.views.get w with
      | none => .abort
      | some wv => finish wv.intrinsics

/-- `AddView(name)` (reconstruction.cc:93-97): the group counter advances even on failure. -/
def addView (r : Reconstruction F P) (name : String) : Outcome (Option ViewId × Reconstruction F P) :=
  match addViewToGroup r name r.nextGroupId with
  | .ok (id, r') => .ok (id, { r' with nextGroupId := r'.nextGroupId + 1 })
  | .abort => .abort
  | .ub => .ub

/-- Loop of `RemoveTrack` (reconstruction.cc:330-343). -/
def removeTrackLoop (t : TrackId) : List ViewId → Reconstruction F P → Bool × Reconstruction F P
  | [], r => (true, r)
  | v :: vs, r =>
    match r.views.get v with
    | none => (false, r)
    | some view =>
      let res := view.removeFeature t
      if res.1 then removeTrackLoop t vs { r with views := r.views.insert v res.2 }
      else (false, r)

/-- `RemoveTrack` (reconstruction.cc:322-348). -/
def removeTrack (r : Reconstruction F P) (t : TrackId) : Bool × Reconstruction F P :=
  match r.tracks.get t with
  | none => (false, r)
  | some tr =>
    let res := removeTrackLoop t tr.views r
    if res.1 then (true, { res.2 with tracks := res.2.tracks.erase t }) else (false, res.2)

/-- Loop of `RemoveView` (reconstruction.cc:150-168). The result of the nested `RemoveTrack` is
ignored, as on line 166. -/
def removeViewLoop (v : ViewId) : List TrackId → Reconstruction F P → Bool × Reconstruction F P
  | [], r => (true, r)
  | t :: ts, r =>
    match r.tracks.get t with
    | none => (false, r)
    | some tr =>
      let res := tr.removeView v
      if res.1 then
        let r1 := { r with tracks := r.tracks.insert t res.2 }
        if res.2.views.length = 0 then removeViewLoop v ts (removeTrack r1 t).2
        else removeViewLoop v ts r1
      else (false, r)

/-- `RemoveView` (reconstruction.cc:141-188). `abort` is the `FindOrDie` on line 179; on line 176
an unknown view yields `kInvalidCameraIntrinsicsGroupId`, which is never a key, so also abort. -/
def removeView (r : Reconstruction F P) (v : ViewId) : Outcome (Bool × Reconstruction F P) :=
  match r.views.get v with
  | none => .ok (false, r)
  | some view =>
    let res := removeViewLoop v view.trackIds r
    if res.1 then
      let r := res.2
      match r.viewGroup.get v with
      | none => .abort
      | some g =>
        match r.groups.get g with
        | none => .abort
        | some members =>
          let members' := members.filter (fun w => decide (w ≠ v))
          .ok (true,
            { r with
              names := r.names.erase view.name
              viewGroup := r.viewGroup.erase v
              groups := if members'.length = 0 then r.groups.erase g else r.groups.insert g members'
              views := r.views.erase v })
    else .ok (false, res.2)

/-- `AddTrack()` (reconstruction.cc:239-249). `payload` is the default-constructed point and
colour. -/
def addEmptyTrack (r : Reconstruction F P) (payload : P) : Outcome (TrackId × Reconstruction F P) :=
  if r.tracks.contains r.nextTrackId then .abort
  else .ok (r.nextTrackId,
    { r with
      tracks := r.tracks.emplace r.nextTrackId ⟨false, payload, []⟩
      nextTrackId := r.nextTrackId + 1 })

/-- `AddObservation` (reconstruction.cc:251-281). -/
def addObservation (r : Reconstruction F P) (v : ViewId) (t : TrackId) (f : F) :
    Outcome (Bool × Reconstruction F P) :=
  match r.views.get v with
  | none => .abort
  | some view =>
    match r.tracks.get t with
    | none => .abort
    | some tr =>
      if (view.getFeature t).isSome then .ok (false, r)
      else if v ∈ tr.views then .ok (false, r)
      else .ok (true,
        { r with
          views := r.views.insert v (view.addFeature t f)
          tracks := r.tracks.insert t (tr.addView v) })

/-- `DuplicateViewsExistInTrack` (reconstruction.cc:61-71): sort, then look for equal
neighbours. Modelled by the equivalent "some view id occurs twice". -/
def duplicateViewsExist (obs : List (ViewId × F)) : Bool := !decide (obs.map (·.1)).Nodup

/-- Loop of `AddTrack(vector)` (reconstruction.cc:303-315). -/
def addTrackLoop (t : TrackId) :
    List (ViewId × F) → Track P → Reconstruction F P → Outcome (Track P × Reconstruction F P)
  | [], tr, r => .ok (tr, r)
  | (v, f) :: obs, tr, r =>
    match r.views.get v with
    | none => .abort
    | some view =>
      addTrackLoop t obs (tr.addView v) { r with views := r.views.insert v (view.addFeature t f) }

/-- `AddTrack(vector)` (reconstruction.cc:283-320). -/
def addTrack (r : Reconstruction F P) (payload : P) (obs : List (ViewId × F)) :
    Outcome (Option TrackId × Reconstruction F P) :=
  if obs.length < 2 then .ok (none, r)
  else if duplicateViewsExist obs then .ok (none, r)
  else if r.tracks.contains r.nextTrackId then .abort
  else
    match addTrackLoop r.nextTrackId obs ⟨false, payload, []⟩ r with
    | .abort => .abort
    | .ub => .ub
    | .ok (tr, r') =>
      .ok (some r.nextTrackId,
        { r' with
          tracks := r'.tracks.emplace r.nextTrackId tr
          nextTrackId := r'.nextTrackId + 1 })

/-- `MutableView(v)->SetEstimated(b)` (reconstruction.cc:196-198, view.cc:58-60); dereferencing the
null pointer returned for an unknown view is `ub`. -/
def setViewEstimated (r : Reconstruction F P) (v : ViewId) (b : Bool) :
    Outcome (Reconstruction F P) :=
  match r.views.get v with
  | none => .ub
  | some view => .ok { r with views := r.views.insert v { view with estimated := b } }

/-- `MutableTrack(t)->SetEstimated(b)` and `*MutablePoint() = p`
(reconstruction.cc:356-358, track.cc:56-58, 68-70). -/
def setTrackEstimated (r : Reconstruction F P) (t : TrackId) (b : Bool) (p : P) :
    Outcome (Reconstruction F P) :=
  match r.tracks.get t with
  | none => .ub
  | some tr => .ok { r with tracks := r.tracks.insert t { tr with estimated := b, payload := p } }

/-! ## Sub-reconstruction -/

/-- First loop of `GetSubReconstruction` (reconstruction.cc:483-505): copies the views and
collects their tracks. `views_[id] = *view` copies the camera, whose intrinsics pointer is
shared with the source (camera.cc:87-99). -/
def subViewsLoop (r : Reconstruction F P) :
    List ViewId → List TrackId → Reconstruction F P → Outcome (List TrackId × Reconstruction F P)
  | [], ts, sub => .ok (ts, sub)
  | v :: vs, ts, sub =>
    match r.views.get v with
    | none => subViewsLoop r vs ts sub
    | some view =>
      match r.viewGroup.get v with
      | none => .abort
      | some g =>
        let members := (sub.groups.get g).getD []
        subViewsLoop r vs (ts ++ view.trackIds.filter (fun t => decide (t ∉ ts)))
          { sub with
            views := sub.views.insert v view
            names := sub.names.insert view.name v
            viewGroup := sub.viewGroup.insert v g
            groups := sub.groups.insert g (if v ∈ members then members else members ++ [v]) }

/-- `ContainerIntersection` (util/util.h:76-93) of the chosen set and the views of a track. -/
def commonViews (s : List ViewId) (vs : List ViewId) : List ViewId :=
  s.filter (fun v => decide (v ∈ vs))

/-- Second loop of `GetSubReconstruction` (reconstruction.cc:509-536). -/
def subTracksLoop (r : Reconstruction F P) (s : List ViewId) :
    List TrackId → Reconstruction F P → Reconstruction F P
  | [], sub => sub
  | t :: ts, sub =>
    match r.tracks.get t with
    | none => subTracksLoop r s ts sub
    | some tr =>
      let newTrack : Track P :=
        (commonViews s tr.views).foldl Track.addView ⟨tr.estimated, tr.payload, []⟩
      subTracksLoop r s ts { sub with tracks := sub.tracks.emplace t newTrack }

/-- `GetSubReconstruction` (reconstruction.cc:467-537) into the destination `dst`. The ghost
allocator is one per process, so it is beyond the pointers of both objects. -/
def getSubReconstruction (r : Reconstruction F P) (s : List ViewId) (dst : Reconstruction F P) :
    Outcome (Reconstruction F P) :=
  let dst := { dst with
    nextTrackId := r.nextTrackId, nextViewId := r.nextViewId, nextGroupId := r.nextGroupId
    nextIntrinsics := max dst.nextIntrinsics r.nextIntrinsics }
  match subViewsLoop r s [] dst with
  | .ok (ts, sub) => .ok (subTracksLoop r s ts sub)
  | .abort => .abort
  | .ub => .ub

/-! ## Serialisation -/

/-- The fields written by `serialize` (reconstruction.h:158-167): everything except
`next_camera_intrinsics_group_id_`. Cereal archives of the members are assumed to be
lossless; pointer identity of shared intrinsics is restored by cereal's `shared_ptr`
tracking, so the pointer graph is kept. -/
structure Archive (F P : Type) where
  nextTrackId : Nat
  nextViewId : Nat
  names : AMap String ViewId
  views : AMap ViewId (View F)
  tracks : AMap TrackId (Track P)
  viewGroup : AMap ViewId GroupId
  groups : AMap GroupId (List ViewId)
  deriving DecidableEq, Repr

/-- Writing an archive (reconstruction.h:158-167, io/reconstruction_writer.cc). -/
def save (r : Reconstruction F P) : Archive F P :=
  ⟨r.nextTrackId, r.nextViewId, r.names, r.views, r.tracks, r.viewGroup, r.groups⟩

/-- Reading an archive into a default-constructed object (reconstruction.h:158-167,
io/reconstruction_reader.cc): the group counter keeps its initial value 0. `heap` is the
allocator state after reading, beyond every pointer in the archive. -/
def load (a : Archive F P) (heap : Nat) : Reconstruction F P :=
  { nextTrackId := a.nextTrackId
    nextViewId := a.nextViewId
    nextGroupId := 0
    names := a.names
    views := a.views
    tracks := a.tracks
    viewGroup := a.viewGroup
    groups := a.groups
    nextIntrinsics := heap }

/-! ## Histories of calls -/

/-- A call of a mutating member function. -/
inductive Op (F P : Type) where
  | addView (name : String)
  | addViewToGroup (name : String) (g : GroupId)
  | removeView (v : ViewId)
  | addEmptyTrack (payload : P)
  | addTrack (payload : P) (obs : List (ViewId × F))
  | addObservation (v : ViewId) (t : TrackId) (f : F)
  | removeTrack (t : TrackId)
  | setViewEstimated (v : ViewId) (b : Bool)
  | setTrackEstimated (t : TrackId) (b : Bool) (p : P)

/-- What the caller sees. -/
inductive Ret where
  | viewId (v : Option ViewId)
  | trackId (t : Option TrackId)
  | bool (b : Bool)
  | unit
  deriving DecidableEq, Repr

/-- Execute one call. -/
def step (r : Reconstruction F P) : Op F P → Outcome (Ret × Reconstruction F P)
  | .addView n => (r.addView n).bind fun x => .ok (.viewId x.1, x.2)
  | .addViewToGroup n g => (r.addViewToGroup n g).bind fun x => .ok (.viewId x.1, x.2)
  | .removeView v => (r.removeView v).bind fun x => .ok (.bool x.1, x.2)
  | .addEmptyTrack p => (r.addEmptyTrack p).bind fun x => .ok (.trackId (some x.1), x.2)
  | .addTrack p o => (r.addTrack p o).bind fun x => .ok (.trackId x.1, x.2)
  | .addObservation v t f => (r.addObservation v t f).bind fun x => .ok (.bool x.1, x.2)
  | .removeTrack t => .ok (.bool (r.removeTrack t).1, (r.removeTrack t).2)
  | .setViewEstimated v b => (r.setViewEstimated v b).bind fun x => .ok (.unit, x)
  | .setTrackEstimated t b p => (r.setTrackEstimated t b p).bind fun x => .ok (.unit, x)

/-- Execute a sequence of calls, collecting the results. -/
def run : Reconstruction F P → List (Op F P) → Outcome (List Ret × Reconstruction F P)
  | r, [] => .ok ([], r)
  | r, op :: ops =>
    match r.step op with
    | .ok (a, r') =>
      match run r' ops with
      | .ok (as, r'') => .ok (a :: as, r'')
      | .abort => .abort
      | .ub => .ub
    | .abort => .abort
    | .ub => .ub

/-- A reconstruction some history of calls on an empty one produces. -/
def Reachable (r : Reconstruction F P) : Prop :=
  ∃ ops as, run (empty : Reconstruction F P) ops = .ok (as, r)

end Reconstruction
end Theia
