import Verif.Model.Reconstruction

/-!
# Model of `TrackEstimator` (sfm/estimate_track.{h,cc})

The geometry is an oracle: each test and each computed point is a function of the observations used
and of the point, so of nothing another thread writes. The workers run `EstimateTrack` calls; two
calls on different tracks write different tracks, atomic counters, or the summary under its mutex,
so every execution has the effect of running the calls one after the other in some order. That order,
the schedule, is a parameter.
-/

namespace Theia
namespace TrackEstimator

variable {F P : Type}

/-- What the geometry decides. -/
structure Geometry (F P : Type) where
  /-- `SufficientTriangulationAngle`. -/
  angleOk : List (ViewId × F) → Bool
  /-- `TriangulateMidpoint`: whether it succeeded and the point written. -/
  triangulate : List (ViewId × F) → P → Bool × P
  /-- `BundleAdjustTrack`: whether it succeeded and the point written. -/
  bundle : List (ViewId × F) → P → Bool × P
  /-- `AcceptableReprojectionError`. -/
  acceptable : List (ViewId × F) → P → Bool

/-- The options used (estimate_track.h:51-78). -/
structure Options where
  numThreads : Int
  stepSize : Int
  bundleAdjustment : Bool

/-- The three failure counters are told apart. -/
inductive Result where
  | badAngle
  | failedTriangulation
  | failedBundle
  | badReprojection
  | estimated
  deriving DecidableEq, Repr

/-- `GetObservationsFromTrackViews` (estimate_track.cc:58-85), for the views of the track. A missing
feature is the `CHECK_NOTNULL`. -/
def observations (r : Reconstruction F P) (t : TrackId) :
    List ViewId → Outcome (List (ViewId × F))
  | [] => .ok []
  | v :: vs =>
    match r.view v with
    | none => observations r t vs
    | some view =>
      if view.estimated then
        match view.getFeature t with
        | none => .abort
        | some f =>
          match observations r t vs with
          | .ok os => .ok ((v, f) :: os)
          | .abort => .abort
          | .ub => .ub
      else observations r t vs

/-- The decisions of `EstimateTrack` (estimate_track.cc:223-263) from the observations and the
current point: the result and the point and flag left in the track. -/
def decide' (geo : Geometry F P) (o : Options) (obs : List (ViewId × F)) (p : P) : Result × Bool × P :=
  if obs.length < 2 || !geo.angleOk obs then (.badAngle, false, p)
  else
    let (ok, p) := geo.triangulate obs p
    if !ok then (.failedTriangulation, false, p)
    else
      let (ok, p) := if o.bundleAdjustment then geo.bundle obs p else (true, p)
      if !ok then (.failedBundle, false, p)
      else if !geo.acceptable obs p then (.badReprojection, false, p)
      else (.estimated, true, p)

/-- `EstimateTrack` (estimate_track.cc:205-264). -/
def estimateTrack (geo : Geometry F P) (o : Options) (r : Reconstruction F P) (t : TrackId) :
    Outcome (Result × Reconstruction F P) :=
  match r.track t with
  | none => .ub
  | some tr =>
    if tr.estimated then .abort
    else
      match observations r t tr.views with
      | .abort => .abort
      | .ub => .ub
      | .ok obs =>
        let d := decide' geo o obs tr.payload
        .ok (d.1, { r with tracks := r.tracks.insert t { tr with estimated := d.2.1, payload := d.2.2 } })

/-- The loop of `EstimateTracks` that picks the unestimated tracks (estimate_track.cc:145-151). -/
def toEstimate (r : Reconstruction F P) : List TrackId → Outcome (List TrackId)
  | [] => .ok []
  | t :: ts =>
    match r.track t with
    | none => .ub
    | some tr =>
      match toEstimate r ts with
      | .ok l => .ok (if tr.estimated then l else t :: l)
      | .abort => .abort
      | .ub => .ub

/-- The loop of `EstimateTracks` that cuts the work (estimate_track.cc:173-177) for a positive
step, with `fuel` bounding the number of passes. -/
def chunkLoop (n step : Nat) : Nat → Nat → List (Nat × Nat)
  | 0, _ => []
  | fuel + 1, i => if i < n then (i, min n (i + step)) :: chunkLoop n step fuel (i + step) else []

/-- The chunks (estimate_track.cc:173-177). A zero step never ends. With a negative step the first
chunk is empty and the index, compared as an unsigned number, then ends the loop. -/
def chunks (n : Nat) (step : Int) : Outcome (List (Nat × Nat)) :=
  if step = 0 then .ub
  else if step < 0 then .ok [(0, 0)]
  else .ok (chunkLoop n step.toNat n 0)

/-- The positions `EstimateTrackSet` visits (estimate_track.cc:193). -/
def chunkIndices (c : Nat × Nat) : List Nat := (List.range (c.2 - c.1)).map (c.1 + ·)

/-- All `EstimateTrack` calls, in some order, collecting the tracks estimated
(estimate_track.cc:193-202). -/
def runCalls (geo : Geometry F P) (o : Options) :
    List TrackId → Reconstruction F P → Outcome (List (TrackId × Result) × Reconstruction F P)
  | [], r => .ok ([], r)
  | t :: ts, r =>
    match estimateTrack geo o r t with
    | .abort => .abort
    | .ub => .ub
    | .ok (res, r) =>
      match runCalls geo o ts r with
      | .abort => .abort
      | .ub => .ub
      | .ok (rs, r) => .ok ((t, res) :: rs, r)

/-- The plan of `EstimateTracks` (estimate_track.cc:136-177): the tracks to estimate and the chunks
handed to the pool. Division by zero threads is `ub`; a pool of a negative number of threads aborts. -/
def plan (o : Options) (r : Reconstruction F P) (ids : List TrackId) :
    Outcome (List TrackId × List (Nat × Nat)) :=
  match toEstimate r ids with
  | .abort => .abort
  | .ub => .ub
  | .ok ts =>
    if ts.length = 0 then .ok ([], [])
    else
      let numThreads := min o.numThreads ts.length
      if numThreads = 0 then .ub
      else
        let step := min o.stepSize (Int.tdiv ts.length numThreads)
        if numThreads < 1 then .abort
        else
          match chunks ts.length step with
          | .ok cs => .ok (ts, cs)
          | .abort => .abort
          | .ub => .ub

/-- The `Summary` (estimate_track.h:80-90). -/
structure Summary where
  inputEstimated : Nat
  attempts : Nat
  estimated : List TrackId
  deriving DecidableEq, Repr

/-- `EstimateTracks` (estimate_track.cc:136-189), for the order `schedule` of the positions the
workers visit. An out-of-range position is `ub`. -/
def estimateTracks (geo : Geometry F P) (o : Options) (r : Reconstruction F P) (ids : List TrackId)
    (schedule : List Nat) : Outcome (Summary × Reconstruction F P) :=
  match plan o r ids with
  | .abort => .abort
  | .ub => .ub
  | .ok (ts, _) =>
    match schedule.mapM (fun i => ts[i]?) with
    | none => .ub
    | some calls =>
      match runCalls geo o calls r with
      | .abort => .abort
      | .ub => .ub
      | .ok (rs, r') =>
        .ok (⟨ids.length - ts.length, ts.length,
          (rs.filter (fun x => decide (x.2 = .estimated))).map (·.1)⟩, r')

/-- The loop of `EstimateAllTracks` (estimate_track.cc:122-131). -/
def tracksOfViews (r : Reconstruction F P) : List ViewId → List TrackId → List TrackId
  | [], acc => acc
  | v :: vs, acc =>
    match r.view v with
    | none => tracksOfViews r vs acc
    | some view =>
      if view.estimated then
        tracksOfViews r vs (acc ++ view.trackIds.filter (fun t => decide (t ∉ acc)))
      else tracksOfViews r vs acc

/-- `EstimateAllTracks` (estimate_track.cc:120-134). -/
def estimateAllTracks (geo : Geometry F P) (o : Options) (r : Reconstruction F P)
    (schedule : List Nat) : Outcome (Summary × Reconstruction F P) :=
  estimateTracks geo o r (tracksOfViews r r.viewIds []) schedule

end TrackEstimator
end Theia
