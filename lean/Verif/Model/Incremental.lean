import Verif.Model.Cleanup
import Verif.Model.EstimateTrack
import Verif.Model.EstimatorUtils
import Verif.Model.SelectTracks

/-!
# Model of `IncrementalReconstructionEstimator`

`/repo/src/theia/sfm/incremental_reconstruction_estimator.{h,cc}`, composed of the models of localisation (C50), track
estimation (C19), track selection (C27), outlier removal (C71) and clean-up (C28). The numerical parts are functions in
`Numerics`; those that draw random numbers or depend on a schedule get the number of the call (`clock`). Timings and log
messages are left out.
-/

namespace Theia
namespace Incremental

variable {F P M O X L N W D C : Type}

/-- The part of `TwoViewInfo` that is read. -/
structure TwoView (O X L : Type) where
  verifiedMatches : Int
  homographyInliers : Int
  focal1 : L
  focal2 : L
  rotation2 : O
  position2 : X

/-- What a bundle adjustment returns: success, and new parameters, of which only those of the views and tracks asked for
are used. -/
structure Adjustment (M O X P : Type) where
  success : Bool
  heap : Nat → M
  orientation : ViewId → O
  position : ViewId → X
  point : TrackId → P

/-- The numerical parts and the orders of iteration over hashed containers. `calibrate` is
`SetCameraIntrinsicsFromPriors`: it writes the intrinsics objects (that it also allocates objects for other camera models
is left out, see C55). -/
structure Numerics (F P M O X L N W D C : Type) where
  order : Nat → List Nat → List Nat
  schedule : Nat → List Nat → List Nat
  calibrate : Localize.Scene F P M O X → Outcome (Nat → M)
  localization : Nat → Localize.Numerics F P M O X L N W
  geometry : Nat → Localize.Scene F P M O X → TrackEstimator.Geometry F P
  outliers : Localize.Scene F P M O X → EstimatorUtils.OutlierGeometry F P D
  error : Localize.Scene F P M O X → ViewId → TrackId → ℚ
  cell : F → C
  score : M → List F → Int
  adjust : Nat → Localize.Scene F P M O X → List ViewId → List TrackId → Adjustment M O X P

/-- The options that are read (reconstruction_estimator_options.h). -/
structure Options where
  localizationRatio : ℚ
  growthPercent : ℚ
  partialViews : Int
  minInliers : Int
  numThreads : Int
  bundleAdjustTracks : Bool
  triangulationError : ℚ
  maxError : ℚ
  subsample : Bool
  longTrack : Nat
  minTracks : Int

/-- The estimator and what it works on: `unlocalized_views_`, `reconstructed_views_`, `num_optimized_views_`, the
reconstruction and the number of numerical calls so far. -/
structure State (F P M O X : Type) where
  scene : Localize.Scene F P M O X
  unlocalized : List ViewId
  reconstructed : List ViewId
  numOptimized : Int
  clock : Nat

/-- The checks of the constructor (incremental_reconstruction_estimator.cc:98-105). -/
def checkOptions (o : Options) : Outcome Unit :=
  if o.localizationRatio ≤ 1 ∧ 0 ≤ o.localizationRatio ∧ 0 ≤ o.growthPercent ∧ 0 ≤ o.partialViews then .ok () else .abort

/-- `triangulation_options_` (lines 110-120); the step size is the default (estimate_track.h:77). -/
def trackOptions (o : Options) : TrackEstimator.Options := ⟨o.numThreads, 100, o.bundleAdjustTracks⟩

/-- `localization_options_` (lines 122-130). -/
def localizeOptions (o : Options) : Localize.Options := ⟨false, true, o.minInliers⟩

/-- The first loop of `Estimate` (lines 168-174). -/
def queueViews (r : Reconstruction F P) : List ViewId → List ViewId → List ViewId
  | [], q => q
  | v :: vs, q =>
    match r.view v with
    | none => queueViews r vs q
    | some V => if V.estimated = false ∧ v ∉ q then queueViews r vs (v :: q) else queueViews r vs q

/-- The first loop of `SetReconstructionAsUnestimated` (lines 75-82). -/
def lowerAllTracks : List TrackId → Reconstruction F P → Outcome (Reconstruction F P)
  | [], r => .ok r
  | t :: ts, r =>
    match r.track t with
    | none => .ub
    | some T =>
      if T.estimated then do
        let r ← r.setTrackEstimated t false T.payload
        lowerAllTracks ts r
      else lowerAllTracks ts r

/-- The second loop of `SetReconstructionAsUnestimated` (lines 85-92). -/
def lowerAllViews : List ViewId → Reconstruction F P → Outcome (Reconstruction F P)
  | [], r => .ok r
  | v :: vs, r =>
    match r.view v with
    | none => .ub
    | some V =>
      if V.estimated then do
        let r ← r.setViewEstimated v false
        lowerAllViews vs r
      else lowerAllViews vs r

/-- `SetReconstructionAsUnestimated` (lines 73-92). -/
def setUnestimated (r : Reconstruction F P) : Outcome (Reconstruction F P) := do
  let r ← lowerAllTracks r.trackIds r
  lowerAllViews r.viewIds r

/-- `InitializeCamerasFromTwoViewInfo` (lines 307-327). A missing view or edge is dereferenced. -/
def initializeCameras (num : Numerics F P M O X L N W D C) (g : ViewGraph (TwoView O X L)) (pair : ViewId × ViewId)
    (s : State F P M O X) : Outcome (State F P M O X) :=
  match s.scene.recon.view pair.1, s.scene.recon.view pair.2, g.getEdge pair.1 pair.2 with
  | some V1, some V2, some info => do
    let m ← (num.localization s.clock).setFocal info.focal1 (s.scene.heap V1.intrinsics)
    let scene := s.scene.setHeap V1.intrinsics m
    let scene := (scene.setOrientation pair.2 info.rotation2).setPosition pair.2 info.position2
    let m ← (num.localization s.clock).setFocal info.focal2 (scene.heap V2.intrinsics)
    let scene := scene.setHeap V2.intrinsics m
    let r ← scene.recon.setViewEstimated pair.1 true
    let r ← r.setViewEstimated pair.2 true
    .ok { s with scene := { scene with recon := r }, clock := s.clock + 1 }
  | _, _, _ => .ub

/-- `TrackEstimator::EstimateTracks` (C19) on the tracks `ids`, with the schedule of this call. -/
def triangulate (num : Numerics F P M O X L N W D C) (o : Options) (ids : List TrackId) (s : State F P M O X) :
    Outcome (State F P M O X) := do
  let (_, cs) ← TrackEstimator.plan (trackOptions o) s.scene.recon ids
  let (_, r) ← TrackEstimator.estimateTracks (num.geometry s.clock s.scene) (trackOptions o) s.scene.recon ids
    (num.schedule s.clock (cs.flatMap TrackEstimator.chunkIndices))
  .ok { s with scene := { s.scene with recon := r }, clock := s.clock + 1 }

/-- `EstimateStructure` (lines 460-471). -/
def estimateStructure (num : Numerics F P M O X L N W D C) (o : Options) (v : ViewId) (s : State F P M O X) :
    Outcome (State F P M O X) :=
  match s.scene.recon.view v with
  | none => .ub
  | some V => triangulate num o (num.order s.clock V.trackIds) s

/-- `TrackEstimator::EstimateAllTracks` (lines 266-268). -/
def estimateAll (num : Numerics F P M O X L N W D C) (o : Options) (s : State F P M O X) : Outcome (State F P M O X) :=
  triangulate num o (num.order s.clock (TrackEstimator.tracksOfViews s.scene.recon s.scene.recon.viewIds [])) s

/-- `RemoveOutlierTracks` (lines 597-608). -/
def removeOutliers (num : Numerics F P M O X L N W D C) (maxError : ℚ) (ids : List TrackId) (s : State F P M O X) :
    Outcome (State F P M O X) := do
  let (_, r) ← EstimatorUtils.removeOutliers (num.outliers s.scene) maxError ids s.scene.recon
  .ok { s with scene := { s.scene with recon := r } }

/-- The points written by a bundle adjustment. -/
def setPoints (point : TrackId → P) : List TrackId → Reconstruction F P → Reconstruction F P
  | [], r => r
  | t :: ts, r =>
    match r.track t with
    | none => setPoints point ts r
    | some T => setPoints point ts { r with tracks := r.tracks.insert t { T with payload := point t } }

/-- `BundleAdjustPartialReconstruction` (bundle_adjustment.cc): new parameters for the estimated views and tracks asked
for and for the intrinsics of those views (C29); nothing else changes. -/
def bundleAdjust (num : Numerics F P M O X L N W D C) (views : List ViewId) (tracks : List TrackId) (s : State F P M O X) :
    Bool × State F P M O X :=
  let a := num.adjust s.clock s.scene views tracks
  let estimated := views.filter fun v => (s.scene.recon.view v).any (·.estimated)
  let scene : Localize.Scene F P M O X :=
    { recon := setPoints a.point (tracks.filter fun t => (s.scene.recon.track t).any (·.estimated)) s.scene.recon
      heap := fun i => if estimated.any fun v => (s.scene.recon.view v).any (·.intrinsics == i) then a.heap i
        else s.scene.heap i
      orientation := fun v => if v ∈ estimated then a.orientation v else s.scene.orientation v
      position := fun v => if v ∈ estimated then a.position v else s.scene.position v }
  (a.success, { s with scene := scene, clock := s.clock + 1 })

/-- `UnoptimizedGrowthPercentage() < full_bundle_adjustment_growth_percent` (lines 473-476, 248-249). The difference of the
`size_t` and the `int` is unsigned. Division by zero gives infinity or, without views, not a number: the comparison is
false. -/
def smallGrowth (o : Options) (s : State F P M O X) : Bool :=
  s.numOptimized ≠ 0 &&
    (100 * (((s.reconstructed.length - s.numOptimized) % 2 ^ 64 : Int) : ℚ) / (s.numOptimized : ℚ) < o.growthPercent)

section
variable [DecidableEq C]

/-- The choice of tracks in `FullBundleAdjustment` (lines 493-510). -/
def fullTracks (num : Numerics F P M O X L N W D C) (o : Options) (s : State F P M O X) :
    Outcome (List TrackId × State F P M O X) :=
  if o.subsample then do
    let sel ← SelectTracks.select s.scene.recon (num.error s.scene) num.cell o.longTrack o.minTracks []
    let r ← EstimatorUtils.lowerTracksInViews sel s.reconstructed s.scene.recon
    .ok (sel, { s with scene := { s.scene with recon := r } })
  else .ok (EstimatorUtils.estimatedTracks s.scene.recon, s)

/-- `FullBundleAdjustment` (lines 478-528). -/
def fullBundle (num : Numerics F P M O X L N W D C) (o : Options) (s : State F P M O X) :
    Outcome (Bool × State F P M O X) := do
  let (tracks, s) ← fullTracks num o s
  let (success, s) := bundleAdjust num (SelectTracks.estimatedViews s.scene.recon) tracks s
  let s := { s with numOptimized := (s.reconstructed.length : Int) }
  let s ← removeOutliers num o.maxError (num.order s.clock s.scene.recon.trackIds) s
  .ok (success, s)

/-- The loop over the views in `PartialBundleAdjustment` (lines 575-581). -/
def tracksOf (r : Reconstruction F P) : List ViewId → List TrackId → Outcome (List TrackId)
  | [], acc => .ok acc
  | v :: vs, acc =>
    match r.view v with
    | none => .ub
    | some V => tracksOf r vs (acc ++ V.trackIds.filter fun t => decide (t ∉ acc))

/-- The choice of tracks in `PartialBundleAdjustment` (lines 559-582). -/
def partialTracks (num : Numerics F P M O X L N W D C) (o : Options) (views : List ViewId) (s : State F P M O X) :
    Outcome (List TrackId × State F P M O X) :=
  if o.subsample then do
    let sel ← SelectTracks.selectForViews s.scene.recon (num.error s.scene) num.cell o.longTrack o.minTracks views []
    let r ← EstimatorUtils.lowerTracksInViews sel views s.scene.recon
    .ok (sel, { s with scene := { s.scene with recon := r } })
  else do
    let ts ← tracksOf s.scene.recon views []
    .ok (ts, s)

/-- The views of `PartialBundleAdjustment` (lines 533-535, 551-552): the last ones of `reconstructed_views_`, as a set. A
negative number moves past the end. -/
def lastViews (o : Options) (reconstructed : List ViewId) : Outcome (List ViewId) :=
  if o.partialViews < 0 then .ub
  else .ok (reconstructed.drop (reconstructed.length - min reconstructed.length o.partialViews.toNat)).dedup

/-- `PartialBundleAdjustment` (lines 530-595). -/
def partialBundle (num : Numerics F P M O X L N W D C) (o : Options) (s : State F P M O X) :
    Outcome (Bool × State F P M O X) := do
  let views ← lastViews o s.reconstructed
  let views := num.order s.clock views
  let (tracks, s) ← partialTracks num o views s
  let (success, s) := bundleAdjust num views tracks s
  let s ← removeOutliers num o.maxError (num.order s.clock tracks) s
  .ok (success, s)

/-- `SetUnderconstrainedAsUnestimated` (lines 610-638, C28). -/
def cleanup (num : Numerics F P M O X L N W D C) (g : ViewGraph (TwoView O X L)) (s : State F P M O X) :
    Outcome (State F P M O X) := do
  let c ← Cleanup.cleanup ⟨s.scene.recon, num.order s.clock g.viewIds, s.unlocalized, s.reconstructed, s.numOptimized⟩
  .ok { s with
    scene := { s.scene with recon := c.recon }
    unlocalized := c.unlocalized
    reconstructed := c.reconstructed
    numOptimized := c.numOptimized }

/-- `kMinNumInitialTracks` (line 330). -/
def minInitialTracks : Nat := 100

/-- Comparison of `std::tuple<int, int, ViewIdPair>`. -/
def criterionLE (a b : Int × Int × (Nat × Nat)) : Bool :=
  decide (a.1 < b.1) || (decide (a.1 = b.1) && (decide (a.2.1 < b.2.1) || (decide (a.2.1 = b.2.1) &&
    (decide (a.2.2.1 < b.2.2.1) || (decide (a.2.2.1 = b.2.2.1) && decide (a.2.2.2 ≤ b.2.2.2))))))

/-- `OrderViewPairsByInitializationCriterion` (lines 382-417). -/
def candidatePairs (g : ViewGraph (TwoView O X L)) : List (Nat × Nat) :=
  (((g.allEdges.filter fun e => decide ((minInitialTracks : Int) < e.2.verifiedMatches)).map fun e =>
    (e.2.homographyInliers, -e.2.verifiedMatches, e.1)).insertionSort (fun a b => criterionLE a b)).map (·.2.2)

/-- What is done with one candidate pair (lines 347-378); the result says whether it is accepted. -/
def tryPair (num : Numerics F P M O X L N W D C) (o : Options) (g : ViewGraph (TwoView O X L)) (pair : ViewId × ViewId)
    (s : State F P M O X) : Outcome (Bool × State F P M O X) := do
  let r ← setUnestimated s.scene.recon
  let s ← initializeCameras num g pair { s with scene := { s.scene with recon := r } }
  let s ← estimateStructure num o pair.1 s
  if (EstimatorUtils.estimatedTracks s.scene.recon).length < minInitialTracks then .ok (false, s)
  else do
    let (success, s) ← fullBundle num o s
    if success ∧ minInitialTracks < (EstimatorUtils.estimatedTracks s.scene.recon).length then
      .ok (true, { s with
        reconstructed := s.reconstructed ++ [pair.1, pair.2]
        unlocalized := s.unlocalized.filter fun v => decide (v ≠ pair.1 ∧ v ≠ pair.2) })
    else .ok (false, s)

/-- The loop of `ChooseInitialViewPair` (lines 345-379). -/
def chooseLoop (num : Numerics F P M O X L N W D C) (o : Options) (g : ViewGraph (TwoView O X L)) :
    List (ViewId × ViewId) → State F P M O X → Outcome (Bool × State F P M O X)
  | [], s => .ok (false, s)
  | pair :: pairs, s => do
    let (accepted, s) ← tryPair num o g pair s
    if accepted then .ok (true, s) else chooseLoop num o g pairs s

/-- `ChooseInitialViewPair` (lines 329-380). -/
def chooseInitial (num : Numerics F P M O X L N W D C) (o : Options) (g : ViewGraph (TwoView O X L))
    (s : State F P M O X) : Outcome (Bool × State F P M O X) :=
  chooseLoop num o g (candidatePairs g) s

/-- The features of the estimated tracks of a view (lines 440-446). -/
def seenFeatures (r : Reconstruction F P) (V : View F) : List TrackId → Outcome (List F)
  | [] => .ok []
  | t :: ts =>
    match r.track t with
    | none => .ub
    | some T =>
      if T.estimated then
        match V.getFeature t with
        | none => .ub
        | some f => do
          let fs ← seenFeatures r V ts
          .ok (f :: fs)
      else seenFeatures r V ts

/-- `kMinNumObserved3dPoints` (line 423). -/
def minObserved : Nat := 30

/-- The loop of `FindViewsToLocalize` (lines 430-452). -/
def scoreViews (num : Numerics F P M O X L N W D C) (scene : Localize.Scene F P M O X) :
    List ViewId → Outcome (List (Int × ViewId))
  | [] => .ok []
  | v :: vs =>
    match scene.recon.view v with
    | none => .ub
    | some V => do
      let fs ← seenFeatures scene.recon V V.trackIds
      let rest ← scoreViews num scene vs
      if minObserved ≤ fs.length then .ok ((num.score (scene.heap V.intrinsics) fs, v) :: rest) else .ok rest

/-- `std::greater<std::pair<int, ViewId>>`, or equal. -/
def scoreGE (a b : Int × ViewId) : Bool := decide (b.1 < a.1) || (decide (a.1 = b.1) && decide (b.2 ≤ a.2))

/-- `FindViewsToLocalize` (lines 419-461). -/
def findViews (num : Numerics F P M O X L N W D C) (s : State F P M O X) : Outcome (List ViewId) := do
  let scores ← scoreViews num s.scene (num.order s.clock s.unlocalized)
  .ok ((scores.insertionSort fun a b => scoreGE a b).map (·.2))

/-- Steps 5 and 6 (lines 246-276): triangulation and bundle adjustment after view `v` was added. -/
def extend (num : Numerics F P M O X L N W D C) (o : Options) (v : ViewId) (s : State F P M O X) :
    Outcome (Bool × State F P M O X) :=
  if smallGrowth o s then do
    let s ← estimateStructure num o v s
    partialBundle num o s
  else do
    let s ← estimateAll num o s
    fullBundle num o s

/-- What follows a successful localisation (lines 228-284): whether the bundle adjustment succeeded. -/
def addView (num : Numerics F P M O X L N W D C) (o : Options) (g : ViewGraph (TwoView O X L)) (v : ViewId)
    (s : State F P M O X) : Outcome (Bool × State F P M O X) := do
  let s := { s with
    reconstructed := s.reconstructed ++ [v]
    unlocalized := s.unlocalized.filter fun w => decide (w ≠ v) }
  match s.scene.recon.view v with
  | none => .ub
  | some V => do
    let s ← removeOutliers num o.triangulationError (num.order s.clock V.trackIds) s
    let (success, s) ← extend num o v s
    let s ← cleanup num g s
    .ok (success, s)

/-- The `for` loop over the candidates (lines 216-292): the number of failures, and, if a view was added, whether the
bundle adjustment succeeded. -/
def attempt (num : Numerics F P M O X L N W D C) (o : Options) (g : ViewGraph (TwoView O X L)) :
    List ViewId → State F P M O X → Nat → Outcome (Nat × Option Bool × State F P M O X)
  | [], s, n => .ok (n, none, s)
  | v :: vs, s, n => do
    let (ok, scene, _) ← Localize.localize (num.order s.clock) (num.localization s.clock) (localizeOptions o) v s.scene []
    let s := { s with scene := scene, clock := s.clock + 1 }
    if ok then do
      let (success, s) ← addView num o g v s
      .ok (n, some success, s)
    else attempt num o g vs s (n + 1)

/-- The `while` loop (lines 199-293): `none` if it has not ended after so many passes, else whether the end was reached
without a failed bundle adjustment. -/
def mainLoop (num : Numerics F P M O X L N W D C) (o : Options) (g : ViewGraph (TwoView O X L)) :
    Nat → State F P M O X → Outcome (Option (Bool × State F P M O X))
  | 0, _ => .ok none
  | k + 1, s =>
    if s.unlocalized = [] then .ok (some (true, s))
    else do
      let views ← findViews num s
      let (failed, added, s) ← attempt num o g views s 0
      match added with
      | some false => .ok (some (false, s))
      | _ => if failed = views.length then .ok (some (true, s)) else mainLoop num o g k s

/-- `ReconstructionEstimatorSummary` (reconstruction_estimator.h:49-52). -/
structure Summary where
  success : Bool
  views : List ViewId
  tracks : List TrackId
  deriving DecidableEq, Repr

/-- Steps 1 to 3 of `Estimate` (lines 184-196): an initial pair is chosen if too few tracks are estimated. -/
def initialPair (num : Numerics F P M O X L N W D C) (o : Options) (g : ViewGraph (TwoView O X L))
    (s : State F P M O X) : Outcome (Bool × State F P M O X) :=
  if (EstimatorUtils.numEstimatedTracks s.scene.recon : Int) < o.minInliers ∨
      EstimatorUtils.numEstimatedTracks s.scene.recon < 2 then chooseInitial num o g s
  else .ok (true, s)

/-- The part of `Estimate` after the queue is filled (lines 184-305). -/
def reconstruct (num : Numerics F P M O X L N W D C) (o : Options) (g : ViewGraph (TwoView O X L)) (fuel : Nat)
    (s : State F P M O X) : Outcome (Option (Summary × State F P M O X)) := do
  let (ready, s) ← initialPair num o g s
  if ready then do
    match ← mainLoop num o g fuel s with
    | none => .ok none
    | some (false, s) => .ok (some (⟨false, [], []⟩, s))
    | some (true, s) => .ok (some (⟨true, SelectTracks.estimatedViews s.scene.recon,
        EstimatorUtils.estimatedTracks s.scene.recon⟩, s))
  else .ok (some (⟨false, [], []⟩, s))

/-- The constructor and `Estimate` (lines 96-133, 162-305) of a new estimator. `none`: the loop has not ended after `fuel`
passes. -/
def estimate (num : Numerics F P M O X L N W D C) (o : Options) (g : ViewGraph (TwoView O X L)) (fuel : Nat)
    (scene : Localize.Scene F P M O X) : Outcome (Option (Summary × State F P M O X)) := do
  let _ ← checkOptions o
  let queue := queueViews scene.recon (num.order 0 g.viewIds) []
  let heap ← num.calibrate scene
  reconstruct num o g fuel ⟨{ scene with heap := heap }, queue, [], 0, 1⟩

end
end Incremental
end Theia
