import Verif.Model.Incremental
import Verif.Model.LinearPosition

/-!
# Model of `HybridReconstructionEstimator`

`/repo/src/theia/sfm/hybrid_reconstruction_estimator.{h,cc}`. The steps it shares word for word with
`IncrementalReconstructionEstimator` (triangulation, outlier removal, choice of views, both bundle adjustments apart from the
constant orientations) are those of `Verif/Model/Incremental.lean`. Line numbers without a file are those of
hybrid_reconstruction_estimator.cc.
-/

namespace Theia
namespace Hybrid

open Incremental (TwoView State Summary)

variable {F P M O X L N W D C : Type}

/-- The numerical parts. `rotations`: the spanning tree and the chosen rotation estimator (lines 316-352), which ends the
program if there is no spanning tree. `angle`: the angle between the principal rays of two cameras (lines 376-390), `none` if
it is not a number. `relativePosition`: `EstimateRelativePoseWithKnownOrientation` on at least one correspondence. `toWorld`:
the transposed rotation applied to a position (line 442). -/
structure Numerics (F P M O X L N W D C : Type) where
  common : Incremental.Numerics F P M O X L N W D C
  rotations : ViewGraph (TwoView O X L) → Outcome (Bool × AMap ViewId O)
  angle : O → M → O → M → Option ℚ
  relativePosition : Nat → O → M → O → M → List (F × F) → Localize.Estimate X
  toWorld : O → X → X

/-- The options that are read. -/
structure Options where
  common : Incremental.Options
  minTwoViewInliers : Int

/-- `constant_camera_orientation` (lines 715, 776): a bundle adjustment leaves the orientations as they are. -/
def constantOrientation (num : Incremental.Numerics F P M O X L N W D C) : Incremental.Numerics F P M O X L N W D C :=
  { num with adjust := fun k scene views tracks =>
      { num.adjust k scene views tracks with orientation := scene.orientation } }

/-- The last loop of `EstimateCameraOrientations` (lines 355-364). -/
def setOrientations : List (ViewId × O) → Localize.Scene F P M O X → Localize.Scene F P M O X
  | [], scene => scene
  | (v, q) :: rest, scene =>
    match scene.recon.view v with
    | none => setOrientations rest scene
    | some V => setOrientations rest (if V.estimated then scene else scene.setOrientation v q)

/-- `EstimateCameraOrientations` (lines 309-367): success, `orientations_` and the scene. -/
def estimateOrientations (num : Numerics F P M O X L N W D C) (g : ViewGraph (TwoView O X L))
    (scene : Localize.Scene F P M O X) : Outcome (Bool × AMap ViewId O × Localize.Scene F P M O X) := do
  let (ok, orientations) ← num.rotations g
  if ok then .ok (decide (0 < orientations.size), orientations, setOrientations orientations.entries scene)
  else .ok (false, orientations, scene)

/-- `std::round(2.0 * std::sqrt(std::min(angle, 45)))` (lines 619-621), for an exact square root: the largest integer that is
at most `2 √a + 1/2`. -/
def bucket (angle : ℚ) : Int := ((Nat.sqrt ⌊16 * min angle 45⌋₊ + 1) / 2 : Nat)

/-- The bucket of the angle of a pair (lines 605-621): zero unless both orientations are known
(`ComputeMedianTriangulationAngle`, lines 369-390). A missing view ends the program (find_common_tracks_in_views.cc:50), and
converting a number that is none to an integer is undefined. -/
def pairAngle (num : Numerics F P M O X L N W D C) (orientations : AMap ViewId O) (scene : Localize.Scene F P M O X)
    (pair : ViewId × ViewId) : Outcome Int :=
  if orientations.contains pair.1 && orientations.contains pair.2 then
    match scene.recon.view pair.1, scene.recon.view pair.2 with
    | some V1, some V2 =>
      match num.angle (scene.orientation pair.1) (scene.heap V1.intrinsics) (scene.orientation pair.2)
          (scene.heap V2.intrinsics) with
      | some a => .ok (bucket a)
      | none => .ub
    | _, _ => .abort
  else .ok (bucket 0)

/-- The loop of `OrderViewPairsByInitializationCriterion` (lines 599-632). -/
def criteria (num : Numerics F P M O X L N W D C) (orientations : AMap ViewId O) (scene : Localize.Scene F P M O X) :
    List ((Nat × Nat) × TwoView O X L) → Outcome (List (Int × Int × (Nat × Nat)))
  | [] => .ok []
  | (pair, info) :: rest => do
    let angle ← pairAngle num orientations scene pair
    let others ← criteria num orientations scene rest
    if (Incremental.minInitialTracks : Int) < info.verifiedMatches then
      .ok ((-angle, -info.verifiedMatches, pair) :: others)
    else .ok others

/-- `OrderViewPairsByInitializationCriterion` (lines 584-642). The second component is a `double` that holds an integer. -/
def candidatePairs (num : Numerics F P M O X L N W D C) (orientations : AMap ViewId O) (g : ViewGraph (TwoView O X L))
    (scene : Localize.Scene F P M O X) : Outcome (List (Nat × Nat)) := do
  let cs ← criteria num orientations scene g.allEdges
  .ok ((cs.insertionSort fun a b => Incremental.criterionLE a b).map (·.2.2))

/-- `FindCommonTracksInViews` for two views (find_common_tracks_in_views.cc:58-86). -/
def commonTracks (V1 V2 : View F) : List TrackId :=
  CommonTracks.setIntersection (V1.trackIds.insertionSort (· ≤ ·)) (V2.trackIds.insertionSort (· ≤ ·))

/-- The loop over the common tracks (lines 472-480); a missing feature is dereferenced. -/
def correspondences (V1 V2 : View F) : List TrackId → Outcome (List (F × F))
  | [] => .ok []
  | t :: ts =>
    match V1.getFeature t, V2.getFeature t with
    | some f1, some f2 => do
      let rest ← correspondences V1 V2 ts
      .ok ((f1, f2) :: rest)
    | _, _ => .ub

/-- Both views are set to estimated (lines 445-446, 514-515). -/
def markPair (pair : ViewId × ViewId) (s : State F P M O X) : Outcome (State F P M O X) := do
  let r ← s.scene.recon.setViewEstimated pair.1 true
  let r ← r.setViewEstimated pair.2 true
  .ok { s with scene := { s.scene with recon := r } }

/-- `InitializeCamerasWithKnownOrientation` (lines 450-518). Estimation from no correspondences ends the program
(sample_consensus_estimator.h:248). The comparison of the last line is unsigned. -/
def initializeKnown (num : Numerics F P M O X L N W D C) (o : Options) (orientations : AMap ViewId O)
    (g : ViewGraph (TwoView O X L)) (pair : ViewId × ViewId) (s : State F P M O X) : Outcome (Bool × State F P M O X) :=
  if !orientations.contains pair.1 && !orientations.contains pair.2 then .ok (false, s)
  else
    match s.scene.recon.view pair.1, s.scene.recon.view pair.2, g.getEdge pair.1 pair.2 with
    | some V1, some V2, some _ => do
      let ms ← correspondences V1 V2 (commonTracks V1 V2)
      if ms = [] then .abort
      else
        let e := num.relativePosition s.clock (s.scene.orientation pair.1) (s.scene.heap V1.intrinsics)
          (s.scene.orientation pair.2) (s.scene.heap V2.intrinsics) ms
        match e.result with
        | none => .ok (false, { s with clock := s.clock + 1 })
        | some x => do
          let s ← markPair pair { s with scene := s.scene.setPosition pair.2 x, clock := s.clock + 1 }
          .ok (Localize.moreThan e.inliers.length o.minTwoViewInliers, s)
    | _, _, _ => .ub

/-- `InitializeCamerasFromTwoViewInfo` (lines 422-448). -/
def initializeTwoView (num : Numerics F P M O X L N W D C) (orientations : AMap ViewId O) (g : ViewGraph (TwoView O X L))
    (pair : ViewId × ViewId) (s : State F P M O X) : Outcome (Bool × State F P M O X) :=
  if !orientations.contains pair.1 then .ok (false, s)
  else
    match s.scene.recon.view pair.1, s.scene.recon.view pair.2, g.getEdge pair.1 pair.2 with
    | some V1, some V2, some info => do
      let m ← (num.common.localization s.clock).setFocal info.focal1 (s.scene.heap V1.intrinsics)
      let scene := s.scene.setHeap V1.intrinsics m
      let scene := scene.setPosition pair.2 (num.toWorld (scene.orientation pair.1) info.position2)
      let m ← (num.common.localization s.clock).setFocal info.focal2 (scene.heap V2.intrinsics)
      let s ← markPair pair { s with scene := scene.setHeap V2.intrinsics m, clock := s.clock + 1 }
      .ok (true, s)
    | _, _, _ => .ub

/-- The two ways to initialise the cameras of a pair (lines 544-547). -/
def setupPair (num : Numerics F P M O X L N W D C) (o : Options) (orientations : AMap ViewId O)
    (g : ViewGraph (TwoView O X L)) (pair : ViewId × ViewId) (s : State F P M O X) : Outcome (Bool × State F P M O X) := do
  let (ok, s) ← initializeKnown num o orientations g pair s
  if ok then .ok (true, s) else initializeTwoView num orientations g pair s

/-- `SetUnderconstrainedAsUnestimated` (lines 849-876): as C28, but over the views of the reconstruction. -/
def cleanup (num : Incremental.Numerics F P M O X L N W D C) (s : State F P M O X) : Outcome (State F P M O X) := do
  let c ← Cleanup.cleanup
    ⟨s.scene.recon, num.order s.clock s.scene.recon.viewIds, s.unlocalized, s.reconstructed, s.numOptimized⟩
  .ok { s with
    scene := { s.scene with recon := c.recon }
    unlocalized := c.unlocalized
    reconstructed := c.reconstructed
    numOptimized := c.numOptimized }

/-- One attempt of `LocalizeView` (lines 289-294 and 300-306); the localisation options are those of lines 126-135. -/
def localizeOnce (num : Incremental.Numerics F P M O X L N W D C) (o : Options) (known : Bool) (v : ViewId)
    (s : State F P M O X) : Outcome (Bool × State F P M O X) := do
  let (ok, scene, _) ← Localize.localize (num.order s.clock) (num.localization s.clock) ⟨known, false, o.common.minInliers⟩ v
    s.scene []
  .ok (ok, { s with scene := scene, clock := s.clock + 1 })

/-- `LocalizeView` (lines 286-307). -/
def localizeView (num : Incremental.Numerics F P M O X L N W D C) (o : Options) (orientations : AMap ViewId O) (v : ViewId)
    (s : State F P M O X) : Outcome (Bool × State F P M O X) :=
  if orientations.contains v then do
    let (ok, s) ← localizeOnce num o true v s
    if ok then .ok (true, s) else localizeOnce num o false v s
  else localizeOnce num o false v s

section
variable [DecidableEq C]

/-- What is done with one candidate pair (lines 537-578); the result says whether it is accepted. -/
def tryPair (num : Numerics F P M O X L N W D C) (o : Options) (orientations : AMap ViewId O) (g : ViewGraph (TwoView O X L))
    (pair : ViewId × ViewId) (s : State F P M O X) : Outcome (Bool × State F P M O X) := do
  let r ← Incremental.setUnestimated s.scene.recon
  let (ready, s) ← setupPair num o orientations g pair { s with scene := { s.scene with recon := r } }
  if ready then do
    let s ← Incremental.estimateStructure num.common o.common pair.1 s
    if (EstimatorUtils.estimatedTracks s.scene.recon).length < Incremental.minInitialTracks then .ok (false, s)
    else do
      let (success, s) ← Incremental.fullBundle (constantOrientation num.common) o.common s
      if success ∧ Incremental.minInitialTracks < (EstimatorUtils.estimatedTracks s.scene.recon).length then
        .ok (true, { s with
          reconstructed := s.reconstructed ++ [pair.1, pair.2]
          unlocalized := s.unlocalized.filter fun v => decide (v ≠ pair.1 ∧ v ≠ pair.2) })
      else .ok (false, s)
  else .ok (false, s)

/-- The loop of `ChooseInitialViewPair` (lines 536-579). -/
def chooseLoop (num : Numerics F P M O X L N W D C) (o : Options) (orientations : AMap ViewId O)
    (g : ViewGraph (TwoView O X L)) : List (ViewId × ViewId) → State F P M O X → Outcome (Bool × State F P M O X)
  | [], s => .ok (false, s)
  | pair :: pairs, s => do
    let (accepted, s) ← tryPair num o orientations g pair s
    if accepted then .ok (true, s) else chooseLoop num o orientations g pairs s

/-- `ChooseInitialViewPair` (lines 520-582). -/
def chooseInitial (num : Numerics F P M O X L N W D C) (o : Options) (orientations : AMap ViewId O)
    (g : ViewGraph (TwoView O X L)) (s : State F P M O X) : Outcome (Bool × State F P M O X) := do
  let pairs ← candidatePairs num orientations g s.scene
  chooseLoop num o orientations g pairs s

/-- What follows a successful localisation (lines 217-265): whether the bundle adjustment succeeded. -/
def addView (num : Incremental.Numerics F P M O X L N W D C) (o : Options) (v : ViewId) (s : State F P M O X) :
    Outcome (Bool × State F P M O X) := do
  let s := { s with
    reconstructed := s.reconstructed ++ [v]
    unlocalized := s.unlocalized.filter fun w => decide (w ≠ v) }
  match s.scene.recon.view v with
  | none => .ub
  | some V => do
    let s ← Incremental.removeOutliers num o.common.triangulationError (num.order s.clock V.trackIds) s
    let (success, s) ← Incremental.extend num o.common v s
    let s ← cleanup num s
    .ok (success, s)

/-- The `for` loop over the candidates (lines 204-267), which goes on after a view was added: the number of failures and
whether every bundle adjustment succeeded. -/
def attempt (num : Incremental.Numerics F P M O X L N W D C) (o : Options) (orientations : AMap ViewId O) :
    List ViewId → State F P M O X → Nat → Outcome (Nat × Bool × State F P M O X)
  | [], s, n => .ok (n, true, s)
  | v :: vs, s, n => do
    let (ok, s) ← localizeView num o orientations v s
    if ok then do
      let (success, s) ← addView num o v s
      if success then attempt num o orientations vs s n else .ok (n, false, s)
    else attempt num o orientations vs s (n + 1)

/-- The `while` loop (lines 188-268): `none` if it has not ended after so many passes, else whether the end was reached
without a failed bundle adjustment. -/
def mainLoop (num : Incremental.Numerics F P M O X L N W D C) (o : Options) (orientations : AMap ViewId O) :
    Nat → State F P M O X → Outcome (Option (Bool × State F P M O X))
  | 0, _ => .ok none
  | k + 1, s =>
    if s.unlocalized = [] then .ok (some (true, s))
    else do
      let views ← Incremental.findViews num s
      let (failed, success, s) ← attempt num o orientations views s 0
      if success then if failed = views.length then .ok (some (true, s)) else mainLoop num o orientations k s
      else .ok (some (false, s))

/-- Steps 2 to 6 of `Estimate` (lines 171-283). -/
def reconstruct (num : Numerics F P M O X L N W D C) (o : Options) (orientations : AMap ViewId O)
    (g : ViewGraph (TwoView O X L)) (fuel : Nat) (s : State F P M O X) : Outcome (Option (Summary × State F P M O X)) := do
  let (ready, s) ← chooseInitial num o orientations g s
  if ready then do
    match ← mainLoop (constantOrientation num.common) o orientations fuel s with
    | none => .ok none
    | some (false, s) => .ok (some (⟨false, [], []⟩, s))
    | some (true, s) => .ok (some (⟨true, SelectTracks.estimatedViews s.scene.recon,
        EstimatorUtils.estimatedTracks s.scene.recon⟩, s))
  else .ok (some (⟨false, [], []⟩, s))

/-- The constructor and `Estimate` (lines 101-284) of a new estimator. `none`: the loop has not ended after `fuel` passes. -/
def estimate (num : Numerics F P M O X L N W D C) (o : Options) (g : ViewGraph (TwoView O X L)) (fuel : Nat)
    (scene : Localize.Scene F P M O X) : Outcome (Option (Summary × State F P M O X)) := do
  let _ ← Incremental.checkOptions o.common
  let queue := Incremental.queueViews scene.recon (num.common.order 0 scene.recon.viewIds) []
  let heap ← num.common.calibrate scene
  let (ok, orientations, scene) ← estimateOrientations num g { scene with heap := heap }
  if ok then reconstruct num o orientations g fuel ⟨scene, queue, [], 0, 1⟩
  else .ok (some (⟨false, [], []⟩, ⟨scene, queue, [], 0, 1⟩))

end
end Hybrid
end Theia
