import Verif.Model.Incremental
import Verif.Model.RotationFilters

/-!
# Model of `GlobalReconstructionEstimator`

`/repo/src/theia/sfm/global_reconstruction_estimator.{h,cc}` with `FilterViewPairsFromOrientation`,
`ExtractMaximallyParallelRigidSubgraph` and `FilterViewPairsFromRelativeTranslation` reduced to what they do to the view
graph. It is composed of the models of the view graph (C09-C11), of the helpers of the estimators (C71), of track estimation
(C19), track selection (C27) and clean-up (C28). The numerical parts are functions in `Numerics`. Timings and log messages
are left out.
-/

namespace Theia
namespace Global

open Incremental (TwoView Adjustment Summary)

variable {F P M O X L N W D C E : Type}

/-- The numerical parts and the orders of iteration over hashed containers.
`rotations`: `EstimateGlobalRotations` (lines 320-355), that is the spanning tree and the chosen estimator.
`acceptable`: `AngularDifferenceIsAcceptable` (filter_view_pairs_from_orientation.cc:55-68) for two orientations and the
relative rotation. `optimize`: `OptimizeRelativePositionWithKnownRotation`. `rigid`: the views of the largest rigid component
(extract_maximally_parallel_rigid_subgraph.cc:189-214). `contradicted`: the pairs whose weight exceeds the tolerance
(filter_view_pairs_from_relative_translation.cc:262-303; modelled in `TranslationFilter`). `positions`: `EstimatePosition` (lines 404-436).
`common` holds what the incremental estimator uses too. -/
structure Numerics (F P M O X L N W D C E : Type) where
  common : Incremental.Numerics F P M O X L N W D C
  pairs : Nat → List (Nat × Nat) → List (Nat × Nat)
  rotations : ViewGraph (TwoView O X L) → Outcome (Bool × AMap ViewId O)
  acceptable : O → O → O → Bool
  normalize : Localize.Scene F P M O X → ViewId → F → E
  optimize : List (E × E) → O → O → X → X
  tasks : List (EstimatorUtils.Task O E) → List (EstimatorUtils.Task O E)
  rigid : AMap ViewId O → ViewGraph (TwoView O X L) → List ViewId
  contradicted : AMap ViewId O → ViewGraph (TwoView O X L) → List (Nat × Nat)
  positions : Localize.Scene F P M O X → ViewGraph (TwoView O X L) → AMap ViewId O → Outcome (Bool × AMap ViewId X)
  adjustPositions : Nat → Localize.Scene F P M O X → List ViewId → List TrackId → Adjustment M O X P

/-- The options that are read (reconstruction_estimator_options.h). -/
structure Options where
  minMatches : Int
  rotationTolerance : ℚ
  refineTranslations : Bool
  extractRigid : Bool
  filterTranslations : Bool
  refinePositions : Bool
  retriangulations : Int
  numThreads : Int
  bundleAdjustTracks : Bool
  maxError : ℚ
  subsample : Bool
  longTrack : Nat
  minTracks : Int

/-- The options of the track estimator (lines 438-452); the other fields are not read. -/
def Options.tracks (o : Options) : Incremental.Options where
  localizationRatio := 0
  growthPercent := 0
  partialViews := 0
  minInliers := 0
  numThreads := o.numThreads
  bundleAdjustTracks := o.bundleAdjustTracks
  triangulationError := 0
  maxError := o.maxError
  subsample := o.subsample
  longTrack := o.longTrack
  minTracks := o.minTracks

/-- The estimator and what it works on: the view graph, the reconstruction, `orientations_`, `positions_` and the number of
numerical calls so far. -/
structure State (F P M O X L : Type) where
  graph : ViewGraph (TwoView O X L)
  scene : Localize.Scene F P M O X
  orientations : AMap ViewId O
  positions : AMap ViewId X
  clock : Nat

/-- `FilterInitialViewGraph` (lines 297-314). -/
def filterInitial (num : Numerics F P M O X L N W D C E) (o : Options) (g : ViewGraph (TwoView O X L)) :
    Outcome (Bool × ViewGraph (TwoView O X L)) := do
  let weak := (g.allEdges.filter fun e => decide (e.2.verifiedMatches < o.minMatches)).map (·.1)
  let (g, _) ← (RotationFilters.removeAll (num.pairs 0 weak) g).removeDisconnected
  .ok (decide (1 ≤ g.numEdges), g)

/-- Whether a pair is removed (filter_view_pairs_from_orientation.cc:86-114). -/
def badRotation (num : Numerics F P M O X L N W D C E) (orientations : AMap ViewId O)
    (e : (Nat × Nat) × TwoView O X L) : Bool :=
  match orientations.get e.1.1, orientations.get e.1.2 with
  | some o1, some o2 => !num.acceptable o1 o2 e.2.rotation2
  | _, _ => true

/-- The loops that erase orientations (lines 367-369, 399-401). -/
def eraseAll (removed : List ViewId) (orientations : AMap ViewId O) : AMap ViewId O :=
  removed.foldl (fun m v => m.erase v) orientations

/-- `FilterRotations` (lines 357-370). -/
def filterRotations (num : Numerics F P M O X L N W D C E) (o : Options) (orientations : AMap ViewId O)
    (g : ViewGraph (TwoView O X L)) : Outcome (ViewGraph (TwoView O X L) × AMap ViewId O) :=
  if o.rotationTolerance < 0 then .abort
  else do
    let bad := (g.allEdges.filter (badRotation num orientations)).map (·.1)
    let (g, removed) ← (RotationFilters.removeAll (num.pairs 1 bad) g).removeDisconnected
    .ok (g, eraseAll removed orientations)

/-- `OptimizePairwiseTranslations` (lines 372-379). -/
def optimizeTranslations (num : Numerics F P M O X L N W D C E) (o : Options) (scene : Localize.Scene F P M O X)
    (orientations : AMap ViewId O) (g : ViewGraph (TwoView O X L)) : Outcome (ViewGraph (TwoView O X L)) :=
  if o.refineTranslations then
    EstimatorUtils.refine num.tasks (fun ms o1 o2 i => { i with position2 := num.optimize ms o1 o2 i.position2 }) scene.recon
      (num.normalize scene) orientations o.numThreads g
  else .ok g

/-- The last loop of `ExtractMaximallyParallelRigidSubgraph` (extract_maximally_parallel_rigid_subgraph.cc:217-227). -/
def keepRigid (keep : List ViewId) : List ViewId → ViewGraph (TwoView O X L) → Outcome (ViewGraph (TwoView O X L))
  | [], g => .ok g
  | v :: vs, g =>
    if v ∉ keep ∧ g.hasView v then
      match g.removeView v with
      | (true, g) => keepRigid keep vs g
      | (false, _) => .abort
    else keepRigid keep vs g

/-- `ExtractMaximallyParallelRigidSubgraph` (extract_maximally_parallel_rigid_subgraph.cc:172-228). Every pair needs two
orientations (`FindOrDie`, lines 68 and 77-79), and every orientation a view of the graph (line 218). -/
def extractRigid (num : Numerics F P M O X L N W D C E) (orientations : AMap ViewId O) (g : ViewGraph (TwoView O X L)) :
    Outcome (ViewGraph (TwoView O X L)) :=
  if g.allEdges.any fun e => !(orientations.contains e.1.1 && orientations.contains e.1.2) then .abort
  else if orientations.keys.any fun v => !g.hasView v then .abort
  else keepRigid (num.rigid orientations g) orientations.keys g

/-- The first part of `FilterRelativeTranslation` (lines 382-387). -/
def rigidPart (num : Numerics F P M O X L N W D C E) (o : Options) (orientations : AMap ViewId O)
    (g : ViewGraph (TwoView O X L)) : Outcome (ViewGraph (TwoView O X L)) :=
  if o.extractRigid then extractRigid num orientations g else .ok g

/-- The second part of `FilterRelativeTranslation` (lines 390-394). Every pair needs an orientation of its first view
(`FindOrDie`, filter_view_pairs_from_relative_translation.cc:77). -/
def translationPart (num : Numerics F P M O X L N W D C E) (o : Options) (orientations : AMap ViewId O)
    (g : ViewGraph (TwoView O X L)) : Outcome (ViewGraph (TwoView O X L)) :=
  if o.filterTranslations then
    if g.allEdges.any fun e => !orientations.contains e.1.1 then .abort
    else .ok (RotationFilters.removeAll (num.contradicted orientations g) g)
  else .ok g

/-- `FilterRelativeTranslation` (lines 381-402). -/
def filterTranslations (num : Numerics F P M O X L N W D C E) (o : Options) (orientations : AMap ViewId O)
    (g : ViewGraph (TwoView O X L)) : Outcome (ViewGraph (TwoView O X L) × AMap ViewId O) := do
  let g ← rigidPart num o orientations g
  let g ← translationPart num o orientations g
  let (g, removed) ← g.removeDisconnected
  .ok (g, eraseAll removed orientations)

/-- Steps 4 to 6 of `Estimate` (lines 178-197). -/
def filterPairs (num : Numerics F P M O X L N W D C E) (o : Options) (scene : Localize.Scene F P M O X)
    (orientations : AMap ViewId O) (g : ViewGraph (TwoView O X L)) :
    Outcome (ViewGraph (TwoView O X L) × AMap ViewId O) := do
  let (g, orientations) ← filterRotations num o orientations g
  let g ← optimizeTranslations num o scene orientations g
  filterTranslations num o orientations g

/-- Steps 1 to 7 of `Estimate` (lines 137-222): whether the poses were estimated. -/
def poses (num : Numerics F P M O X L N W D C E) (o : Options) (s : State F P M O X L) :
    Outcome (Bool × State F P M O X L) := do
  let (ok, g) ← filterInitial num o s.graph
  if ok then do
    let heap ← num.common.calibrate s.scene
    let scene := { s.scene with heap := heap }
    let (ok, orientations) ← num.rotations g
    if ok then do
      let (g, orientations) ← filterPairs num o scene orientations g
      let (ok, positions) ← num.positions scene g orientations
      if ok then do
        let scene ← EstimatorUtils.setPoses orientations positions.entries scene
        .ok (true, ⟨g, scene, orientations, positions, s.clock⟩)
      else .ok (false, ⟨g, scene, orientations, positions, s.clock⟩)
    else .ok (false, { s with graph := g, scene := scene, orientations := orientations })
  else .ok (false, { s with graph := g })

section
variable [DecidableEq C]

/-- The choice of tracks in `BundleAdjustment` (lines 459-480). -/
def chooseTracks (num : Numerics F P M O X L N W D C E) (o : Options) (s : Incremental.State F P M O X) :
    Outcome (List TrackId × Incremental.State F P M O X) :=
  if o.subsample then do
    let sel ← SelectTracks.select s.scene.recon (num.common.error s.scene) num.common.cell o.longTrack o.minTracks []
    let r ← EstimatorUtils.lowerTracksInViews sel s.scene.recon.viewIds s.scene.recon
    .ok (sel, { s with scene := { s.scene with recon := r } })
  else .ok (EstimatorUtils.estimatedTracks s.scene.recon, s)

/-- `BundleAdjustment` (lines 454-492). -/
def bundle (num : Numerics F P M O X L N W D C E) (o : Options) (s : Incremental.State F P M O X) :
    Outcome (Bool × Incremental.State F P M O X) := do
  let (tracks, s) ← chooseTracks num o s
  .ok (Incremental.bundleAdjust num.common (SelectTracks.estimatedViews s.scene.recon) tracks s)

/-- The choice of tracks in `BundleAdjustCameraPositionsAndPoints` (lines 501-514). -/
def tracksForPositions (num : Numerics F P M O X L N W D C E) (o : Options) (s : Incremental.State F P M O X) :
    Outcome (List TrackId) :=
  if o.subsample then
    SelectTracks.select s.scene.recon (num.common.error s.scene) num.common.cell o.longTrack o.minTracks []
  else .ok (EstimatorUtils.estimatedTracks s.scene.recon)

/-- `BundleAdjustCameraPositionsAndPoints` (lines 494-527): orientations and intrinsics are constant; the value returned is
not used (line 244). -/
def bundlePositions (num : Numerics F P M O X L N W D C E) (o : Options) (s : Incremental.State F P M O X) :
    Outcome (Incremental.State F P M O X) := do
  let tracks ← tracksForPositions num o s
  let views := SelectTracks.estimatedViews s.scene.recon
  let a := num.adjustPositions s.clock s.scene views tracks
  .ok { s with
    scene := { s.scene with
      recon := Incremental.setPoints a.point (tracks.filter fun t => (s.scene.recon.track t).any (·.estimated)) s.scene.recon
      position := fun v => if v ∈ views then a.position v else s.scene.position v }
    clock := s.clock + 1 }

/-- The adjustment of the positions in the first round (lines 239-246). -/
def firstBundle (num : Numerics F P M O X L N W D C E) (o : Options) (first : Bool) (s : Incremental.State F P M O X) :
    Outcome (Incremental.State F P M O X) :=
  if first && o.refinePositions then bundlePositions num o s else .ok s

/-- `SetUnderconstrainedAsUnestimated` (lines 96-105): the same loop as in the incremental estimator (C28). -/
def cleanup (s : Incremental.State F P M O X) : Outcome (Incremental.State F P M O X) := do
  let (_, _, r) ← Cleanup.loop (s.scene.recon.viewIds.length + 1) s.scene.recon
  .ok { s with scene := { s.scene with recon := r } }

/-- One pass of the loop (lines 228-264): whether the bundle adjustment succeeded. -/
def round (num : Numerics F P M O X L N W D C E) (o : Options) (first : Bool) (s : Incremental.State F P M O X) :
    Outcome (Bool × Incremental.State F P M O X) := do
  let s ← Incremental.estimateAll num.common o.tracks s
  let s ← cleanup s
  let s ← firstBundle num o first s
  let (ok, s) ← bundle num o s
  if ok then do
    let s ← Incremental.removeOutliers num.common o.maxError (num.common.order s.clock s.scene.recon.trackIds) s
    .ok (true, s)
  else .ok (false, s)

/-- The loop (lines 227-264). -/
def rounds (num : Numerics F P M O X L N W D C E) (o : Options) :
    Nat → Bool → Incremental.State F P M O X → Outcome (Bool × Incremental.State F P M O X)
  | 0, _, s => .ok (true, s)
  | n + 1, first, s => do
    let (ok, s) ← round num o first s
    if ok then rounds num o n false s else .ok (false, s)

/-- `Estimate` (lines 137-295) of a new estimator. -/
def estimate (num : Numerics F P M O X L N W D C E) (o : Options) (g : ViewGraph (TwoView O X L))
    (scene : Localize.Scene F P M O X) : Outcome (Summary × State F P M O X L) := do
  let (ok, s) ← poses num o ⟨g, scene, .empty, .empty, 0⟩
  if ok then do
    let (ok, w) ← rounds num o (o.retriangulations + 1).toNat true ⟨s.scene, [], [], 0, s.clock⟩
    if ok then
      .ok (⟨true, SelectTracks.estimatedViews w.scene.recon, EstimatorUtils.estimatedTracks w.scene.recon⟩,
        { s with scene := w.scene, clock := w.clock })
    else .ok (⟨false, [], []⟩, { s with scene := w.scene, clock := w.clock })
  else .ok (⟨false, [], []⟩, s)

end
end Global
end Theia
