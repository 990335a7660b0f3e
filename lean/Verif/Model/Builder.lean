import Verif.Model.Localize
import Verif.Model.TrackBuilder
import Verif.Model.ViewGraph

/-!
# Model of `ReconstructionBuilder` (src/theia/sfm/reconstruction_builder.{h,cc})

The estimator is a parameter, as are `SwapCameras` (modelled in `TwoViewInfo`) and the contents of the database. Of the
priors only whether the focal length is set is kept. Log messages are left out.
-/

namespace Theia
namespace Builder

variable {F P M O X I : Type}

/-- The options that are read (reconstruction_builder.h:59-139). -/
structure Options where
  onlyCalibrated : Bool
  largestOnly : Bool

/-- The members (reconstruction_builder.h:200-216). `calibrated` is `CameraIntrinsicsPrior().focal_length.is_set` of each view;
`tracks` is none and `extractor` false if the pointer is null. -/
structure State (F P M O X I : Type) where
  scene : Localize.Scene F P M O X
  graph : ViewGraph I
  calibrated : ViewId → Bool
  tracks : Option (TrackBuilder F)
  extractor : Bool

/-- The constructor with a database (lines 162-203), after its `CHECK` of the number of threads. -/
def create (heap : Nat → M) (orientation : ViewId → O) (position : ViewId → X) (minLength maxLength : Nat) :
    Outcome (State F P M O X I) :=
  match TrackBuilder.create minLength maxLength with
  | .abort => .abort
  | .ub => .ub
  | .ok b => .ok ⟨⟨.empty, heap, orientation, position⟩, ⟨.empty, .empty⟩, fun _ => false, some b, true⟩

/-- The constructor with a reconstruction and a view graph (lines 151-160). -/
def createFrom (scene : Localize.Scene F P M O X) (graph : ViewGraph I) (calibrated : ViewId → Bool) : State F P M O X I :=
  ⟨scene, graph, calibrated, none, false⟩

/-- The new view in `AddViewToReconstruction` (lines 71-75). -/
def newView (r : Reconstruction F P) (name : String) : Option GroupId → Outcome (Option ViewId × Reconstruction F P)
  | none => r.addView name
  | some g => r.addViewToGroup name g

/-- `AddImage` and `AddImageWithCameraIntrinsicsPrior` (lines 62-89, 207-244). `name` is none if no name of a file can be taken
from the path; `prior` is whether the prior given, if any, has a focal length. The extractor always accepts the image. -/
def addImage (s : State F P M O X I) (name : Option String) (group : Option GroupId) (prior : Option Bool) :
    Outcome (Bool × State F P M O X I) :=
  match name with
  | none => .abort
  | some n =>
    match newView s.scene.recon n group with
    | .abort => .abort
    | .ub => .ub
    | .ok (none, r) => .ok (false, { s with scene := { s.scene with recon := r } })
    | .ok (some v, r) =>
      if s.extractor then
        .ok (true, { s with
          scene := { s.scene with recon := r }
          calibrated := fun w => if w = v then prior.getD false else s.calibrated w })
      else .ub

/-- The information about a pair that `AddMatchToViewGraph` stores (lines 424-427). -/
def orientedInfo (swap : I → Outcome I) (a b : ViewId) (info : I) : Outcome I := if b < a then swap info else .ok info

/-- `AddTracksForMatch` (lines 432-439). -/
def addTracks [DecidableEq F] (a b : ViewId) (features : List (F × F)) (tracks : Option (TrackBuilder F)) :
    Outcome (Option (TrackBuilder F)) :=
  match features, tracks with
  | [], t => .ok t
  | _ :: _, none => .ub
  | fs, some t =>
    match t.addAll (fs.map fun f => ((a, f.1), (b, f.2))) with
    | .abort => .abort
    | .ub => .ub
    | .ok t => .ok (some t)

/-- `AddTwoViewMatch` (lines 317-348). -/
def addMatch [DecidableEq F] (swap : I → Outcome I) (o : Options) (s : State F P M O X I) (name1 name2 : String) (info : I)
    (features : List (F × F)) : Outcome (State F P M O X I) :=
  match s.scene.recon.viewIdFromName name1, s.scene.recon.viewIdFromName name2 with
  | some a, some b =>
    if o.onlyCalibrated && (!s.calibrated a || !s.calibrated b) then .ok s
    else
      match orientedInfo swap a b info with
      | .abort => .abort
      | .ub => .ub
      | .ok info =>
        match addTracks a b features s.tracks with
        | .abort => .abort
        | .ub => .ub
        | .ok t => .ok { s with graph := s.graph.addEdge a b info, tracks := t }
  | _, _ => .abort

/-- The loop over the priors in `ExtractAndMatchFeatures` (lines 284-295). -/
def addPriors : List (String × Bool) → State F P M O X I → Outcome (State F P M O X I)
  | [], s => .ok s
  | (n, b) :: ps, s =>
    match s.scene.recon.viewIdFromName n with
    | none => .ub
    | some v => addPriors ps { s with calibrated := fun w => if w = v then b else s.calibrated w }

/-- The loop over the matches in `ExtractAndMatchFeatures` (lines 304-312). -/
def addMatches [DecidableEq F] (swap : I → Outcome I) (o : Options) :
    List (String × String × I × List (F × F)) → State F P M O X I → Outcome (State F P M O X I)
  | [], s => .ok s
  | (n1, n2, info, fs) :: ms, s =>
    match addMatch swap o s n1 n2 info fs with
    | .abort => .abort
    | .ub => .ub
    | .ok s => addMatches swap o ms s

/-- `ExtractAndMatchFeatures` (lines 264-315): `priors` and `found` are what the database holds afterwards. The pointer to the
extractor is released. -/
def extractAndMatch [DecidableEq F] (swap : I → Outcome I) (o : Options) (priors : List (String × Bool))
    (found : List (String × String × I × List (F × F))) (s : State F P M O X I) : Outcome (State F P M O X I) :=
  if s.graph.numViews = 0 then
    if s.extractor then
      match addPriors priors { s with extractor := false } with
      | .abort => .abort
      | .ub => .ub
      | .ok s => addMatches swap o found s
    else .ub
  else .abort

/-! ### `BuildReconstruction` -/

/-- The loops over views that remove some from the reconstruction, and from the view graph if `both`
(lines 95-105, 123-134, 247-254). The values returned are not used. A null pointer is skipped if `checked`. -/
def removeViews (both checked : Bool) (bad : ViewId → View F → Bool) :
    List ViewId → Reconstruction F P → ViewGraph I → Outcome (Reconstruction F P × ViewGraph I)
  | [], r, g => .ok (r, g)
  | v :: vs, r, g =>
    match r.view v with
    | none => if checked then removeViews both checked bad vs r g else .ub
    | some V =>
      if bad v V then
        match r.removeView v with
        | .abort => .abort
        | .ub => .ub
        | .ok (_, r) => removeViews both checked bad vs r (if both then (g.removeView v).2 else g)
      else removeViews both checked bad vs r g

/-- The loops over tracks that remove some (lines 107-117, 136-146). -/
def removeTracks (bad : Track P → Bool) : List TrackId → Reconstruction F P → Reconstruction F P
  | [], r => r
  | t :: ts, r =>
    match r.track t with
    | none => removeTracks bad ts r
    | some T => if bad T then removeTracks bad ts (r.removeTrack t).2 else removeTracks bad ts r

/-- `CreateEstimatedSubreconstruction` (lines 91-119). `order` is how the unordered maps list their keys. -/
def estimatedPart (order : List Nat → List Nat) (g : ViewGraph I) (r : Reconstruction F P) : Outcome (Reconstruction F P) :=
  match removeViews false true (fun _ V => !V.estimated) (order r.viewIds) r g with
  | .abort => .abort
  | .ub => .ub
  | .ok (r, _) => .ok (removeTracks (fun T => !T.estimated) (order r.trackIds) r)

/-- `RemoveEstimatedViewsAndTracks` (lines 121-147). -/
def removeEstimated (order : List Nat → List Nat) (r : Reconstruction F P) (g : ViewGraph I) :
    Outcome (Reconstruction F P × ViewGraph I) :=
  match removeViews true true (fun _ V => V.estimated) (order r.viewIds) r g with
  | .abort => .abort
  | .ub => .ub
  | .ok (r, g) => .ok (removeTracks (fun T => T.estimated) (order r.trackIds) r, g)

/-- `RemoveUncalibratedViews` (lines 246-255). -/
def removeUncalibrated (order : List Nat → List Nat) (calibrated : ViewId → Bool) (r : Reconstruction F P) (g : ViewGraph I) :
    Outcome (Reconstruction F P × ViewGraph I) := removeViews true false (fun v _ => !calibrated v) (order r.viewIds) r g

/-- An estimator: the first argument is the number of the call, the first result `summary.success`. -/
abbrev Estimator (F P M O X I : Type) :=
  Nat → ViewGraph I → Localize.Scene F P M O X → Outcome (Bool × ViewGraph I × Localize.Scene F P M O X)

/-- A reconstruction put in the result. Its views have copies of the poses but share the intrinsics objects
(camera.cc:78-88); `intrinsics` are their contents at that time. -/
structure Output (F P M O X : Type) where
  recon : Reconstruction F P
  orientation : ViewId → O
  position : ViewId → X
  intrinsics : Nat → M

/-- One pass of the loop up to line 398: none if the estimation failed. -/
def pass (order : List Nat → List Nat) (est : Estimator F P M O X I) (k : Nat) (s : State F P M O X I) :
    Outcome (Option (Output F P M O X) × State F P M O X I) := do
  let (ok, g, scene) ← est k s.graph s.scene
  if ok then do
    let part ← estimatedPart order g scene.recon
    let (r, g) ← removeEstimated order scene.recon g
    .ok (some ⟨part, scene.orientation, scene.position, scene.heap⟩, { s with scene := { scene with recon := r }, graph := g })
  else .ok (none, { s with scene := scene, graph := g })

/-- The loop of `BuildReconstruction` (lines 367-414) with the reconstructions so far: none if the fuel is spent. -/
def loop (order : List Nat → List Nat) (est : Estimator F P M O X I) (o : Options) :
    Nat → Nat → State F P M O X I → List (Output F P M O X) →
    Outcome (Option (Bool × List (Output F P M O X) × State F P M O X I))
  | 0, _, _, _ => .ok none
  | fuel + 1, k, s, out =>
    if s.scene.recon.numViews > 1 then
      match pass order est k s with
      | .abort => .abort
      | .ub => .ub
      | .ok (none, s) => .ok (some (decide (out.length > 0), out, s))
      | .ok (some x, s) =>
        if o.largestOnly then .ok (some (decide ((out ++ [x]).length > 0), out ++ [x], s))
        else if s.scene.recon.numViews < 3 then .ok (some (decide ((out ++ [x]).length > 0), out ++ [x], s))
        else loop order est o fuel (k + 1) s (out ++ [x])
    else .ok (some (true, out, s))

/-- The tracks (lines 356-359); `p` is the point of a new track. -/
def buildTracks [DecidableEq F] (p : P) (s : State F P M O X I) : Outcome (State F P M O X I) :=
  if s.scene.recon.numTracks = 0 then
    match s.tracks with
    | none => .ub
    | some t =>
      match t.buildTracks p s.scene.recon with
      | .abort => .abort
      | .ub => .ub
      | .ok r => .ok { s with scene := { s.scene with recon := r } }
  else .ok s

/-- The removal of uncalibrated views (lines 361-365). -/
def calibratedOnly (order : List Nat → List Nat) (o : Options) (s : State F P M O X I) : Outcome (State F P M O X I) :=
  if o.onlyCalibrated then
    match removeUncalibrated order s.calibrated s.scene.recon s.graph with
    | .abort => .abort
    | .ub => .ub
    | .ok (r, g) => .ok { s with scene := { s.scene with recon := r }, graph := g }
  else .ok s

/-- `BuildReconstruction` up to the loop (lines 350-365). -/
def prepare [DecidableEq F] (order : List Nat → List Nat) (o : Options) (p : P) (s : State F P M O X I) : Outcome (State F P M O X I) :=
  if s.graph.numViews < 2 then .abort
  else do
    let s ← buildTracks p s
    calibratedOnly order o s

/-- `BuildReconstruction` (lines 350-415); `given` are the reconstructions the vector holds already. -/
def build [DecidableEq F] (order : List Nat → List Nat) (est : Estimator F P M O X I) (o : Options) (p : P) (fuel : Nat)
    (s : State F P M O X I) (given : List (Output F P M O X)) : Outcome (Option (Bool × List (Output F P M O X) × State F P M O X I)) := do
  let s ← prepare order o p s
  loop order est o fuel 0 s given

/-- The calls that fill the builder. -/
inductive Op (F I : Type) where
  | image (name : Option String) (group : Option GroupId) (prior : Option Bool)
  | matched (name1 name2 : String) (info : I) (features : List (F × F))
  | extract (priors : List (String × Bool)) (found : List (String × String × I × List (F × F)))

/-- One call. -/
def step [DecidableEq F] (swap : I → Outcome I) (o : Options) (s : State F P M O X I) : Op F I → Outcome (State F P M O X I)
  | .image n g b =>
    match addImage s n g b with
    | .abort => .abort
    | .ub => .ub
    | .ok (_, s) => .ok s
  | .matched n1 n2 i fs => addMatch swap o s n1 n2 i fs
  | .extract ps ms => extractAndMatch swap o ps ms s

/-- A history of calls. -/
def fill [DecidableEq F] (swap : I → Outcome I) (o : Options) : List (Op F I) → State F P M O X I → Outcome (State F P M O X I)
  | [], s => .ok s
  | op :: ops, s =>
    match step swap o s op with
    | .abort => .abort
    | .ub => .ub
    | .ok s => fill swap o ops s

end Builder
end Theia
