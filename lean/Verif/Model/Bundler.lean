import Verif.Model.EstimatedPart
import Verif.Base.Geometry
import Mathlib.Algebra.Order.Round

/-!
# Model of the Bundler files (src/theia/io/write_bundler_files.cc, bundler_file_reader.cc, read_bundler_files.cc)

Simplifications. Numbers are elements of an ordered field, written and read without loss: the code writes with the default
precision of streams or full precision and reads many fields as `float`. A file is the list of its numbers, so white space is not
modelled, and neither are names of images with white space. The `%d` conversion fails on a number that is not written as an
integer (the code would read its digits before the point). Files that cannot be opened are not modelled. The orientation of a
camera is kept as a rotation matrix (the code converts it to angle-axis and back).
-/

namespace Theia
namespace Bundler

variable {K : Type}

/-- What is exported of `theia::Camera`. `pinhole` says whether the model type is `PINHOLE`. -/
structure Cam (K : Type) where
  pinhole : Bool
  focal : K
  k1 : K
  k2 : K
  px : K
  py : K
  rot : M3 K
  pos : V3 K
  deriving DecidableEq

/-- The homogeneous point and the colour of a track (src/theia/sfm/track.h:65-69). -/
structure Point (K : Type) where
  point : V3 K
  w : K
  color : Nat × Nat × Nat
  deriving DecidableEq

/-- A reconstruction with its cameras and focal length priors. -/
structure Scene (K : Type) where
  recon : Reconstruction (K × K) (Point K)
  cam : ViewId → Cam K
  prior : ViewId → Option K

/-- A number in a file. -/
inductive Tok (K : Type) where
  | int (n : Int)
  | num (x : K)
  deriving DecidableEq

/-- A line of the lists file: the name, and the focal length if there are three fields. -/
structure Entry (K : Type) where
  name : String
  focal : Option K
  deriving DecidableEq

/-- The two files; `comment` says that the first line of the bundle file starts with `#`. -/
structure Files (K : Type) where
  lists : List (Entry K)
  comment : Bool
  toks : List (Tok K)
  deriving DecidableEq

/-- The orders in which the views, the tracks and the views of a track are listed. -/
structure Orders where
  views : List ViewId → List ViewId
  tracks : List TrackId → List TrackId
  obs : TrackId → List ViewId → List ViewId

section write
variable [Field K] [DecidableEq K]

/-- The product of `diag(1, -1, -1)` and a vector (write_bundler_files.cc:76-77). -/
def flip (v : V3 K) : V3 K := ⟨v.x, -v.y, -v.z⟩

/-- The product of `diag(1, -1, -1)` and a matrix. -/
def flipM (m : M3 K) : M3 K := ⟨m.r1, m.r2.neg, m.r3.neg⟩

def vecToks (v : V3 K) : List (Tok K) := [.num v.x, .num v.y, .num v.z]

/-- The camera in the bundle file (write_bundler_files.cc:110-126). -/
def cameraToks (c : Cam K) : List (Tok K) :=
  [.num c.focal, .num c.k1, .num c.k2] ++
  (vecToks (flipM c.rot).r1 ++ vecToks (flipM c.rot).r2 ++ vecToks (flipM c.rot).r3) ++
  vecToks (flip (c.rot.mulVec c.pos).neg)

/-- The loop over the views (write_bundler_files.cc:87-127), with `LOG(FATAL)` on line 104. -/
def writeViews (s : Scene K) : List ViewId → Outcome (List (Entry K) × List (Tok K))
  | [] => .ok ([], [])
  | v :: vs =>
    match s.recon.view v with
    | none => .ub
    | some V =>
      if (s.cam v).pinhole then do
        let rest ← writeViews s vs
        .ok (⟨V.name, s.prior v⟩ :: rest.1, cameraToks (s.cam v) ++ rest.2)
      else .abort

/-- `view_id_to_index` (write_bundler_files.cc:88). -/
def viewIndex : List ViewId → Nat → AMap ViewId Nat → AMap ViewId Nat
  | [], _, m => m
  | v :: vs, i, m => viewIndex vs (i + 1) (m.insert v i)

/-- The observations of a track (write_bundler_files.cc:141-156). -/
def writeObs (s : Scene K) (index : AMap ViewId Nat) (t : TrackId) : List ViewId → Outcome (List (Tok K))
  | [] => .ok []
  | v :: vs =>
    match index.get v with
    | none => .abort
    | some i =>
      match s.recon.view v with
      | none => .ub
      | some V =>
        match V.getFeature t with
        | none => .ub
        | some f => do
          let rest ← writeObs s index t vs
          .ok ([.int i, .int 0, .num (f.1 - (s.cam v).px), .num (-(f.2 - (s.cam v).py))] ++ rest)

/-- `hnormalized`; division by zero is undefined. -/
def hnormalized (p : Point K) : Outcome (V3 K) :=
  if p.w = 0 then .ub else .ok ⟨p.point.x / p.w, p.point.y / p.w, p.point.z / p.w⟩

/-- The loop over the tracks (write_bundler_files.cc:130-158). -/
def writeTracks (s : Scene K) (o : Orders) (index : AMap ViewId Nat) : List TrackId → Outcome (List (Tok K))
  | [] => .ok []
  | t :: ts =>
    match s.recon.track t with
    | none => .ub
    | some T => do
      let position ← hnormalized T.payload
      let obs ← writeObs s index t (o.obs t T.views)
      let rest ← writeTracks s o index ts
      .ok (vecToks position ++ [.num (T.payload.color.1 : K), .num (T.payload.color.2.1 : K), .num (T.payload.color.2.2 : K)] ++
        [.int T.views.length] ++ obs ++ rest)

/-- `WriteBundleFile` (write_bundler_files.cc:59-157). -/
def writeBundle (s : Scene K) (o : Orders) : Outcome (Files K) := do
  let views ← writeViews s (o.views s.recon.viewIds)
  let tracks ← writeTracks s o (viewIndex (o.views s.recon.viewIds) 0 .empty) (o.tracks s.recon.trackIds)
  .ok ⟨views.1, true, [.int s.recon.numViews, .int s.recon.numTracks] ++ views.2 ++ tracks⟩

/-- `WriteBundlerFiles` (write_bundler_files.cc:161-169). `oc` are the orders used while the estimated part is created. -/
def writeBundlerFiles (s : Scene K) (oc o : Orders) : Outcome (Files K) := do
  let e ← EstimatedPart.create oc.views oc.tracks s.recon
  writeBundle { s with recon := e } o

end write

/-! ## Parsing -/

/-- The result of reading from a file: a value and the rest, `false`, or a crash (`std::length_error` for a negative size). -/
inductive Read (K α : Type) where
  | ok (a : α) (rest : List (Tok K))
  | fail
  | crash

abbrev Reader (K α : Type) := List (Tok K) → Read K α

def Reader.ret {α : Type} (a : α) : Reader K α := fun toks => .ok a toks

def Reader.andThen {α β : Type} (p : Reader K α) (f : α → Reader K β) : Reader K β := fun toks =>
  match p toks with
  | .ok a rest => f a rest
  | .fail => .fail
  | .crash => .crash

instance : Monad (Reader K) where
  pure := Reader.ret
  bind := Reader.andThen

/-- `BundlerCamera` (src/theia/io/bundler_file_reader.h). -/
structure BCam (K : Type) where
  focal : K
  k1 : K
  k2 : K
  rot : M3 K
  trans : V3 K
  deriving DecidableEq

/-- `FeatureInfo` (src/theia/io/bundler_file_reader.h). -/
structure BEntry where
  cam : Int
  key : Int
  x : Int
  y : Int
  deriving DecidableEq

/-- `BundlerPoint` (src/theia/io/bundler_file_reader.h). -/
structure BPoint (K : Type) where
  pos : V3 K
  color : V3 K
  views : List BEntry
  deriving DecidableEq

section read
variable [Field K] [LinearOrder K] [FloorRing K]

/-- `fscanf` with `%f` or `%lf`. -/
def readNum : Reader K K
  | .int n :: rest => .ok (n : K) rest
  | .num x :: rest => .ok x rest
  | [] => .fail

/-- `fscanf` with `%d`. -/
def readInt : Reader K Int
  | .int n :: rest => .ok n rest
  | _ => .fail

def readVec : Reader K (V3 K) := do
  let x ← readNum
  let y ← readNum
  let z ← readNum
  pure ⟨x, y, z⟩

/-- The loops that read a given number of records. -/
def readMany {α : Type} (p : Reader K α) : Nat → Reader K (List α)
  | 0 => pure []
  | n + 1 => do
    let a ← p
    let rest ← readMany p n
    pure (a :: rest)

/-- `ReadCamera` (bundler_file_reader.cc:71-105). -/
def readCamera : Reader K (BCam K) := do
  let f ← readVec
  let r1 ← readVec
  let r2 ← readVec
  let r3 ← readVec
  let t ← readVec
  pure ⟨f.x, f.y, f.z, ⟨r1, r2, r3⟩, t⟩

/-- The conversion to `int`, which truncates towards zero. Its overflow is not modelled. -/
def trunc (x : K) : Int := if 0 ≤ x then ⌊x⌋ else ⌈x⌉

/-- One entry of a view list (bundler_file_reader.cc:143-162). -/
def readEntry : Reader K BEntry := do
  let c ← readNum
  let k ← readNum
  let x ← readNum
  let y ← readNum
  pure ⟨trunc c, trunc k, trunc x, trunc y⟩

/-- `ReadViewList` (bundler_file_reader.cc:132-164): a missing count is taken as zero. -/
def readViewList : Reader K (List BEntry) := fun toks =>
  match (readInt toks : Read K Int) with
  | .ok n rest => if n < 0 then .crash else readMany readEntry n.toNat rest
  | .fail => .ok [] toks
  | .crash => .crash

/-- `ReadPoint` (bundler_file_reader.cc:166-187). -/
def readPoint : Reader K (BPoint K) := do
  let p ← readVec
  let c ← readVec
  let l ← readViewList
  pure ⟨p, c, l⟩

/-- `ReadHeader` (bundler_file_reader.cc:49-69) after the comment line. -/
def readHeader : Reader K (Nat × Nat) := do
  let c ← readInt
  let p ← readInt
  if c < 1 ∨ p < 1 then (fun _ => .fail) else pure (c.toNat, p.toNat)

/-- `BundlerFileReader::ParseBundleFile` (bundler_file_reader.cc:240-271). -/
def parseBundle (f : Files K) : Read K (List (BCam K) × List (BPoint K)) :=
  if f.comment = false then .fail
  else (do
    let h ← readHeader
    let cams ← readMany readCamera h.1
    let points ← readMany readPoint h.2
    pure (cams, points) : Reader K _) f.toks

/-! ## Building the reconstruction -/

/-- A reconstruction being loaded, with the cameras and focal length priors set so far. -/
structure Loaded (K : Type) where
  recon : Reconstruction (K × K) (Point K)
  cams : AMap ViewId (Cam K)
  priors : AMap ViewId K
  deriving DecidableEq

/-- The loop of `AddViewsToReconstruction` (read_bundler_files.cc:68-84). `base` is `GetFilenameFromFilepath` with extension
(stlplus, a third-party library), which fails for an empty result. -/
def addViews (base : String → String) : List (Entry K) → Loaded K → Outcome (Loaded K)
  | [], s => .ok s
  | e :: es, s =>
    if base e.name = "" then .abort
    else do
      let res ← s.recon.addView (base e.name)
      match res.1 with
      | none => .abort
      | some v =>
        addViews base es { s with
          recon := res.2
          priors := match e.focal with
            | some f => if 0 < f then s.priors.insert v f else s.priors
            | none => s.priors }

/-- The camera set from one record (read_bundler_files.cc:105-133). `default` is the camera of a new view. -/
def loadCamera (default : Cam K) (b : BCam K) : Cam K :=
  { pinhole := true
    focal := if b.focal ≤ 0 then default.focal else b.focal
    k1 := b.k1
    k2 := b.k2
    px := 0
    py := 0
    rot := flipM b.rot
    pos := ((flipM b.rot).transpose.mulVec (flip b.trans)).neg }

/-- The loop of `AddCamerasToReconstruction` (read_bundler_files.cc:97-143), starting at index `i`, and the set it returns. -/
def addCameras (default : Cam K) : List (BCam K) → Nat → Loaded K → Outcome (List ViewId × Loaded K)
  | [], _, s => .ok ([], s)
  | b :: bs, i, s => do
    let r ← s.recon.setViewEstimated i true
    let rest ← addCameras default bs (i + 1) { s with recon := r, cams := s.cams.insert i (loadCamera default b) }
    .ok (if b.focal ≤ 0 then i :: rest.1 else rest.1, rest.2)

/-- The conversion of an index to the unsigned `ViewId`. -/
def viewIdOfInt (n : Int) : ViewId := if n < 0 then (n + 4294967296).toNat else n.toNat

/-- The observations of a point in the views that stay (read_bundler_files.cc:162-175). -/
def pointObs (remove : List ViewId) (l : List BEntry) : List (ViewId × (K × K)) :=
  (l.filter fun e => decide (viewIdOfInt e.cam ∉ remove)).map fun e => (viewIdOfInt e.cam, ((e.x : K), -(e.y : K)))

/-- The conversion of a colour to `uint8_t`; out of range it is undefined. -/
def toByte (x : K) : Outcome Nat := if 0 ≤ trunc x ∧ trunc x < 256 then .ok (trunc x).toNat else .ub

/-- The loop of `AddTracksToReconstruction` (read_bundler_files.cc:153-199), with the number of invalid tracks. -/
def addTracks (remove : List ViewId) : List (BPoint K) → Loaded K → Outcome (Nat × Loaded K)
  | [], s => .ok (0, s)
  | p :: ps, s =>
    if (pointObs remove p.views : List (ViewId × (K × K))).length < 2 ∨ p.pos.dot p.pos = 0 then addTracks remove ps s
    else do
      let res ← s.recon.addTrack ⟨⟨0, 0, 0⟩, 1, (0, 0, 0)⟩ (pointObs remove p.views)
      match res.1 with
      | none => do
        let rest ← addTracks remove ps { s with recon := res.2 }
        .ok (rest.1 + 1, rest.2)
      | some t => do
        let a ← toByte p.color.x
        let b ← toByte p.color.y
        let c ← toByte p.color.z
        let r ← res.2.setTrackEstimated t true ⟨p.pos, 1, (a, b, c)⟩
        addTracks remove ps { s with recon := r }

/-- The removal of the invalid views (read_bundler_files.cc:276-278). -/
def removeViews : List ViewId → Loaded K → Outcome (Loaded K)
  | [], s => .ok s
  | v :: vs, s => do
    let res ← s.recon.removeView v
    removeViews vs { s with recon := res.2 }

/-- The part of `ReadBundlerFiles` after the parsing (read_bundler_files.cc:263-278). -/
def build (base : String → String) (default : Cam K) (lists : List (Entry K)) (cams : List (BCam K)) (points : List (BPoint K))
    (s : Loaded K) : Outcome (Loaded K) :=
  if lists = [] then .abort
  else do
    let s1 ← addViews base lists s
    if cams.length ≠ s1.recon.numViews then .abort
    else do
      let s2 ← addCameras default cams 0 s1
      let s3 ← addTracks s2.1 points s2.2
      removeViews s2.1 s3.2

/-- `ReadBundlerFiles` (read_bundler_files.cc:241-295). The result says whether it returned true. -/
def readBundlerFiles (base : String → String) (default : Cam K) (f : Files K) (s : Loaded K) : Outcome (Bool × Loaded K) :=
  if s.recon.numViews ≠ 0 ∨ s.recon.numTracks ≠ 0 then .abort
  else
    match parseBundle f with
    | .fail => .ok (false, s)
    | .crash => .abort
    | .ok b _ => do
      let s' ← build base default f.lists b.1 b.2 s
      .ok (true, s')

end read

end Bundler
end Theia
