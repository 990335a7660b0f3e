import Verif.Model.ProjectionMatrix
import Verif.Model.Reconstruction

/-!
# Strecha datasets and the sizes of images

Models src/theia/io/read_strecha_dataset.cc and src/theia/io/populate_image_sizes.cc on top of the model of `Reconstruction`. A
camera holds a pointer to an intrinsics object that several cameras may share: `heap` has the objects. The cameras are
pinhole cameras, as those of a new view are; the radial distortion is left out (neither function touches it). How characters become
numbers, decoding images and the conversion of a rotation matrix to angle and axis are parameters.
-/

namespace Theia
namespace ImageSizes

open ProjectionMatrix

variable {F P : Type}

/-- A reconstruction with the contents of its cameras. -/
structure Scene (F P : Type) where
  recon : Reconstruction F P
  heap : Nat → Intrinsics
  size : ViewId → Int × Int
  orientation : ViewId → V3 ℝ
  position : ViewId → V3 ℝ

/-- The numbers of a camera file, in the order of the file: the calibration matrix by rows, (three zeros,) the rotation by rows, the
position, width and height (read_strecha_dataset.cc:78-116). -/
structure CameraFile where
  calibration : M3 ℝ
  rotation : M3 ℝ
  position : V3 ℝ
  width : Int
  height : Int

/-- `image_name.find(".camera")` and `substr(0, ...)` (read_strecha_dataset.cc:64-65): what precedes the first occurrence, or
everything. -/
def beforeCamera : List Char → List Char
  | [] => []
  | c :: cs => if ".camera".toList.isPrefixOf (c :: cs) then [] else c :: beforeCamera cs

/-- The name of the image of a camera file. -/
def imageName (file : String) : String := String.ofList (beforeCamera file.toList)

/-- `AddCameraToReconstruction` (read_strecha_dataset.cc:49-121) for a file with a path and its contents, `none` if it cannot be
opened. `base` is `GetFilenameFromFilepath`. The rotation is read into the transposed matrix (line 103). -/
noncomputable def addCamera (base : String → Option String) (ofM : M3 ℝ → V3 ℝ) (path : String) (contents : Option CameraFile)
    (s : Scene F P) : Outcome (Scene F P) :=
  match contents with
  | none => .abort
  | some c =>
    match base path with
    | none => .abort
    | some name => do
      let r ← s.recon.addViewToGroup (imageName name) 0
      match r.1 with
      | none => .abort
      | some v =>
        match r.2.view v with
        | none => .ub
        | some V => do
          let i ← ofCalibration c.calibration
          let recon ← r.2.setViewEstimated v true
          .ok
            { recon := recon
              heap := fun q => if q = V.intrinsics then i else s.heap q
              size := fun w => if w = v then (c.width, c.height) else s.size w
              orientation := fun w => if w = v then ofM c.rotation.transpose else s.orientation w
              position := fun w => if w = v then c.position else s.position w }

/-- The loop over the files (read_strecha_dataset.cc:141-143). -/
noncomputable def addCameras (base : String → Option String) (ofM : M3 ℝ → V3 ℝ) :
    List (String × Option CameraFile) → Scene F P → Outcome (Scene F P)
  | [], s => .ok s
  | f :: fs, s => do
    let s ← addCamera base ofM f.1 f.2 s
    addCameras base ofM fs s

/-- `ReadStrechaDataset` (read_strecha_dataset.cc:125-145). `files` are the files that match the pattern, `none` if they cannot be
listed. -/
noncomputable def readStrecha (base : String → Option String) (ofM : M3 ℝ → V3 ℝ) (files : Option (List (String × Option CameraFile)))
    (s : Scene F P) : Outcome (Bool × Scene F P) :=
  match files with
  | none => .abort
  | some [] => .abort
  | some (f :: fs) => do
    let s ← addCameras base ofM (f :: fs) s
    .ok (true, s)

/-- `AppendTrailingSlashIfNeeded` (util/string.h:42-46). -/
def withSlash (directory : String) : String :=
  if directory.toList.getLast? = some '/' then directory else directory ++ "/"

/-- The first loop of `PopulateImageSizesAndPrincipalPoints` (populate_image_sizes.cc:67-74): whether all images exist. A missing
view is a null dereference. -/
def allExist (exists_ : String → Bool) (directory : String) (r : Reconstruction F P) : List ViewId → Outcome Bool
  | [] => .ok true
  | v :: vs =>
    match r.view v with
    | none => .ub
    | some V => if exists_ (withSlash directory ++ V.name) then allExist exists_ directory r vs else .ok false

/-- The second loop (populate_image_sizes.cc:75-83). `load` gives the columns and rows of an image. -/
noncomputable def setSizes (load : String → Outcome (Int × Int)) (directory : String) :
    List ViewId → Scene F P → Outcome (Scene F P)
  | [], s => .ok s
  | v :: vs, s =>
    match s.recon.view v with
    | none => .ub
    | some V => do
      let image ← load (withSlash directory ++ V.name)
      if image.1 ≤ 0 then .abort
      else
        setSizes load directory vs
          { s with
            size := fun w => if w = v then image else s.size w
            heap := fun q => if q = V.intrinsics then { s.heap q with px := image.1 / 2, py := image.2 / 2 } else s.heap q }

/-- `PopulateImageSizesAndPrincipalPoints` (populate_image_sizes.cc:61-86). `order` is the order in which the views are listed.
`back()` of an empty directory is undefined (line 65). -/
noncomputable def populate (order : List ViewId → List ViewId) (exists_ : String → Bool) (load : String → Outcome (Int × Int))
    (directory : String) (s : Scene F P) : Outcome (Bool × Scene F P) :=
  if directory.isEmpty then .ub
  else do
    let found ← allExist exists_ directory s.recon (order s.recon.viewIds)
    if found then do
      let s ← setSizes load directory (order s.recon.viewIds) s
      .ok (true, s)
    else .ok (false, s)

end ImageSizes
end Theia
