import Mathlib.Data.Fintype.Basic
import Mathlib.Data.Rat.Floor
import Verif.Base.AMap
import Verif.Model.Json

/-!
# Model of calibration files (src/theia/io/write_calibration.cc, read_calibration.cc)

`fmt` is how an `ofstream` prints a double. Files are their contents; `none` is a file that cannot be opened.
-/

namespace Theia
namespace Calibration

open Json

/-- `Prior<N>` (sfm/camera_intrinsics_prior.h:49-63). -/
structure Prior (N : Nat) where
  isSet : Bool
  value : Fin N → ℚ
  deriving DecidableEq

/-- The initial value of a `Prior`. -/
def unset {N : Nat} : Prior N := ⟨false, fun _ => 0⟩

/-- `CameraIntrinsicsPrior` (sfm/camera_intrinsics_prior.h:67-102). -/
structure CameraPrior where
  width : Int
  height : Int
  modelType : List Char
  focalLength : Prior 1
  principalPoint : Prior 2
  aspectRatio : Prior 1
  skew : Prior 1
  radialDistortion : Prior 4
  tangentialDistortion : Prior 2
  position : Prior 3
  orientation : Prior 3
  latitude : Prior 1
  longitude : Prior 1
  altitude : Prior 1
  deriving DecidableEq

/-- The initial value of `CameraIntrinsicsPrior` (sfm/camera_intrinsics_prior.h:67-102). -/
def emptyPrior : CameraPrior :=
  ⟨0, 0, chars! "PINHOLE", unset, unset, unset, unset, unset, unset, unset, unset, unset, unset, unset⟩

/-! ### Writing -/

/-- An optional attribute with one value (for example lines 60-63 of write_calibration.cc). -/
def writeScalar (fmt : ℚ → List Char) (name : List Char) (p : Prior 1) : List Char :=
  if p.isSet then chars! ",\n" ++ chars! "\"" ++ name ++ chars! "\" : " ++ fmt (p.value 0) else []

/-- An optional attribute with two values (for example lines 64-69 of write_calibration.cc). -/
def write2 (fmt : ℚ → List Char) (name : List Char) (p : Prior 2) : List Char :=
  if p.isSet then chars! ",\n" ++ chars! "\"" ++ name ++ chars! "\" : [" ++ fmt (p.value 0) ++ chars! ", " ++
    fmt (p.value 1) ++ chars! "]" else []

/-- An optional attribute with three values (for example lines 91-97 of write_calibration.cc). -/
def write3 (fmt : ℚ → List Char) (name : List Char) (p : Prior 3) : List Char :=
  if p.isSet then chars! ",\n" ++ chars! "\"" ++ name ++ chars! "\" : [" ++ fmt (p.value 0) ++ chars! ", " ++
    fmt (p.value 1) ++ chars! ", " ++ fmt (p.value 2) ++ chars! "]" else []

/-- The radial distortion (write_calibration.cc:79-86). -/
def write4 (fmt : ℚ → List Char) (name : List Char) (p : Prior 4) : List Char :=
  if p.isSet then chars! ",\n" ++ chars! "\"" ++ name ++ chars! "\" : [" ++ fmt (p.value 0) ++ chars! ", " ++
    fmt (p.value 1) ++ chars! ", " ++ fmt (p.value 2) ++ chars! ", " ++ fmt (p.value 3) ++ chars! "]" else []

/-- `WritePrior` (write_calibration.cc:48-121). -/
def writePrior (fmt : ℚ → List Char) (name : List Char) (p : CameraPrior) : List Char :=
  chars! "{\"CameraIntrinsicsPrior\" : {\n" ++
  chars! "\"image_name\" : \"" ++ name ++ chars! "\",\n" ++
  chars! "\"width\" : " ++ intText p.width ++ chars! ",\n" ++
  chars! "\"height\" : " ++ intText p.height ++ chars! ",\n" ++
  chars! "\"camera_intrinsics_type\" : \"" ++ p.modelType ++ chars! "\"" ++
  writeScalar fmt (chars! "focal_length") p.focalLength ++
  write2 fmt (chars! "principal_point") p.principalPoint ++
  writeScalar fmt (chars! "aspect_ratio") p.aspectRatio ++
  writeScalar fmt (chars! "skew") p.skew ++
  write4 fmt (chars! "radial_distortion_coeffs") p.radialDistortion ++
  write2 fmt (chars! "tangential_distortion_coeffs") p.tangentialDistortion ++
  write3 fmt (chars! "position") p.position ++
  write3 fmt (chars! "orientation") p.orientation ++
  writeScalar fmt (chars! "latitude") p.latitude ++
  writeScalar fmt (chars! "longitude") p.longitude ++
  writeScalar fmt (chars! "altitude") p.altitude ++
  chars! "\n}}"

/-- The loop over the remaining priors (write_calibration.cc:151-154). -/
def writeRest (fmt : ℚ → List Char) : List (List Char × CameraPrior) → List Char
  | [] => []
  | (name, p) :: ps => chars! ",\n" ++ writePrior fmt name p ++ writeRest fmt ps

/-- `WriteCalibration` (write_calibration.cc:125-161) for the priors in the order of iteration: the result and the contents
of the file, if it is written. -/
def writeCalibration (fmt : ℚ → List Char) (canOpen : Bool) : List (List Char × CameraPrior) → Bool × Option (List Char)
  | [] => (false, none)
  | (name, p) :: ps =>
    if canOpen then
      (true, some (chars! "{\n\"priors\" : [\n" ++ writePrior fmt name p ++ writeRest fmt ps ++ chars! "\n]\n}\n"))
    else (false, none)

/-! ### Reading -/

/-- `IsDouble() || IsInt()`, and then `GetDouble()`. -/
def asDouble : Value → Option ℚ
  | .num n => if n.isDouble || n.isInt then some n.value else none
  | _ => none

/-- An attribute with one value (for example read_calibration.cc:128-133). -/
def readScalar (ms : List (List Char × Value)) (name : List Char) : Prior 1 :=
  match (lookup name ms).bind asDouble with
  | some v => ⟨true, fun _ => v⟩
  | none => unset

/-- The focal length (read_calibration.cc:76-79): its type is not checked before `GetDouble()`. -/
def readFocal (ms : List (List Char × Value)) : Outcome (Prior 1) :=
  match lookup (chars! "focal_length") ms with
  | none => .ok unset
  | some (.num n) => .ok ⟨true, fun _ => n.value⟩
  | some _ => .ub

/-- An attribute with several values (for example read_calibration.cc:143-160): the entries of the array that there are. -/
def readVector (N : Nat) (ms : List (List Char × Value)) (name : List Char) : Prior N :=
  match lookup name ms with
  | some (.arr vs) =>
    ⟨!vs.isEmpty && (vs.take N).all fun v => (asDouble v).isSome,
      fun i => match vs[i.1]?.bind asDouble with
        | some x => x
        | none => 0⟩
  | _ => unset

/-- `static_cast<int>(x)`: undefined out of range. -/
def castInt (x : ℚ) : Outcome Int :=
  if -(2 : ℚ) ^ 31 - 1 < x ∧ x < 2 ^ 31 then .ok (if x < 0 then ⌈x⌉ else ⌊x⌋) else .ub

/-- The size of the image, from the principal point (read_calibration.cc:99-104). -/
def sizeFromPoint (p : Prior 2) : Outcome (Int × Int) :=
  if p.isSet then do
    let w ← castInt (2 * p.value 0)
    let h ← castInt (2 * p.value 1)
    .ok (w, h)
  else .ok (0, 0)

/-- A size that is given (read_calibration.cc:118-126). -/
def readSize (ms : List (List Char × Value)) (name : List Char) (old : Int) : Int :=
  match lookup name ms with
  | some (.num n) => if n.isInt then ⌊n.value⌋ else old
  | _ => old

/-- `IsCameraIntrinsicsModelTypeValid` (sfm/camera/camera_intrinsics_model_type.h:97-112). -/
def validType (s : List Char) : Bool :=
  decide (s = chars! "PINHOLE" ∨ s = chars! "PINHOLE_RADIAL_TANGENTIAL" ∨ s = chars! "FISHEYE" ∨ s = chars! "FOV" ∨
    s = chars! "DIVISION_UNDISTORTION")

/-- The type of the camera (read_calibration.cc:107-116). -/
def readType (ms : List (List Char × Value)) : List Char :=
  match lookup (chars! "camera_intrinsics_type") ms with
  | some (.str s) => if validType s then s else chars! "PINHOLE"
  | _ => chars! "PINHOLE"

/-- `ExtractPriorParameters` (read_calibration.cc:73-236). -/
def readParameters (ms : List (List Char × Value)) : Outcome CameraPrior := do
  let focal ← readFocal ms
  let point := readVector 2 ms (chars! "principal_point")
  let (w, h) ← sizeFromPoint point
  .ok
    { width := readSize ms (chars! "width") w
      height := readSize ms (chars! "height") h
      modelType := readType ms
      focalLength := focal
      principalPoint := point
      aspectRatio := readScalar ms (chars! "aspect_ratio")
      skew := readScalar ms (chars! "skew")
      radialDistortion := readVector 4 ms (chars! "radial_distortion_coeffs")
      tangentialDistortion := readVector 2 ms (chars! "tangential_distortion_coeffs")
      position := readVector 3 ms (chars! "position")
      orientation := readVector 3 ms (chars! "orientation")
      latitude := readScalar ms (chars! "latitude")
      longitude := readScalar ms (chars! "longitude")
      altitude := readScalar ms (chars! "altitude") }

/-- The test of the type (read_calibration.cc:250-261): an unknown type ends the program (camera_intrinsics_model_type.h:57-74). -/
def checkType (ms : List (List Char × Value)) : Outcome Unit :=
  match lookup (chars! "camera_intrinsics_type") ms with
  | none => .ok ()
  | some (.str s) => if validType s then .ok () else .abort
  | some _ => .ub

/-- `ExtractCameraIntrinsicsPrior` (read_calibration.cc:238-265): `none` without a name. Members of something that is not an
object, and a name that is not a string, are not defined. -/
def readEntry : Value → Outcome (Option (List Char × CameraPrior))
  | .obj ms =>
    match lookup (chars! "image_name") ms with
    | none => .ok none
    | some (.str name) => do
      checkType ms
      let p ← readParameters ms
      .ok (some (name, p))
    | some _ => .ub
  | _ => .ub

/-- One pass of the loop (read_calibration.cc:286-297). -/
def readOne (v : Value) (m : AMap (List Char) CameraPrior) : Outcome (AMap (List Char) CameraPrior) :=
  match v with
  | .obj ms =>
    match lookup (chars! "CameraIntrinsicsPrior") ms with
    | none => .ok m
    | some e => do
      match ← readEntry e with
      | none => .ok m
      | some (name, p) => .ok (m.insert name p)
  | _ => .ub

/-- The loop over the entries (read_calibration.cc:286-297). -/
def readAll : List Value → AMap (List Char) CameraPrior → Outcome (AMap (List Char) CameraPrior)
  | [], m => .ok m
  | v :: vs, m => do
    let m ← readOne v m
    readAll vs m

/-- `ExtractCameraIntrinsicPriorsFromJson` (read_calibration.cc:269-300): the result and the priors. Asking a document that is
not an object for a member is not defined. -/
def fromJson (text : List Char) (m : AMap (List Char) CameraPrior) : Outcome (Bool × AMap (List Char) CameraPrior) :=
  match parse text with
  | .obj ms =>
    match lookup (chars! "priors") ms with
    | some (.arr vs) => do
      let m ← readAll vs m
      .ok (true, m)
    | _ => .ok (false, m)
  | _ => .ub

/-- `rfind('}')` and `resize` (read_calibration.cc:325-331): the text up to the last curly bracket. -/
def upToLast (text : List Char) : Option (List Char) :=
  match (text.reverse.dropWhile fun c => decide (c ≠ '}')).reverse with
  | [] => none
  | cs => some cs

/-- `ReadCalibration` (read_calibration.cc:302-338). -/
def readCalibration (file : Option (List Char)) (m : AMap (List Char) CameraPrior) :
    Outcome (Bool × AMap (List Char) CameraPrior) :=
  match file with
  | none => .ok (false, m)
  | some text =>
    match upToLast text with
    | none => .ok (false, m)
    | some text => fromJson text m

end Calibration
end Theia
