import Mathlib.Algebra.Order.Field.Basic
import Verif.Base.Outcome

/-!
# Camera intrinsics and their priors

Models the parts of src/theia/sfm/camera/camera_intrinsics_model.cc, the five `*_camera_model.{h,cc}` files,
camera_intrinsics_model_type.h, camera.cc and src/theia/sfm/camera_intrinsics_prior.h that convert between parameters
and priors, choose the constant parameters for bundle adjustment, and write and read priors. Doubles are elements of an
ordered field. Archives are lists of the values written; the version numbers that cereal stores are an argument.
-/

namespace Theia
namespace CameraPriors

/-- `CameraIntrinsicsModelType` (camera_intrinsics_model_type.h:45-52). -/
inductive ModelType where
  | invalid
  | pinhole
  | pinholeRadialTangential
  | fisheye
  | fov
  | division
  deriving DecidableEq, Repr

/-- `StringToCameraIntrinsicsModelType` (camera_intrinsics_model_type.h:55-72). -/
def stringToType (s : String) : Outcome ModelType :=
  if s = "PINHOLE" then .ok .pinhole
  else if s = "PINHOLE_RADIAL_TANGENTIAL" then .ok .pinholeRadialTangential
  else if s = "FISHEYE" then .ok .fisheye
  else if s = "FOV" then .ok .fov
  else if s = "DIVISION_UNDISTORTION" then .ok .division
  else .abort

/-- `CameraIntrinsicsModelTypeToString` (camera_intrinsics_model_type.h:74-94). -/
def typeToString : ModelType → Outcome String
  | .pinhole => .ok "PINHOLE"
  | .pinholeRadialTangential => .ok "PINHOLE_RADIAL_TANGENTIAL"
  | .fisheye => .ok "FISHEYE"
  | .fov => .ok "FOV"
  | .division => .ok "DIVISION_UNDISTORTION"
  | .invalid => .abort

variable {K : Type}

/-- `Prior<N>` (camera_intrinsics_prior.h:49-65); the array is a tuple. -/
structure Prior (α : Type) where
  isSet : Bool
  value : α
  deriving DecidableEq, Repr

/-- `CameraIntrinsicsPrior` (camera_intrinsics_prior.h:69-99). -/
structure IntrinsicsPrior (K : Type) where
  width : Int
  height : Int
  modelType : String
  focal : Prior K
  principal : Prior (K × K)
  aspect : Prior K
  skew : Prior K
  radial : Prior (K × K × K × K)
  tangential : Prior (K × K)
  position : Prior (K × K × K)
  orientation : Prior (K × K × K)
  latitude : Prior K
  longitude : Prior K
  altitude : Prior K
  deriving DecidableEq, Repr

/-- A prior that is not set (camera_intrinsics_prior.h:52-53). -/
def Prior.none [Zero α] : Prior α := ⟨false, 0⟩

/-- The default members (camera_intrinsics_prior.h:73-99). -/
def IntrinsicsPrior.default [Zero K] : IntrinsicsPrior K :=
  ⟨0, 0, "PINHOLE", .none, .none, .none, .none, .none, .none, .none, .none, .none, .none, .none⟩

/-- A camera intrinsics object: its class and `parameters_`. -/
structure Intrinsics (K : Type) where
  type : ModelType
  params : List K
  deriving DecidableEq, Repr

/-- `kIntrinsicsSize` (pinhole_camera_model.h:84, pinhole_radial_tangential_camera_model.h:89,
fisheye_camera_model.h:65, fov_camera_model.h:67, division_undistortion_camera_model.h:74). -/
def numParameters : ModelType → Nat
  | .invalid => 0
  | .pinhole => 7
  | .pinholeRadialTangential => 10
  | .fisheye => 9
  | .fov => 5
  | .division => 5

/-- `FOCAL_LENGTH` of all models (the enumerations `InternalParametersIndex`). -/
def focalIndex (_ : ModelType) : Nat := 0

/-- `ASPECT_RATIO` of all models. -/
def aspectIndex (_ : ModelType) : Nat := 1

/-- `SKEW` of the models that have it (pinhole_camera_model.h:89, pinhole_radial_tangential_camera_model.h:94,
fisheye_camera_model.h:70). -/
def skewIndex : ModelType → Nat
  | _ => 2

/-- `PRINCIPAL_POINT_X` (pinhole_camera_model.h:90, pinhole_radial_tangential_camera_model.h:95,
fisheye_camera_model.h:71, fov_camera_model.h:72, division_undistortion_camera_model.h:79). -/
def principalXIndex : ModelType → Nat
  | .fov => 2
  | .division => 2
  | _ => 3

/-- `PRINCIPAL_POINT_Y`. -/
def principalYIndex : ModelType → Nat
  | .fov => 3
  | .division => 3
  | _ => 4

/-- `RADIAL_DISTORTION_n`, `n` from 1. -/
def radialIndex (t : ModelType) (n : Nat) : Nat :=
  match t with
  | .fov => 4
  | .division => 4
  | _ => 4 + n

/-- `TANGENTIAL_DISTORTION_n`, `n` from 1 (pinhole_radial_tangential_camera_model.h:100-101). -/
def tangentialIndex (n : Nat) : Nat := 7 + n

/-- `SetParameter` (camera_intrinsics_model.cc:273-278), without the debug-only checks. -/
def setParameter (i : Nat) (x : K) (m : Intrinsics K) : Outcome (Intrinsics K) :=
  if i < m.params.length then .ok { m with params := m.params.set i x } else .ub

/-- `GetParameter` (camera_intrinsics_model.cc:280-284). -/
def getParameter (i : Nat) (m : Intrinsics K) : Outcome K :=
  match m.params[i]? with
  | none => .ub
  | some x => .ok x

section
variable [Field K] [LinearOrder K]

/-- `CameraIntrinsicsModel::SetFocalLength` (camera_intrinsics_model.cc:192-205). -/
def setFocalLength (f : K) (m : Intrinsics K) : Outcome (Intrinsics K) :=
  if f > 0 then setParameter (focalIndex m.type) f m else .abort

/-- `CameraIntrinsicsModel::SetPrincipalPoint` (camera_intrinsics_model.cc:224-237). -/
def setPrincipalPoint (x y : K) (m : Intrinsics K) : Outcome (Intrinsics K) :=
  (setParameter (principalXIndex m.type) x m).bind fun m => setParameter (principalYIndex m.type) y m

/-- The part of `SetFromCameraIntrinsicsPriors` on the focal length, the same in all models but for the factor
(pinhole_camera_model.cc:77-83, pinhole_radial_tangential_camera_model.cc:82-88, fisheye_camera_model.cc:79-88,
fov_camera_model.cc:75-81, division_undistortion_camera_model.cc:77-83). -/
def setFocalFromPrior (factor : K) (p : IntrinsicsPrior K) (m : Intrinsics K) : Outcome (Intrinsics K) :=
  if p.focal.isSet then setFocalLength p.focal.value m
  else if p.width ≠ 0 ∧ p.height ≠ 0 then setFocalLength (factor * (max p.width p.height : Int)) m
  else .ok m

/-- The part on the principal point, the same in all models (pinhole_camera_model.cc:85-91). -/
def setPrincipalFromPrior (p : IntrinsicsPrior K) (m : Intrinsics K) : Outcome (Intrinsics K) :=
  if p.principal.isSet then setPrincipalPoint p.principal.value.1 p.principal.value.2 m
  else if p.width ≠ 0 ∧ p.height ≠ 0 then setPrincipalPoint (p.width / 2) (p.height / 2) m
  else .ok m

/-- Setting one parameter if a prior is set (pinhole_camera_model.cc:93-101). -/
def setIf (isSet : Bool) (i : Nat) (x : K) (m : Intrinsics K) : Outcome (Intrinsics K) :=
  if isSet then setParameter i x m else .ok m

/-- `PinholeCameraModel::SetFromCameraIntrinsicsPriors` (pinhole_camera_model.cc:74-107). -/
def setPinhole (p : IntrinsicsPrior K) (m : Intrinsics K) : Outcome (Intrinsics K) := do
  let m ← setFocalFromPrior (6 / 5) p m
  let m ← setPrincipalFromPrior p m
  let m ← setIf p.aspect.isSet (aspectIndex .pinhole) p.aspect.value m
  let m ← setIf p.skew.isSet (skewIndex .pinhole) p.skew.value m
  let m ← setIf p.radial.isSet (radialIndex .pinhole 1) p.radial.value.1 m
  setIf p.radial.isSet (radialIndex .pinhole 2) p.radial.value.2.1 m

/-- `PinholeRadialTangentialCameraModel::SetFromCameraIntrinsicsPriors`
(pinhole_radial_tangential_camera_model.cc:79-119). -/
def setPinholeRadialTangential (p : IntrinsicsPrior K) (m : Intrinsics K) : Outcome (Intrinsics K) := do
  let m ← setFocalFromPrior (6 / 5) p m
  let m ← setPrincipalFromPrior p m
  let m ← setIf p.aspect.isSet (aspectIndex .pinholeRadialTangential) p.aspect.value m
  let m ← setIf p.skew.isSet (skewIndex .pinholeRadialTangential) p.skew.value m
  let m ← setIf p.radial.isSet (radialIndex .pinholeRadialTangential 1) p.radial.value.1 m
  let m ← setIf p.radial.isSet (radialIndex .pinholeRadialTangential 2) p.radial.value.2.1 m
  let m ← setIf p.radial.isSet (radialIndex .pinholeRadialTangential 3) p.radial.value.2.2.1 m
  let m ← setIf p.tangential.isSet (tangentialIndex 1) p.tangential.value.1 m
  setIf p.tangential.isSet (tangentialIndex 2) p.tangential.value.2 m

/-- `FisheyeCameraModel::SetFromCameraIntrinsicsPriors` (fisheye_camera_model.cc:76-115). -/
def setFisheye (p : IntrinsicsPrior K) (m : Intrinsics K) : Outcome (Intrinsics K) := do
  let m ← setFocalFromPrior (2 / 5) p m
  let m ← setPrincipalFromPrior p m
  let m ← setIf p.aspect.isSet (aspectIndex .fisheye) p.aspect.value m
  let m ← setIf p.skew.isSet (skewIndex .fisheye) p.skew.value m
  let m ← setIf p.radial.isSet (radialIndex .fisheye 1) p.radial.value.1 m
  let m ← setIf p.radial.isSet (radialIndex .fisheye 2) p.radial.value.2.1 m
  let m ← setIf p.radial.isSet (radialIndex .fisheye 3) p.radial.value.2.2.1 m
  setIf p.radial.isSet (radialIndex .fisheye 4) p.radial.value.2.2.2 m

/-- `FOVCameraModel::SetFromCameraIntrinsicsPriors` (fov_camera_model.cc:72-101); `kDefaultOmega` is 0.75
(fov_camera_model.h:145). -/
def setFov (p : IntrinsicsPrior K) (m : Intrinsics K) : Outcome (Intrinsics K) := do
  let m ← setFocalFromPrior (6 / 5) p m
  let m ← setPrincipalFromPrior p m
  let m ← setIf p.aspect.isSet (aspectIndex .fov) p.aspect.value m
  setParameter (radialIndex .fov 1) (if p.radial.isSet then p.radial.value.1 else 3 / 4) m

/-- `DivisionUndistortionCameraModel::SetFromCameraIntrinsicsPriors` (division_undistortion_camera_model.cc:74-103). -/
def setDivision (p : IntrinsicsPrior K) (m : Intrinsics K) : Outcome (Intrinsics K) := do
  let m ← setFocalFromPrior (6 / 5) p m
  let m ← setPrincipalFromPrior p m
  let m ← setIf p.aspect.isSet (aspectIndex .division) p.aspect.value m
  setParameter (radialIndex .division 1) (if p.radial.isSet then p.radial.value.1 else 0) m

/-- The virtual `SetFromCameraIntrinsicsPriors`. -/
def setFromPriors (p : IntrinsicsPrior K) (m : Intrinsics K) : Outcome (Intrinsics K) :=
  match m.type with
  | .pinhole => setPinhole p m
  | .pinholeRadialTangential => setPinholeRadialTangential p m
  | .fisheye => setFisheye p m
  | .fov => setFov p m
  | .division => setDivision p m
  | .invalid => .abort

/-- The constructors (pinhole_camera_model.cc:56-64, pinhole_radial_tangential_camera_model.cc:56-67,
fisheye_camera_model.cc:56-66, fov_camera_model.cc:56-62, division_undistortion_camera_model.cc:56-62) behind
`CameraIntrinsicsModel::Create` (camera_intrinsics_model.cc:48-73). -/
def create : ModelType → Outcome (Intrinsics K)
  | .pinhole => .ok ⟨.pinhole, [1, 1, 0, 0, 0, 0, 0]⟩
  | .pinholeRadialTangential => .ok ⟨.pinholeRadialTangential, [1, 1, 0, 0, 0, 0, 0, 0, 0, 0]⟩
  | .fisheye => .ok ⟨.fisheye, [1, 1, 0, 0, 0, 0, 0, 0, 0]⟩
  | .fov => .ok ⟨.fov, [1, 1, 0, 0, 3 / 4]⟩
  | .division => .ok ⟨.division, [1, 1, 0, 0, 0]⟩
  | .invalid => .abort

/-- The part of `CameraIntrinsicsPriorFromIntrinsics` common to all models (pinhole_camera_model.cc:109-120 without the
skew). -/
def priorCommon (m : Intrinsics K) : Outcome (IntrinsicsPrior K) := do
  let s ← typeToString m.type
  let f ← getParameter (focalIndex m.type) m
  let x ← getParameter (principalXIndex m.type) m
  let y ← getParameter (principalYIndex m.type) m
  let a ← getParameter (aspectIndex m.type) m
  .ok { (IntrinsicsPrior.default : IntrinsicsPrior K) with
    modelType := s, focal := ⟨true, f⟩, principal := ⟨true, (x, y)⟩, aspect := ⟨true, a⟩ }

/-- `PinholeCameraModel::CameraIntrinsicsPriorFromIntrinsics` (pinhole_camera_model.cc:109-128). -/
def priorPinhole (m : Intrinsics K) : Outcome (IntrinsicsPrior K) := do
  let p ← priorCommon m
  let s ← getParameter (skewIndex .pinhole) m
  let r1 ← getParameter (radialIndex .pinhole 1) m
  let r2 ← getParameter (radialIndex .pinhole 2) m
  .ok { p with skew := ⟨true, s⟩, radial := ⟨true, (r1, r2, 0, 0)⟩ }

/-- `PinholeRadialTangentialCameraModel::CameraIntrinsicsPriorFromIntrinsics`
(pinhole_radial_tangential_camera_model.cc:121-145). -/
def priorPinholeRadialTangential (m : Intrinsics K) : Outcome (IntrinsicsPrior K) := do
  let p ← priorCommon m
  let s ← getParameter (skewIndex .pinholeRadialTangential) m
  let r1 ← getParameter (radialIndex .pinholeRadialTangential 1) m
  let r2 ← getParameter (radialIndex .pinholeRadialTangential 2) m
  let r3 ← getParameter (radialIndex .pinholeRadialTangential 3) m
  let t1 ← getParameter (tangentialIndex 1) m
  let t2 ← getParameter (tangentialIndex 2) m
  .ok { p with skew := ⟨true, s⟩, radial := ⟨true, (r1, r2, r3, 0)⟩, tangential := ⟨true, (t1, t2)⟩ }

/-- `FisheyeCameraModel::CameraIntrinsicsPriorFromIntrinsics` (fisheye_camera_model.cc:117-138). -/
def priorFisheye (m : Intrinsics K) : Outcome (IntrinsicsPrior K) := do
  let p ← priorCommon m
  let s ← getParameter (skewIndex .fisheye) m
  let r1 ← getParameter (radialIndex .fisheye 1) m
  let r2 ← getParameter (radialIndex .fisheye 2) m
  let r3 ← getParameter (radialIndex .fisheye 3) m
  let r4 ← getParameter (radialIndex .fisheye 4) m
  .ok { p with skew := ⟨true, s⟩, radial := ⟨true, (r1, r2, r3, r4)⟩ }

/-- `CameraIntrinsicsPriorFromIntrinsics` of the models with one distortion parameter (fov_camera_model.cc:103-119,
division_undistortion_camera_model.cc:105-121). -/
def priorOne (m : Intrinsics K) : Outcome (IntrinsicsPrior K) := do
  let p ← priorCommon m
  let r1 ← getParameter (radialIndex m.type 1) m
  .ok { p with radial := ⟨true, (r1, 0, 0, 0)⟩ }

/-- The virtual `CameraIntrinsicsPriorFromIntrinsics`. -/
def priorFrom (m : Intrinsics K) : Outcome (IntrinsicsPrior K) :=
  match m.type with
  | .pinhole => priorPinhole m
  | .pinholeRadialTangential => priorPinholeRadialTangential m
  | .fisheye => priorFisheye m
  | .fov => priorOne m
  | .division => priorOne m
  | .invalid => .abort

/-- The part of `Camera` used here: intrinsics and `image_size_`. -/
structure Camera (K : Type) where
  intrinsics : Intrinsics K
  width : Int
  height : Int
  deriving DecidableEq, Repr

/-- The intrinsics object a prior is applied to: a new one if the model differs (camera.cc:123-126). -/
def Camera.modelFor (t : ModelType) (c : Camera K) : Outcome (Intrinsics K) :=
  if c.intrinsics.type ≠ t then create t else .ok c.intrinsics

/-- `Camera::SetFromCameraIntrinsicsPriors` (camera.cc:120-130). -/
def Camera.setFromPriors (p : IntrinsicsPrior K) (c : Camera K) : Outcome (Camera K) := do
  let t ← stringToType p.modelType
  let m ← c.modelFor t
  let m ← CameraPriors.setFromPriors p m
  .ok ⟨m, p.width, p.height⟩

/-- `Camera::CameraIntrinsicsPriorFromIntrinsics` (camera.cc:132-138). -/
def Camera.priorFrom (c : Camera K) : Outcome (IntrinsicsPrior K) := do
  let p ← CameraPriors.priorFrom c.intrinsics
  .ok { p with width := c.width, height := c.height }

/-- `Camera::DeepCopy` (camera.cc:100-118), for intrinsics and size. `std::copy` writes as many parameters as the source
has to the new object of the same class. -/
def Camera.deepCopy (c : Camera K) : Outcome (Camera K) := do
  let m ← (create c.intrinsics.type : Outcome (Intrinsics K))
  if m.params.length = c.intrinsics.params.length then
    .ok ⟨{ m with params := c.intrinsics.params }, c.width, c.height⟩
  else .ub

end

/-- A value in an archive. -/
inductive Tok (K : Type) where
  | int (n : Int)
  | str (s : String)
  | bool (b : Bool)
  | dbl (x : K)
  deriving DecidableEq, Repr

/-- A type that can be written and read: `ar(x)`. -/
class Serial (K α : Type) where
  put : α → List (Tok K)
  get : List (Tok K) → Outcome (α × List (Tok K))

/-- Reading a value of the wrong kind: the bytes of the archive are misread. -/
instance : Serial K Int where
  put n := [.int n]
  get
    | .int n :: r => .ok (n, r)
    | _ => .ub

instance : Serial K String where
  put s := [.str s]
  get
    | .str s :: r => .ok (s, r)
    | _ => .ub

instance : Serial K Bool where
  put b := [.bool b]
  get
    | .bool b :: r => .ok (b, r)
    | _ => .ub

instance serialDouble : Serial K K where
  put x := [.dbl x]
  get
    | .dbl x :: r => .ok (x, r)
    | _ => .ub

instance serialProd [Serial K α] [Serial K β] : Serial K (α × β) where
  put p := Serial.put p.1 ++ Serial.put p.2
  get r := do
    let (a, r) ← Serial.get r
    let (b, r) ← Serial.get r
    .ok ((a, b), r)

/-- `Prior::serialize` (camera_intrinsics_prior.h:61-63). -/
instance serialPrior [Serial K α] : Serial K (Prior α) where
  put p := Serial.put p.isSet ++ Serial.put p.value
  get r := do
    let (b, r) ← Serial.get r
    let (v, r) ← Serial.get r
    .ok (⟨b, v⟩, r)

section
variable [Zero K]

/-- `CameraIntrinsicsPrior::serialize` of the current version 4 to an output archive
(camera_intrinsics_prior.h:107-111). -/
def save (p : IntrinsicsPrior K) : List (Tok K) :=
  Serial.put p.width ++ (Serial.put p.height ++ (Serial.put p.modelType ++ (Serial.put p.focal ++
    (Serial.put p.principal ++ (Serial.put p.aspect ++ (Serial.put p.skew ++ (Serial.put p.radial ++
    (Serial.put p.tangential ++ (Serial.put p.position ++ (Serial.put p.orientation ++ (Serial.put p.latitude ++
    (Serial.put p.longitude ++ Serial.put p.altitude))))))))))))

/-- `serialize` from an input archive of version 4 or more (camera_intrinsics_prior.h:107-111). -/
def load4 (r : List (Tok K)) : Outcome (IntrinsicsPrior K × List (Tok K)) := do
  let (width, r) ← Serial.get r
  let (height, r) ← Serial.get r
  let (modelType, r) ← Serial.get r
  let (focal, r) ← Serial.get r
  let (principal, r) ← Serial.get r
  let (aspect, r) ← Serial.get r
  let (skew, r) ← Serial.get r
  let (radial, r) ← Serial.get r
  let (tangential, r) ← Serial.get r
  let (position, r) ← Serial.get r
  let (orientation, r) ← Serial.get r
  let (latitude, r) ← Serial.get r
  let (longitude, r) ← Serial.get r
  let (altitude, r) ← Serial.get r
  .ok (⟨width, height, modelType, focal, principal, aspect, skew, radial, tangential, position, orientation, latitude,
    longitude, altitude⟩, r)

/-- Version 3 (camera_intrinsics_prior.h:112-115): the principal point of the object stays. -/
def load3 (into : IntrinsicsPrior K) (r : List (Tok K)) : Outcome (IntrinsicsPrior K × List (Tok K)) := do
  let (width, r) ← Serial.get r
  let (height, r) ← Serial.get r
  let (modelType, r) ← Serial.get r
  let (focal, r) ← Serial.get r
  let (aspect, r) ← Serial.get r
  let (skew, r) ← Serial.get r
  let (radial, r) ← Serial.get r
  let (tangential, r) ← Serial.get r
  let (position, r) ← Serial.get r
  let (orientation, r) ← Serial.get r
  let (latitude, r) ← Serial.get r
  let (longitude, r) ← Serial.get r
  let (altitude, r) ← Serial.get r
  .ok (⟨width, height, modelType, focal, into.principal, aspect, skew, radial, tangential, position, orientation,
    latitude, longitude, altitude⟩, r)

/-- Version 2 (camera_intrinsics_prior.h:116-124): two radial parameters, no model type. -/
def load2 (into : IntrinsicsPrior K) (r : List (Tok K)) : Outcome (IntrinsicsPrior K × List (Tok K)) := do
  let (width, r) ← Serial.get r
  let (height, r) ← Serial.get r
  let (focal, r) ← Serial.get r
  let (aspect, r) ← Serial.get r
  let (skew, r) ← Serial.get r
  let ((old : Prior (K × K)), r) ← Serial.get r
  let (tangential, r) ← Serial.get r
  let (position, r) ← Serial.get r
  let (orientation, r) ← Serial.get r
  let (latitude, r) ← Serial.get r
  let (longitude, r) ← Serial.get r
  let (altitude, r) ← Serial.get r
  .ok (⟨width, height, into.modelType, focal, into.principal, aspect, skew,
    ⟨old.isSet, (old.value.1, old.value.2, into.radial.value.2.2)⟩, tangential, position, orientation, latitude,
    longitude, altitude⟩, r)

/-- Versions 0 and 1 after the image size (camera_intrinsics_prior.h:130-140). -/
def load01 (into : IntrinsicsPrior K) (r : List (Tok K)) : Outcome (IntrinsicsPrior K × List (Tok K)) := do
  let (focal, r) ← Serial.get r
  let ((ppx : Prior K), r) ← Serial.get r
  let ((ppy : Prior K), r) ← Serial.get r
  let (aspect, r) ← Serial.get r
  let (skew, r) ← Serial.get r
  let ((rd1 : Prior K), r) ← Serial.get r
  let ((rd2 : Prior K), r) ← Serial.get r
  .ok ({ into with
    focal := focal, principal := ⟨ppx.isSet && ppy.isSet, (ppx.value, ppy.value)⟩, aspect := aspect, skew := skew,
    radial := ⟨rd1.isSet && rd2.isSet, (rd1.value, rd2.value, into.radial.value.2.2)⟩ }, r)

/-- `serialize` from an input archive (camera_intrinsics_prior.h:106-141). -/
def load (version : Nat) (into : IntrinsicsPrior K) (r : List (Tok K)) : Outcome (IntrinsicsPrior K × List (Tok K)) :=
  if version ≥ 4 then load4 r
  else if version = 3 then load3 into r
  else if version = 2 then load2 into r
  else if version ≥ 1 then do
    let (width, r) ← Serial.get r
    let (height, r) ← Serial.get r
    load01 { into with width := width, height := height } r
  else load01 into r

end

/-- `OptimizeIntrinsicsType` (bundle_adjustment.h:65-75) as its bits: `FOCAL_LENGTH` 0, `ASPECT_RATIO` 1, `SKEW` 2,
`PRINCIPAL_POINTS` 3, `RADIAL_DISTORTION` 4, `TANGENTIAL_DISTORTION` 5. -/
abbrev Mask := Nat

/-- `ALL` (bundle_adjustment.h:73-74). -/
def maskAll : Mask := 63

/-- The test `(mask & flag) == NONE` followed by pushing indices. -/
def pushUnless (mask flag : Nat) (is : List Nat) : List Nat := if mask &&& flag = 0 then is else []

/-- `GetSubsetFromOptimizeIntrinsicsType` (pinhole_camera_model.cc:132-162,
pinhole_radial_tangential_camera_model.cc:149-188, fisheye_camera_model.cc:142-174, fov_camera_model.cc:124-149,
division_undistortion_camera_model.cc:125-151). -/
def constantSubset (t : ModelType) (mask : Mask) : List Nat :=
  if mask = maskAll then []
  else
    match t with
    | .pinhole =>
      pushUnless mask 1 [focalIndex t] ++ pushUnless mask 2 [aspectIndex t] ++ pushUnless mask 4 [skewIndex t] ++
        pushUnless mask 8 [principalXIndex t, principalYIndex t] ++
        pushUnless mask 16 [radialIndex t 1, radialIndex t 2]
    | .pinholeRadialTangential =>
      pushUnless mask 1 [focalIndex t] ++ pushUnless mask 2 [aspectIndex t] ++ pushUnless mask 4 [skewIndex t] ++
        pushUnless mask 8 [principalXIndex t, principalYIndex t] ++
        pushUnless mask 16 [radialIndex t 1, radialIndex t 2, radialIndex t 3] ++
        pushUnless mask 32 [tangentialIndex 1, tangentialIndex 2]
    | .fisheye =>
      pushUnless mask 1 [focalIndex t] ++ pushUnless mask 2 [aspectIndex t] ++ pushUnless mask 4 [skewIndex t] ++
        pushUnless mask 8 [principalXIndex t, principalYIndex t] ++
        pushUnless mask 16 [radialIndex t 1, radialIndex t 2, radialIndex t 3, radialIndex t 4]
    | .fov =>
      pushUnless mask 1 [focalIndex t] ++ pushUnless mask 2 [aspectIndex t] ++
        pushUnless mask 8 [principalXIndex t, principalYIndex t] ++ pushUnless mask 16 [radialIndex t 1]
    | .division =>
      pushUnless mask 1 [focalIndex t] ++ pushUnless mask 2 [aspectIndex t] ++
        pushUnless mask 8 [principalXIndex t, principalYIndex t] ++ pushUnless mask 16 [radialIndex t 1]
    | .invalid => []

end CameraPriors
end Theia
