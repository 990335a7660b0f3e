import Verif.Model.CameraModels
import Verif.Model.Reconstruction

/-!
# Model of src/theia/sfm/undistort_image.cc

Over the reals. A camera holds a pointer to its intrinsics; copying a camera copies the pointer (camera.cc:78-99), so a heap
maps addresses to intrinsics. `eps` is the machine epsilon, `big` the largest double.
-/

namespace Theia
namespace Undistort

open CameraModels

/-- The distortion parameters of the five camera models. -/
inductive Lens where
  | pinhole (k1 k2 : ℝ)
  | radialTangential (k : RadialTangential)
  | fisheye (k : Fisheye)
  | fov (omega : ℝ)
  | division (k : ℝ)

/-- A camera intrinsics object. -/
structure Intrinsics where
  calibration : Calibration
  lens : Lens

/-- `CameraToImageCoordinates` (camera_intrinsics_model.cc: dispatch on the type). -/
noncomputable def Intrinsics.toPixel (eps : ℝ) (m : Intrinsics) : V3 ℝ → Outcome V2 :=
  match m.lens with
  | .pinhole k1 k2 => pinholeToPixel m.calibration k1 k2
  | .radialTangential k => rtToPixel m.calibration k
  | .fisheye k => fisheyeToPixel m.calibration k
  | .fov omega => fovToPixel m.calibration omega
  | .division k => divisionToPixel eps m.calibration k

/-- `ImageToCameraCoordinates` (camera_intrinsics_model.cc: dispatch on the type). -/
noncomputable def Intrinsics.toCamera (m : Intrinsics) : V2 → Outcome (V3 ℝ) :=
  match m.lens with
  | .pinhole k1 k2 => pinholeToCamera m.calibration k1 k2
  | .radialTangential k => rtToCamera m.calibration k
  | .fisheye k => fisheyeToCamera m.calibration k
  | .fov omega => fovToCamera m.calibration omega
  | .division k => divisionToCamera m.calibration k

/-- `SetLensDistortionToZero` (undistort_image.cc:57-92). -/
noncomputable def Lens.zero : Lens → Lens
  | .pinhole _ _ => .pinhole 0 0
  | .radialTangential _ => .radialTangential ⟨0, 0, 0, 0, 0⟩
  | .fisheye _ => .fisheye ⟨0, 0, 0, 0⟩
  | .fov _ => .fov 0
  | .division _ => .division 0

/-- The intrinsics objects in memory. -/
abbrev Heap := Nat → Option Intrinsics

/-- Following a pointer. -/
def Heap.look (h : Heap) (q : Nat) : Outcome Intrinsics :=
  match h q with
  | none => .ub
  | some m => .ok m

/-- Writing through a pointer. -/
def Heap.set (h : Heap) (q : Nat) (m : Intrinsics) : Heap := fun i => if i = q then some m else h i

/-- `Camera` (camera.h): pose, pointer to the intrinsics, image size. -/
structure Camera where
  pose : Pose
  intrinsics : Nat
  width : Nat
  height : Nat

/-- A pixel of one camera as a pixel of another with the same pose (undistort_image.cc:118-122 and elsewhere). -/
noncomputable def remap (eps : ℝ) (source target : Intrinsics) (p : V2) : Outcome V2 := do
  let ray ← source.toCamera p
  target.toPixel eps ray

/-- The loop over the rows (undistort_image.cc:115-131). -/
noncomputable def sideLoop (eps : ℝ) (d u : Intrinsics) (width : Nat) : List Nat → ℝ × ℝ → Outcome (ℝ × ℝ)
  | [], b => .ok b
  | y :: ys, b => do
    let p ← remap eps d u (1 / 2, (y : ℝ) + 0)
    let q ← remap eps d u ((width : ℝ) - 1 / 2, (y : ℝ) + 1 / 2)
    sideLoop eps d u width ys (max b.1 p.1, min b.2 q.1)

/-- The loop over the columns (undistort_image.cc:136-153). -/
noncomputable def topLoop (eps : ℝ) (d u : Intrinsics) (height : Nat) : List Nat → ℝ × ℝ → Outcome (ℝ × ℝ)
  | [], b => .ok b
  | x :: xs, b => do
    let p ← remap eps d u ((x : ℝ) + 1 / 2, 1 / 2)
    let q ← remap eps d u ((x : ℝ) + 1 / 2, (height : ℝ) - 1 / 2)
    topLoop eps d u height xs (max b.1 p.2, min b.2 q.2)

/-- `1.0 / std::max(c / (c - low), (size - 0.5 - c) / (high - c))` (undistort_image.cc:235-242). -/
noncomputable def scaleOf (c low high size : ℝ) : Outcome ℝ := do
  let a ← divide c (c - low)
  let b ← divide (size - 1 / 2 - c) (high - c)
  divide 1 (max a b)

/-- `static_cast<int>(std::max(1.0, scale * size))` (undistort_image.cc:245-248). -/
noncomputable def newSize (scale : ℝ) (size : Nat) : Outcome Nat :=
  if max 1 (scale * size) < 2 ^ 31 then .ok ⌊max 1 (scale * size)⌋₊ else .ub

/-- `UndistortCamera` (undistort_image.cc:218-259, with `FindUndistortedImageBoundary`, lines 100-156). The assignment of the
camera copies the pointer, so the distortion of the object both cameras point to is set to zero. -/
noncomputable def undistortCamera (eps big : ℝ) (heap : Heap) (cam : Camera) : Outcome (Heap × Camera) := do
  let undistorted := cam
  let m ← heap.look undistorted.intrinsics
  let heap := heap.set undistorted.intrinsics { m with lens := m.lens.zero }
  let d ← heap.look cam.intrinsics
  let u ← heap.look undistorted.intrinsics
  let (left, right) ← sideLoop eps d u cam.width (List.range cam.height) (-big, big)
  let (top, bottom) ← topLoop eps d u cam.height (List.range cam.width) (-big, big)
  let sx ← scaleOf u.calibration.px left right cam.width
  let sy ← scaleOf u.calibration.py top bottom cam.height
  let width ← newSize sx undistorted.width
  let height ← newSize sy undistorted.height
  let px ← divide (u.calibration.px * width) cam.width
  let py ← divide (u.calibration.py * height) cam.height
  .ok (heap.set undistorted.intrinsics { u with calibration := { u.calibration with px := px, py := py } },
    { undistorted with width := width, height := height })

/-- `RemoveImageLensDistortion` (undistort_image.cc:162-196): the value of a channel of a pixel of the undistorted image.
`sample` is `BilinearInterpolate` of the distorted image. -/
noncomputable def removeDistortion (eps : ℝ) (d u : Intrinsics) (sample : V2 → Nat → ℝ) (x y c : Nat) : Outcome ℝ := do
  let p ← remap eps u d ((x : ℝ) + 1 / 2, (y : ℝ) + 1 / 2)
  .ok (sample p c)

/-- `UndistortImage` (undistort_image.cc:200-215): the size of the image and its pixels. -/
noncomputable def undistortImage (eps : ℝ) (heap : Heap) (distorted undistorted : Camera) (sample : V2 → Nat → ℝ) :
    Outcome ((Nat × Nat) × (Nat → Nat → Nat → Outcome ℝ)) := do
  let d ← heap.look distorted.intrinsics
  let u ← heap.look undistorted.intrinsics
  .ok ((undistorted.width, undistorted.height), removeDistortion eps d u sample)

/-! ## Reconstructions -/

/-- A reconstruction with the intrinsics its cameras point to and the image sizes. The poses do not matter. -/
structure Scene (P : Type) where
  recon : Reconstruction V2 P
  heap : Heap
  size : ViewId → Nat × Nat

/-- Whether a feature is outside the new image (undistort_image.cc:300-303). -/
noncomputable def outside (size : Nat × Nat) (f : V2) : Bool :=
  decide (f.1 < 0) || decide ((size.1 : ℝ) - 1 < f.1) || decide (f.2 < 0) || decide ((size.2 : ℝ) - 1 < f.2)

/-- The loop over the features of a view (undistort_image.cc:283-313). -/
noncomputable def featureLoop {P : Type} (eps : ℝ) (d u : Intrinsics) (size : Nat × Nat) (v : ViewId) :
    List TrackId → Reconstruction V2 P → Outcome (Reconstruction V2 P)
  | [], r => .ok r
  | t :: ts, r =>
    match r.tracks.get t with
    | none => featureLoop eps d u size v ts r
    | some T =>
      if !T.estimated then featureLoop eps d u size v ts r
      else
        match r.views.get v with
        | none => .ub
        | some V =>
          match V.features.get t with
          | none => .ub
          | some f => do
            let g ← remap eps d u f
            let r1 := { r with views := r.views.insert v { V with features := V.features.erase t } }
            if outside size g then
              let T' := (T.removeView v).2
              let r2 := { r1 with tracks := r1.tracks.insert t T' }
              if T'.views.length = 0 then featureLoop eps d u size v ts (r2.removeTrack t).2
              else featureLoop eps d u size v ts r2
            else
              featureLoop eps d u size v ts
                { r1 with views := r1.views.insert v { V with features := (V.features.erase t).insert t g } }

/-- The loop over the views (undistort_image.cc:262-314). The local copy of the camera shares the intrinsics with the camera
of the view. `order` is the iteration order of the features of a view. -/
noncomputable def viewLoop {P : Type} (eps big : ℝ) (order : List TrackId → List TrackId) :
    List ViewId → Scene P → Outcome (Scene P)
  | [], s => .ok s
  | v :: vs, s =>
    match s.recon.views.get v with
    | none => viewLoop eps big order vs s
    | some V =>
      if !V.estimated then viewLoop eps big order vs s
      else do
        let (heap, cam) ← undistortCamera eps big s.heap ⟨⟨V3.zero, V3.zero⟩, V.intrinsics, (s.size v).1, (s.size v).2⟩
        let d ← heap.look V.intrinsics
        let u ← heap.look cam.intrinsics
        let recon ← featureLoop eps d u (cam.width, cam.height) v (order V.features.keys) s.recon
        viewLoop eps big order vs
          ⟨recon, heap, fun w => if w = v then (cam.width, cam.height) else s.size w⟩

/-- `UndistortReconstruction` (undistort_image.cc:261-317). -/
noncomputable def undistortReconstruction {P : Type} (eps big : ℝ) (order : List Nat → List Nat) (s : Scene P) :
    Outcome (Scene P) :=
  viewLoop eps big order (order s.recon.viewIds) s

end Undistort
end Theia
