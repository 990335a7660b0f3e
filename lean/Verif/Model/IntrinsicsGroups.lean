import Verif.Model.CameraPriors
import Verif.Model.Reconstruction

/-!
# Model of `SetCameraIntrinsicsFromPriors` (src/theia/sfm/set_camera_intrinsics_from_priors.cc)

A camera holds a pointer to an intrinsics object that several cameras may share. `Reconstruction` has the pointers
(`View.intrinsics`); `Scene` adds the objects they point to, the image sizes and the priors.
-/

namespace Theia
namespace IntrinsicsGroups

open CameraPriors

variable {F P K : Type}

/-- A reconstruction with the contents of its cameras: `heap` maps the address of an intrinsics object to its contents. -/
structure Scene (F P K : Type) where
  recon : Reconstruction F P
  heap : Nat → Option (Intrinsics K)
  size : ViewId → Int × Int
  prior : ViewId → IntrinsicsPrior K

/-- The camera of a view as a reader sees it: the intrinsics behind the pointer and the image size. -/
def Scene.camera (s : Scene F P K) (v : ViewId) : Option (Camera K) :=
  match s.recon.view v with
  | none => none
  | some V =>
    match s.heap V.intrinsics with
    | none => none
    | some m => some ⟨m, (s.size v).1, (s.size v).2⟩

/-- The assignment `view->MutableCamera()->MutableCameraIntrinsics() = ...; SetImageSize(...)`
(set_camera_intrinsics_from_priors.cc:119-122). -/
def Scene.point (s : Scene F P K) (v : ViewId) (q : Nat) (size : Int × Int) : Scene F P K :=
  { s with
    recon := { s.recon with views := s.recon.views.modify v (fun V => { V with intrinsics := q }) }
    size := fun w => if w = v then size else s.size w }

/-- `InitializeRepresentativeCameraInGroup` (set_camera_intrinsics_from_priors.cc:50-74): the loop. -/
def representative (r : Reconstruction F P) : List ViewId → Option ViewId → Option ViewId
  | [], acc => acc
  | v :: vs, acc =>
    match r.view v with
    | none => representative r vs acc
    | some V => if V.estimated then some v else representative r vs (some v)

/-- The loop over the other views of the group (set_camera_intrinsics_from_priors.cc:107-123). -/
def shareLoop (rep : ViewId) (q : Nat) (size : Int × Int) : List ViewId → Scene F P K → Scene F P K
  | [], s => s
  | v :: vs, s =>
    match s.recon.view v with
    | none => shareLoop rep q size vs s
    | some _ => if rep = v then shareLoop rep q size vs s else shareLoop rep q size vs (s.point v q size)

section
variable [Field K] [LinearOrder K]

/-- `Camera::SetFromCameraIntrinsicsPriors` (camera.cc:120-130) on the heap: a new intrinsics object is allocated if the
model differs, else the object is changed in place. Returns the address. -/
def setCamera (s : Scene F P K) (v : ViewId) (V : View F) : Outcome (Nat × Scene F P K) :=
  match s.heap V.intrinsics with
  | none => .ub
  | some m => do
    let t ← stringToType (s.prior v).modelType
    if m.type ≠ t then do
      let m ← (create t : Outcome (Intrinsics K))
      let m ← setFromPriors (s.prior v) m
      let q := s.recon.nextIntrinsics
      let s := { s with
        recon := { s.recon with nextIntrinsics := q + 1 }
        heap := fun i => if i = q then some m else s.heap i }
      .ok (q, s.point v q ((s.prior v).width, (s.prior v).height))
    else do
      let m ← setFromPriors (s.prior v) m
      let q := V.intrinsics
      let s := { s with heap := fun i => if i = q then some m else s.heap i }
      .ok (q, s.point v q ((s.prior v).width, (s.prior v).height))

/-- The body of the loop over groups (set_camera_intrinsics_from_priors.cc:88-123). `views` is the set of views of the
group in iteration order. -/
def setGroup (views : List ViewId) (s : Scene F P K) : Outcome (Scene F P K) :=
  match representative s.recon views none with
  | none => .ub
  | some rep =>
    match s.recon.view rep with
    | none => .ub
    | some V => do
      let (q, s) ← setCamera s rep V
      .ok (shareLoop rep q (s.size rep) views s)

/-- The loop over groups (set_camera_intrinsics_from_priors.cc:86-124). `order` is the iteration order of the sets of
views. -/
def setGroups (order : List ViewId → List ViewId) : List GroupId → Scene F P K → Outcome (Scene F P K)
  | [], s => .ok s
  | g :: gs, s => do
    let s ← setGroup (order (s.recon.viewsInGroup g)) s
    setGroups order gs s

/-- `SetCameraIntrinsicsFromPriors` (set_camera_intrinsics_from_priors.cc:82-125). -/
def setAll (order : List Nat → List Nat) (s : Scene F P K) : Outcome (Scene F P K) :=
  setGroups order (order s.recon.groupIds) s

end
end IntrinsicsGroups
end Theia
