import Verif.Model.Undistort
import Verif.Spec.Reconstruction

/-!
# Undistorted cameras, images and reconstructions
-/

namespace Theia
namespace Spec

open CameraModels Undistort

/-- The camera model is not the fisheye model. -/
def NotFisheye : Lens → Prop
  | .fisheye _ => False
  | _ => True

/-- Focal length and aspect ratio are not zero. -/
def Usable (c : Calibration) : Prop := c.focal ≠ 0 ∧ c.aspect ≠ 0

/-- The skew as far as the model has one. -/
def skewOf (m : Intrinsics) : ℝ :=
  match m.lens with
  | .fov _ => 0
  | .division _ => 0
  | _ => m.calibration.skew

/-- The camera is a perspective camera: no lens distortion. -/
def IsPerspective (toPixel : V3 ℝ → Outcome (ℝ × ℝ)) (focal aspect skew px py : ℝ) : Prop :=
  ∀ point : V3 ℝ, point.z ≠ 0 → toPixel point =
    .ok (focal * (point.x / point.z) + skew * (point.y / point.z) + px, focal * aspect * (point.y / point.z) + py)

/-- The principal point along one axis is not on the centre of the last pixel, nor before the centre of the first; sizes are
in the range of the integers. -/
def GoodAxis (big p : ℝ) (size : Nat) : Prop := 0 < size ∧ size < 2 ^ 31 ∧ 2 ^ 31 ≤ big ∧ 1 / 2 < p ∧ p ≠ (size : ℝ) - 1 / 2

/-- The largest integer size of at least one that keeps the proportion of the principal point. -/
noncomputable def croppedSize (p : ℝ) (size : Nat) : Nat := ⌊max 1 ((p - 1 / 2) / p * size)⌋₊

/-- The feature of a track in a view. -/
def featureOf {P : Type} (r : Reconstruction (ℝ × ℝ) P) (v t : Nat) : Option (ℝ × ℝ) :=
  match r.view v with
  | none => none
  | some V => V.getFeature t

/-- View and track know the same observations. -/
def Agreeing {P : Type} (r : Reconstruction (ℝ × ℝ) P) : Prop := ∀ v t, (∃ f, featureOf r v t = some f) ↔ ListedIn r v t

/-- The feature is between zero and the size less one. -/
def InsideImage (size : Nat × Nat) (f : ℝ × ℝ) : Prop := 0 ≤ f.1 ∧ f.1 ≤ (size.1 : ℝ) - 1 ∧ 0 ≤ f.2 ∧ f.2 ≤ (size.2 : ℝ) - 1

/-- The observation of track `t` in view `v` is lost: both are estimated and the feature is outside the new image. -/
def Lost {P : Type} (r : Reconstruction (ℝ × ℝ) P) (size : Nat → Nat × Nat) (v t : Nat) : Prop :=
  ∃ V T f, r.view v = some V ∧ V.estimated = true ∧ r.track t = some T ∧ T.estimated = true ∧ featureOf r v t = some f ∧
    ¬ InsideImage (size v) f

/-- `r'` is `r` without the observations in `S`: views keep their other features with the same coordinates, tracks lose the
views, and tracks that lost all their views are gone. -/
structure Without {P : Type} (S : Nat → Nat → Prop) (r r' : Reconstruction (ℝ × ℝ) P) : Prop where
  views : ∀ v, (r'.view v).map (fun V => (V.name, V.estimated, V.intrinsics)) =
    (r.view v).map (fun V => (V.name, V.estimated, V.intrinsics))
  kept : ∀ v t, ¬ S v t → featureOf r' v t = featureOf r v t
  lost : ∀ v t, S v t → featureOf r' v t = none
  track : ∀ t T', r'.track t = some T' → ∃ T, r.track t = some T ∧ T'.estimated = T.estimated ∧ T'.payload = T.payload ∧
    ∀ v, v ∈ T'.views ↔ v ∈ T.views ∧ ¬ S v t
  gone : ∀ t T, r.track t = some T → (r'.track t = none ↔ (∃ v, S v t) ∧ ∀ v ∈ T.views, S v t)

end Spec
end Theia
