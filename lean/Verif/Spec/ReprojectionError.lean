import Mathlib.Analysis.SpecialFunctions.Trigonometric.Arctan
import Verif.Base.RotationMatrix
import Verif.Model.CameraPriors
import Verif.Spec.BundleAdjuster

/-!
# Where cameras see points, and what robust losses are
-/

namespace Theia
namespace Spec

open CameraPriors

/-- The pixel at which a camera with these parameters sees the point `(X, Y, Z)` of its own coordinate system: the equations of the
five camera models. `f`, `a`, `s`, `px`, `py` are focal length, aspect ratio, skew and principal point. -/
inductive ImagedAt : ModelType → List ℝ → V3 ℝ → ℝ × ℝ → Prop
  /-- Perspective projection with two radial coefficients. -/
  | pinhole (f a s px py k1 k2 x y r2 dx dy Z : ℝ) (hZ : Z ≠ 0) (hr : r2 = x ^ 2 + y ^ 2)
      (hx : dx = x * (1 + k1 * r2 + k2 * r2 ^ 2)) (hy : dy = y * (1 + k1 * r2 + k2 * r2 ^ 2)) :
      ImagedAt .pinhole [f, a, s, px, py, k1, k2] ⟨x * Z, y * Z, Z⟩ (f * dx + s * dy + px, f * a * dy + py)
  /-- Perspective projection with three radial and two tangential coefficients. -/
  | radialTangential (f a s px py k1 k2 k3 t1 t2 x y r2 dx dy Z : ℝ) (hZ : Z ≠ 0) (hr : r2 = x ^ 2 + y ^ 2)
      (hx : dx = x * (1 + k1 * r2 + k2 * r2 ^ 2 + k3 * r2 ^ 3) + 2 * t1 * x * y + t2 * (r2 + 2 * x ^ 2))
      (hy : dy = y * (1 + k1 * r2 + k2 * r2 ^ 2 + k3 * r2 ^ 3) + t1 * (r2 + 2 * y ^ 2) + 2 * t2 * x * y) :
      ImagedAt .pinholeRadialTangential [f, a, s, px, py, k1, k2, k3, t1, t2] ⟨x * Z, y * Z, Z⟩
        (f * dx + s * dy + px, f * a * dy + py)
  /-- The distance from the centre is an odd polynomial of the angle to the optical axis. The point must not be near the axis. -/
  | fisheye (f a s px py k1 k2 k3 k4 X Y Z r theta d : ℝ) (hr : 0 < r) (hr2 : r ^ 2 = X ^ 2 + Y ^ 2) (hfar : 1 / 10 ^ 8 ≤ r ^ 2)
      (hZ : 0 < Z) (h0 : 0 < theta) (h1 : theta < Real.pi / 2) (ht : Real.tan theta * Z = r)
      (hd : d = theta * (1 + k1 * theta ^ 2 + k2 * theta ^ 4 + k3 * theta ^ 6 + k4 * theta ^ 8)) :
      ImagedAt .fisheye [f, a, s, px, py, k1, k2, k3, k4] ⟨X, Y, Z⟩
        (f * (d * (X / r)) + s * (d * (Y / r)) + px, f * a * (d * (Y / r)) + py)
  /-- The distance from the centre is proportional to an angle. Neither the field of view nor the radius may be small. -/
  | fov (f a px py omega x y r d Z : ℝ) (hZ : Z ≠ 0) (ho : 1 / 1000 ≤ omega) (hr : 0 < r) (hr2 : r ^ 2 = x ^ 2 + y ^ 2)
      (hfar : 1 / 1000 ≤ r ^ 2) (h0 : -(Real.pi / 2) < d * omega) (h1 : d * omega < Real.pi / 2)
      (hd : Real.tan (d * omega) = 2 * r * Real.tan (omega / 2)) :
      ImagedAt .fov [f, a, px, py, omega] ⟨x * Z, y * Z, Z⟩ (f * (d * (x / r)) + px, f * a * (d * (y / r)) + py)
  /-- Dividing the distorted pixel `(u, v)` by `1 + k (u² + v²)` gives the perspective projection. The distortion must not be tiny. -/
  | division (f a px py k u v x y Z : ℝ) (hZ : Z ≠ 0) (hx : f * x * (1 + k * (u ^ 2 + v ^ 2)) = u)
      (hy : f * a * y * (1 + k * (u ^ 2 + v ^ 2)) = v) (h1 : |k * (u ^ 2 + v ^ 2)| ≤ 1)
      (hbig : 1 / 10 ^ 10 ≤ |k * ((f * x) ^ 2 + (f * a * y) ^ 2)|) :
      ImagedAt .division [f, a, px, py, k] ⟨x * Z, y * Z, Z⟩ (u + px, v + py)

/-- The point in camera coordinates of a homogeneous point `(x, w)`, up to the positive factor `w`. -/
noncomputable def cameraPoint (orientation position x : V3 ℝ) (w : ℝ) : V3 ℝ :=
  (AngleAxis.toM orientation).mulVec (x.sub (position.smul w))

/-- The homogeneous point is near the camera centre: `‖x - w c‖ < 10⁻⁴`. -/
def NearCentre (position x : V3 ℝ) (w : ℝ) : Prop :=
  (x.sub (position.smul w)).dot (x.sub (position.smul w)) < 1 / 10 ^ 8

/-- A robust loss: zero at zero, positive elsewhere, nondecreasing, never above the squared residual, and
without jumps. -/
structure RobustLoss (rho : ℝ → ℝ) : Prop where
  zero : rho 0 = 0
  pos : ∀ s, 0 < s → 0 < rho s
  mono : ∀ s s', 0 ≤ s → s ≤ s' → rho s ≤ rho s'
  le : ∀ s, 0 ≤ s → rho s ≤ s
  continuous : ContinuousOn rho (Set.Ici 0)

end Spec
end Theia
