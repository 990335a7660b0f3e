import Verif.Spec.Triangulation

/-!
# Specification of fundamental matrices
-/

namespace Theia
namespace Spec

/-- `p` is the (homogeneous) image of the homogeneous point `(X, w)` under the projection matrix `[M | m]`. -/
def ImageOf (M : M3 ℝ) (m : V3 ℝ) (X : V3 ℝ) (w : ℝ) (p : V3 ℝ) : Prop := p = (M.mulVec X).add (m.smul w)

/-- `y^t F x = 0`. -/
def Epipolar (y : V3 ℝ) (F : M3 ℝ) (x : V3 ℝ) : Prop := y.dot (F.mulVec x) = 0

/-- A unit vector that `F` maps to zero. -/
def UnitNull (F : M3 ℝ) (e : V3 ℝ) : Prop := e.dot e = 1 ∧ F.mulVec e = V3.zero

/-- The calibration matrix of a camera with focal length `f` and principal point zero. -/
def Calib (f : ℝ) : M3 ℝ := ⟨⟨f, 0, 0⟩, ⟨0, f, 0⟩, ⟨0, 0, 1⟩⟩

/-- `F` is, up to the factor `k`, the fundamental matrix of the cameras with focal lengths `f1` and `f2`, the first at the
origin and the second at `x -> R x + t`: `K2 F K1 = k [t]_x R`. -/
def FundamentalOf (F : M3 ℝ) (k f1 f2 : ℝ) (R : M3 ℝ) (t : V3 ℝ) : Prop :=
  ∀ v, (Calib f2).mulVec (F.mulVec ((Calib f1).mulVec v)) = (t.cross (R.mulVec v)).smul k

/-- The optical axis. -/
def axis : V3 ℝ := ⟨0, 0, 1⟩

/-- The configurations of two cameras from which both focal lengths can be found: the optical axes do not lie in a plane,
the planes they span with the baseline are not perpendicular, neither camera moves sideways only, and neither epipole lies
on the vertical line through the image centre. -/
structure Generic (R : M3 ℝ) (t : V3 ℝ) : Prop where
  skew : axis.dot (t.cross (R.mulVec axis)) ≠ 0
  notPerpendicular : (t.cross axis).dot (t.cross (R.mulVec axis)) ≠ 0
  depth2 : t.z ≠ 0
  depth1 : (R.transpose.mulVec t).z ≠ 0
  column2 : t.x ≠ 0
  column1 : (R.transpose.mulVec t).x ≠ 0

end Spec
end Theia
