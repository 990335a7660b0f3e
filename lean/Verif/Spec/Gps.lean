import Verif.Base.Geometry
import Mathlib.Analysis.SpecialFunctions.Trigonometric.Basic
import Mathlib.Analysis.SpecialFunctions.Trigonometric.Inverse

/-!
# Geodetic coordinates

The ellipsoid has the semi-major axis `a` and the squared eccentricity `e2`.
-/

namespace Theia.Spec

/-- The squared length of the semi-minor axis. -/
def minorAxisSq (a e2 : ℝ) : ℝ := a ^ 2 * (1 - e2)

/-- The point is on the ellipsoid. -/
def OnEllipsoid (a e2 : ℝ) (p : V3 ℝ) : Prop := (p.x ^ 2 + p.y ^ 2) / a ^ 2 + p.z ^ 2 / minorAxisSq a e2 = 1

/-- The direction straight up, for a latitude and a longitude in degrees. -/
noncomputable def upward (lat lon : ℝ) : V3 ℝ :=
  ⟨Real.cos (lat * Real.pi / 180) * Real.cos (lon * Real.pi / 180),
    Real.cos (lat * Real.pi / 180) * Real.sin (lon * Real.pi / 180), Real.sin (lat * Real.pi / 180)⟩

/-- `lla` are the geodetic coordinates of the point: it is reached from a point of the ellipsoid, whose outward normal has the
given latitude and longitude, by going `lla.z` upwards. -/
def IsGeodetic (a e2 : ℝ) (lla p : V3 ℝ) : Prop :=
  ∃ s : V3 ℝ, OnEllipsoid a e2 s ∧
    (∃ k > 0, s.x / a ^ 2 = k * (upward lla.x lla.y).x ∧ s.y / a ^ 2 = k * (upward lla.x lla.y).y ∧
      s.z / minorAxisSq a e2 = k * (upward lla.x lla.y).z) ∧
    p.x = s.x + lla.z * (upward lla.x lla.y).x ∧ p.y = s.y + lla.z * (upward lla.x lla.y).y ∧
    p.z = s.z + lla.z * (upward lla.x lla.y).z

/-- The usual ranges of degrees. -/
def UsualDegrees (lla : V3 ℝ) : Prop := -90 ≤ lla.x ∧ lla.x ≤ 90 ∧ -180 < lla.y ∧ lla.y ≤ 180

end Theia.Spec
