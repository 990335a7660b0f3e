import Verif.Model.RadialHomography
import Verif.Spec.LinearSolvers
import Verif.Spec.FivePoint

/-!
# What a homography between images with radial distortion should satisfy
-/

namespace Theia
namespace Spec

/-- The ray, up to scale, on which a lens with the division parameter `l` sees a point at the normalized position `p`. -/
def lensRay (l : ℝ) (p : ℝ × ℝ) : V3 ℝ := ⟨p.1, p.2, 1 + l * (p.1 ^ 2 + p.2 ^ 2)⟩

/-- The homography takes the ray of the right point to a ray parallel to that of the left point. -/
def MapsOnto (H : M3 ℝ) (l1 l2 : ℝ) (left right : ℝ × ℝ) : Prop :=
  (H.mulVec (lensRay l2 right)).cross (lensRay l1 left) = V3.zero

/-- The homography takes the ray of the right point to the line through the centre of the left image and the left point. -/
def MapsToLine (H : M3 ℝ) (l2 : ℝ) (left right : ℝ × ℝ) : Prop :=
  left.1 * (H.mulVec (lensRay l2 right)).y = left.2 * (H.mulVec (lensRay l2 right)).x

/-- The constraint a pair puts on the two first rows `(v 0, v 1, v 2)` and `(v 3, v 4, v 5)` of the homography and on their last
entries times the parameter of the right lens, `(v 6, v 7)`. -/
noncomputable def lineConstraint (v : Fin 8 → ℝ) (left right : ℝ × ℝ) : ℝ :=
  left.1 * (v 3 * right.1 + v 4 * right.2 + v 5 + v 7 * (right.1 ^ 2 + right.2 ^ 2)) -
    left.2 * (v 0 * right.1 + v 1 * right.2 + v 2 + v 6 * (right.1 ^ 2 + right.2 ^ 2))

/-- The constraint a pair puts on the last row `(v 0, v 1, v 2)` of the homography and on `v 3 = s l`, `v 4 = s`, where `l` is the
parameter of the left lens and `s` a scale, given the first row and the parameter of the right lens. -/
noncomputable def depthConstraint (first : V3 ℝ) (l2 : ℝ) (v : Fin 5 → ℝ) (left right : ℝ × ℝ) : ℝ :=
  (v 4 + v 3 * (left.1 ^ 2 + left.2 ^ 2)) * first.dot (lensRay l2 right) -
    left.1 * (⟨v 0, v 1, v 2⟩ : V3 ℝ).dot (lensRay l2 right)

/-- The vectors returned for a matrix with at most six rows are linearly independent and the matrix takes them to zero. -/
def LastTwoVectors (last2 : List (Fin 8 → ℝ) → Fin 2 → Fin 8 → ℝ) : Prop :=
  ∀ A, A.length ≤ 6 → LinearIndependent ℝ (last2 A) ∧ ∀ r ∈ A, ∀ k, ∑ i, r i * last2 A k i = 0

/-- The pairs determine the homography and the lenses up to scale: their line constraints leave a space of dimension two, and their
depth constraints a space of dimension one. -/
def Determined (H : M3 ℝ) (l1 l2 : ℝ) (pairs : List ((ℝ × ℝ) × (ℝ × ℝ))) : Prop :=
  (∃ e f : Fin 8 → ℝ, ∀ v, (∀ p ∈ pairs, lineConstraint v p.1 p.2 = 0) → ∃ s t : ℝ, v = s • e + t • f) ∧
    ∀ v, (∀ p ∈ pairs, depthConstraint H.r1 l2 v p.1 p.2 = 0) → ∃ s : ℝ, v = s • ![H.r3.x, H.r3.y, H.r3.z, l1, 1]

/-- The rounding branches of the lens function are not taken for the point `(x, y)` of the undistorted image. -/
def LensResolves (eps l x y : ℝ) : Prop := l * (x ^ 2 + y ^ 2) = 0 ∨ eps ≤ |2 * l * (x ^ 2 + y ^ 2)|

end Spec
end Theia
