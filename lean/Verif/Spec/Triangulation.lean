import Mathlib.Analysis.SpecialFunctions.Trigonometric.Inverse
import Verif.Base.Geometry

/-!
# Specification of triangulation

Points, lines and cameras in space, and what is asked of the linear algebra library.
-/

namespace Theia
namespace Spec

/-- The camera with projection matrix `[M | t]` sees the point `(x, y, z, w)` at the image point `p`: the projection
is the image point times a factor, the depth. -/
def SeesAt (M : M3 ℝ) (t : V3 ℝ) (X : V3 ℝ) (w : ℝ) (p : ℝ × ℝ) (depth : ℝ) : Prop :=
  (M.mulVec X).add (t.smul w) = (⟨p.1, p.2, 1⟩ : V3 ℝ).smul depth

/-- `c` is the centre of the camera with projection matrix `[M | t]`. -/
def Centre (M : M3 ℝ) (t c : V3 ℝ) : Prop := (M.mulVec c).add t = V3.zero

/-- `d` is the direction in space of the ray of the image point `p`. -/
def RayOf (M : M3 ℝ) (p : ℝ × ℝ) (d : V3 ℝ) : Prop := M.mulVec d = ⟨p.1, p.2, 1⟩

/-- A unit vector of dimension four. -/
def Unit4 (v : V3 ℝ × ℝ) : Prop := v.1.dot v.1 + v.2 * v.2 = 1

/-- `v` is a unit vector that minimises `q`: the singular vector of the smallest singular value of `A` for
`q v = |A v|^2`, the eigenvector of the smallest eigenvalue for a quadratic form `q`. -/
def SmallestVector (q : V3 ℝ × ℝ → ℝ) (v : V3 ℝ × ℝ) : Prop := Unit4 v ∧ ∀ u, Unit4 u → q v ≤ q u

/-- The same in dimension `4 + n`. -/
def SmallestVectorN (n : Nat) (q : (V3 ℝ × ℝ) × List ℝ → ℝ) (v : (V3 ℝ × ℝ) × List ℝ) : Prop :=
  (v.2.length = n ∧ v.1.1.dot v.1.1 + v.1.2 * v.1.2 + (v.2.map (fun a => a * a)).sum = 1) ∧
    ∀ u : (V3 ℝ × ℝ) × List ℝ, u.2.length = n → u.1.1.dot u.1.1 + u.1.2 * u.1.2 + (u.2.map (fun a => a * a)).sum = 1 →
      q v ≤ q u

/-- A map on 4-vectors with positive quadratic form. -/
def PositiveDefinite (A : V3 ℝ × ℝ → V3 ℝ × ℝ) : Prop :=
  ∀ v, v ≠ (V3.zero, 0) → 0 < v.1.dot (A v).1 + v.2 * (A v).2

/-- A map on 4-vectors given by a matrix. -/
def Linear4 (A : V3 ℝ × ℝ → V3 ℝ × ℝ) : Prop :=
  (∀ u v, A (u.1.add v.1, u.2 + v.2) = ((A u).1.add (A v).1, (A u).2 + (A v).2)) ∧
    ∀ s v, A (v.1.smul s, s * v.2) = ((A v).1.smul s, s * (A v).2)

/-- Cholesky decomposition and solve: succeeds exactly for positive definite matrices, and then solves. -/
def Cholesky (llt : (V3 ℝ × ℝ → V3 ℝ × ℝ) → V3 ℝ × ℝ → Option (V3 ℝ × ℝ)) : Prop :=
  ∀ A b, Linear4 A →
    (PositiveDefinite A → ∃ x, llt A b = some x ∧ A x = b) ∧ (¬ PositiveDefinite A → llt A b = none)

/-- Squared distance of two points. -/
noncomputable def sqDist (a b : V3 ℝ) : ℝ := (a.sub b).dot (a.sub b)

/-- The point of the line through `o` with direction `d` at parameter `s`. -/
noncomputable def onLine (o d : V3 ℝ) (s : ℝ) : V3 ℝ := o.add (d.smul s)

/-- `e` is the squared distance of `X` from the line through `r.1` with direction `r.2`. -/
def LineDistance (r : V3 ℝ × V3 ℝ) (X : V3 ℝ) (e : ℝ) : Prop :=
  (∃ s, e = sqDist X (onLine r.1 r.2 s)) ∧ ∀ s, e ≤ sqDist X (onLine r.1 r.2 s)

/-- `e` is the sum of the squared distances of `X` from the lines. -/
inductive TotalDistance : List (V3 ℝ × V3 ℝ) → V3 ℝ → ℝ → Prop
  | nil (X : V3 ℝ) : TotalDistance [] X 0
  | cons {r : V3 ℝ × V3 ℝ} {rs : List (V3 ℝ × V3 ℝ)} {X : V3 ℝ} {e f : ℝ} :
      LineDistance r X e → TotalDistance rs X f → TotalDistance (r :: rs) X (e + f)

/-- `X` is the one point whose sum of squared distances from the lines is smallest. -/
def NearestToLines (rs : List (V3 ℝ × V3 ℝ)) (X : V3 ℝ) : Prop :=
  ∃ e, TotalDistance rs X e ∧ ∀ Y f, TotalDistance rs Y f → e ≤ f ∧ (f = e → Y = X)

/-- Two directions are parallel. -/
def Parallel (d e : V3 ℝ) : Prop := d.cross e = V3.zero

/-- `X` on the line `(o1, d1)` and `Y` on the line `(o2, d2)` are at the smallest distance two such points have. -/
def ClosestPoints (o1 d1 o2 d2 X Y : V3 ℝ) : Prop :=
  (∃ s, X = onLine o1 d1 s) ∧ (∃ t, Y = onLine o2 d2 t) ∧
    ∀ s t, sqDist X Y ≤ sqDist (onLine o1 d1 s) (onLine o2 d2 t)

/-- The angle between two unit vectors, in degrees. -/
noncomputable def angleDegrees (d e : V3 ℝ) : ℝ := Real.arccos (d.dot e) * 180 / Real.pi

end Spec
end Theia
