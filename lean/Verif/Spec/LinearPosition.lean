import Verif.Base.RotationMatrix
import Verif.Spec.LinearRotation
import Verif.Spec.Triangles
import Verif.Spec.Triangulation

/-!
# Specification of the linear estimation of global positions

A scene has cameras with rotations `G v` (world to camera) and positions `c v`, and points `X t`.
-/

namespace Theia
namespace Spec

open AngleAxis

/-- The distance of two points. -/
noncomputable def dist3 (a b : V3 ℝ) : ℝ := Real.sqrt ((b.sub a).dot (b.sub a))

/-- `m` is a rotation by the least angle that takes the direction of `a` to that of `b`. -/
def TurnsTo (m : M3 ℝ) (a b : V3 ℝ) : Prop :=
  m.IsRotation ∧ m.mulVec (a.smul (Real.sqrt (b.dot b))) = b.smul (Real.sqrt (a.dot a)) ∧
    m.mulVec (a.cross b) = a.cross b

/-- `f a b` takes the direction of `a` to that of `b`. -/
def TurnsOneToOther (f : V3 ℝ → V3 ℝ → M3 ℝ) : Prop :=
  ∀ a b, a ≠ V3.zero → b ≠ V3.zero → TurnsTo (f a b) a b

/-- `u` is a unit vector with the least value of the quadratic form: an eigenvector of the smallest eigenvalue. -/
def SmallestEigenvector (n : Nat) (m : Nat → Nat → ℝ) (u : Nat → ℝ) : Prop :=
  vecInner n u u = 1 ∧
    ∀ v, vecInner n v v = 1 → vecInner n u (applyMatrix n m u) ≤ vecInner n v (applyMatrix n m v)

/-- An eigensolver that always gets its eigenvector. -/
def EigensolverOne (eig : Nat → (Nat → Nat → ℝ) → Option (Nat → ℝ)) : Prop :=
  ∀ n m, 3 ≤ n → (∀ r c, m r c = m c r) → ∃ u, eig n m = some u ∧ SmallestEigenvector n m u

/-- The relative pose of view `j` with respect to view `i`, with a translation of length one. -/
def ExactPose (G : Nat → M3 ℝ) (c : Nat → V3 ℝ) (i j : Nat) (rotation position : V3 ℝ) : Prop :=
  c i ≠ c j ∧ toM rotation = (G j).mul (G i).transpose ∧
    position.smul (dist3 (c i) (c j)) = (G i).mulVec ((c j).sub (c i))

/-- View `v` sees the point `X` at the normalized image point `p`. -/
def ExactFeature (G : Nat → M3 ℝ) (c : Nat → V3 ℝ) (v : Nat) (X : V3 ℝ) (p : ℝ × ℝ) : Prop :=
  ∃ z, 0 < z ∧ (G v).mulVec (X.sub (c v)) = (⟨p.1, p.2, 1⟩ : V3 ℝ).smul z

/-- The angle, in degrees, under which the two views see each other from the point. -/
noncomputable def viewingAngle (c : Nat → V3 ℝ) (i j : Nat) (X : V3 ℝ) : ℝ :=
  Real.arccos ((X.sub (c i)).dot (X.sub (c j)) / (dist3 (c i) X * dist3 (c j) X)) * 180 / Real.pi

/-- The two views see the point under an angle of more than two degrees, and it does not lie between them on their line. -/
def WellSeen (c : Nat → V3 ℝ) (i j : Nat) (X : V3 ℝ) : Prop :=
  2 < viewingAngle c i j X ∧ (X.sub (c i)).cross (X.sub (c j)) ≠ V3.zero

/-- The three positions are not on one line. -/
def Nondegenerate (c : Nat → V3 ℝ) (t : Nat × Nat × Nat) : Prop :=
  ((c t.2.1).sub (c t.1)).cross ((c t.2.2).sub (c t.1)) ≠ V3.zero

/-- No plane contains the positions of all the views. -/
def NotCoplanar (c : Nat → V3 ℝ) (views : Nat → Prop) : Prop :=
  ∀ n : V3 ℝ, (∀ v w, views v → views w → n.dot ((c v).sub (c w)) = 0) → n = V3.zero

/-- The shape of a triplet of views: `turn0` turns the direction from view 0 to view 1 into that from view 0 to view 2, `turn1`
that from 1 to 2 into that from 1 to 0, `turn2` that from 2 to 0 into that from 2 to 1, and the `d` are the distances, up to a
common factor. -/
structure TripletShape where
  turn0 : M3 ℝ
  turn1 : M3 ℝ
  turn2 : M3 ℝ
  d01 : ℝ
  d02 : ℝ
  d12 : ℝ

/-- The turns of the shape are those between the measured directions: `d01` from view 0 to view 1, and so on, in world
coordinates. -/
def MeasuredTurns (s : TripletShape) (d01 d02 d12 : V3 ℝ) : Prop :=
  TurnsTo s.turn0 d01 d02 ∧ TurnsTo s.turn1 d12 d01.neg ∧ TurnsTo s.turn2 d02.neg d12.neg

/-- The listed triplets are those of a component of the graph of triangles, and no component has more. -/
def LargestComponent (E : List (Nat × Nat)) (ts : List (Nat × Nat × Nat)) : Prop :=
  ts ≠ [] ∧ ts.Nodup ∧ (∀ t ∈ ts, IsTriangle E t ∧ ∀ u, u ∈ ts ↔ TriangleConnected E t u) ∧
    ∀ (t : Nat × Nat × Nat) (h : List (Nat × Nat × Nat)), IsTriangle E t → h.Nodup → (∀ u ∈ h, TriangleConnected E t u) → h.length ≤ ts.length

/-- The point helps: it is well seen by every two of the three views. -/
def Useful (c : Nat → V3 ℝ) (t : Nat × Nat × Nat) (X : V3 ℝ) : Prop :=
  WellSeen c t.1 t.2.1 X ∧ WellSeen c t.1 t.2.2 X ∧ WellSeen c t.2.1 t.2.2 X

/-- The upper median: an element with at most half of the elements below it and more than half not above it. -/
def UpperMedian (l : List ℝ) (x : ℝ) : Prop :=
  x ∈ l ∧ l.countP (fun y => decide (y < x)) ≤ l.length / 2 ∧ l.length / 2 < l.countP (fun y => decide (y ≤ x))

/-- How far the positions are from the shape: each position is predicted from either of the other two by turning and
stretching their difference, and the sum of the two predictions is compared to twice the position. -/
noncomputable def shapeCost (s : TripletShape) (y0 y1 y2 : V3 ℝ) : ℝ :=
  sqDist ((y0.add ((s.turn0.mulVec (y1.sub y0)).smul (s.d02 / s.d01))).add
    (y1.add ((s.turn1.transpose.mulVec (y0.sub y1)).smul (s.d12 / s.d01)))) (y2.smul 2) +
  sqDist ((y0.add ((s.turn0.transpose.mulVec (y2.sub y0)).smul (s.d01 / s.d02))).add
    (y2.add ((s.turn2.mulVec (y0.sub y2)).smul (s.d12 / s.d02)))) (y1.smul 2) +
  sqDist ((y1.add ((s.turn1.mulVec (y2.sub y1)).smul (s.d01 / s.d12))).add
    (y2.add ((s.turn2.transpose.mulVec (y1.sub y2)).smul (s.d02 / s.d12)))) (y0.smul 2)

/-- The number of triplets a view is in. -/
noncomputable def tripletsWith (ts : List (Nat × Nat × Nat)) (v : Nat) : Nat :=
  (ts.filter (fun t => decide (v = t.1 ∨ v = t.2.1 ∨ v = t.2.2))).length

/-- The weighted sum over the triplets. The weight is one over the smallest number of triplets a view of the triplet
is in. -/
noncomputable def positionCost (ts : List (Nat × Nat × Nat)) (shape : Nat × Nat × Nat → TripletShape) (Y : Nat → V3 ℝ) : ℝ :=
  (ts.map (fun t => shapeCost (shape t) (Y t.1) (Y t.2.1) (Y t.2.2) /
    min (tripletsWith ts t.1 : ℝ) (min (tripletsWith ts t.2.1 : ℝ) (tripletsWith ts t.2.2 : ℝ)))).sum

end Spec
end Theia
