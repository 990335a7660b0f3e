import Mathlib.Algebra.Order.Field.Basic
import Mathlib.Algebra.Order.Group.Abs
import Verif.Base.Geometry

/-!
# Similarity transformations and medians
-/

namespace Theia.Spec

variable {K : Type} [Field K]

/-- The image of a point under the similarity with rotation `r`, translation `t` and scale `s`. -/
def similarity (r : M3 K) (t : V3 K) (s : K) (p : V3 K) : V3 K := ((r.mulVec p).smul s).add t

/-- `x` is the (upper) median of the list: at most half of the elements are smaller, and less than half are larger
(rounded as by the code's `n / 2`). -/
def IsMedian [LinearOrder K] (l : List K) (x : K) : Prop :=
  x ∈ l ∧ l.countP (fun y => decide (y < x)) ≤ l.length / 2 ∧
    l.countP (fun y => decide (x < y)) ≤ l.length - 1 - l.length / 2

/-- `c` is the median of a list of points in every coordinate. -/
def IsMedianPoint [LinearOrder K] (l : List (V3 K)) (c : V3 K) : Prop :=
  IsMedian (l.map V3.x) c.x ∧ IsMedian (l.map V3.y) c.y ∧ IsMedian (l.map V3.z) c.z

/-- The sum of the coordinate distances. -/
def dist1 [LinearOrder K] (a b : V3 K) : K := |a.x - b.x| + |a.y - b.y| + |a.z - b.z|

end Theia.Spec
