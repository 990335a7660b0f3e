import Mathlib.Order.Defs.LinearOrder
import Mathlib.Logic.Relation

/-!
# Triangles of a graph whose edges are stored as (smaller, larger)
-/

namespace Theia.Spec

variable {T : Type} [LinearOrder T]

/-- `(a, b, c)` with `a < b < c` is a triangle of the graph. -/
def IsTriangle (E : List (T × T)) (t : T × T × T) : Prop :=
  t.1 < t.2.1 ∧ t.2.1 < t.2.2 ∧ (t.1, t.2.1) ∈ E ∧ (t.1, t.2.2) ∈ E ∧ (t.2.1, t.2.2) ∈ E

/-- `x` is a corner of the triplet. -/
def Corner (t : T × T × T) (x : T) : Prop := x = t.1 ∨ x = t.2.1 ∨ x = t.2.2

/-- Two triplets share an edge: two different nodes are corners of both. -/
def ShareEdge (t u : T × T × T) : Prop :=
  ∃ x y, x ≠ y ∧ Corner t x ∧ Corner t y ∧ Corner u x ∧ Corner u y

/-- A chain of triangles, each sharing an edge with the next, leads from `t` to `u`. -/
def TriangleConnected (E : List (T × T)) : T × T × T → T × T × T → Prop :=
  Relation.ReflTransGen (fun t u => IsTriangle E t ∧ IsTriangle E u ∧ ShareEdge t u)

end Theia.Spec
