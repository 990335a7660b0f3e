import Mathlib.Algebra.BigOperators.Group.List.Basic
import Verif.Model.GuidedMatcher

/-!
# What guided matching should do
-/

namespace Theia.Spec

open Guided

variable {K : Type} [Field K] [LinearOrder K] [FloorRing K]

/-- A coordinate that fits 16 bits. -/
def InRange (x : K) : Prop := 0 ≤ x ∧ x < 65536

/-- Both coordinates fit. -/
def PtInRange (p : Pt K) : Prop := InRange p.1 ∧ InRange p.2

/-- The pixel of a point. -/
def pixel (p : Pt K) : Nat × Nat := (⌊p.1⌋.toNat, ⌊p.2⌋.toNat)

/-- The order by first, second, third and then fourth number. -/
def QuadLt (a b : (Nat × Nat) × (Nat × Nat)) : Prop :=
  a.1.1 < b.1.1 ∨ (a.1.1 = b.1.1 ∧ (a.1.2 < b.1.2 ∨ (a.1.2 = b.1.2 ∧
    (a.2.1 < b.2.1 ∨ (a.2.1 = b.2.1 ∧ a.2.2 < b.2.2)))))

/-- The point is on the line. -/
def OnLine (l : Line K) (p : Pt K) : Prop := l.1 * p.1 + l.2.1 * p.2 + l.2.2 = 0

/-- The point is in the box. -/
def InBox (b : Box K) (p : Pt K) : Prop := b.left ≤ p.1 ∧ p.1 ≤ b.right ∧ b.top ≤ p.2 ∧ p.2 ≤ b.bottom

/-- The mean of some points. -/
def average (f : Nat → Pt K) (l : List Nat) : Pt K :=
  ((l.map (fun i => (f i).1)).sum / (l.length : K), (l.map (fun i => (f i).2)).sum / (l.length : K))

/-- A group of features: it is not empty, its endpoints are the means of those of its features, and each
feature but the first was near the mean of those before it. -/
def GoodGroup (maxDist : K) (ends : Nat → Pt K × Pt K) (g : LineGroup K) : Prop :=
  g.features ≠ [] ∧ g.p = average (fun i => (ends i).1) g.features ∧
    g.q = average (fun i => (ends i).2) g.features ∧
    ∀ a i b, g.features = a ++ i :: b → a ≠ [] →
      sqDist (average (fun i => (ends i).1) a) (ends i).1 ≤ maxDist * maxDist

/-- A list of groups, where the first feature of each group is far from the mean of the group before. -/
def Clustered (maxDist : K) (ends : Nat → Pt K × Pt K) : List (LineGroup K) → Prop
  | [] => True
  | [g] => GoodGroup maxDist ends g
  | g :: h :: gs => GoodGroup maxDist ends g ∧
      (∀ i, h.features.head? = some i → maxDist * maxDist < sqDist g.p (ends i).1) ∧
      Clustered maxDist ends (h :: gs)

/-- What the search for the two nearest neighbours returns: a row for each query, with positions of
candidates, the smaller distance first, where no candidate but the first is nearer than the second. -/
def IsKnn (dist : Nat → Nat → K) (knn : List Nat → List Nat → List (List (K × Nat))) : Prop :=
  ∀ qs cs, 2 ≤ cs.length → List.Forall₂ (fun q row => ∃ (i j : Nat) (c d : Nat), i ≠ j ∧ cs[i]? = some c ∧
    cs[j]? = some d ∧ row = [(dist q c, i), (dist q d, j)] ∧ dist q c ≤ dist q d ∧
    ∀ (k : Nat) e, cs[k]? = some e → k ≠ i → dist q d ≤ dist q e) qs (knn qs cs)

end Theia.Spec
