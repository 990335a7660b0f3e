import Verif.Model.Global
import Verif.Spec.Graph
import Verif.Spec.Incremental

/-!
# What global reconstruction needs and gives
-/

namespace Theia.Spec

open Incremental (TwoView)

variable {F P M O X L N W D C E : Type}

/-- The pairs of views in a view graph. -/
def pairsOf {I : Type} (g : ViewGraph I) : List (Nat × Nat) := g.allEdges.map (·.1)

/-- The pairs of views with enough matches. -/
def strongPairs (minMatches : Int) (g : ViewGraph (TwoView O X L)) : List (Nat × Nat) :=
  (g.allEdges.filter fun e => decide (minMatches ≤ e.2.verifiedMatches)).map (·.1)

/-- Any two views that have an edge are connected. -/
def Linked {I : Type} (g : ViewGraph I) : Prop :=
  ∀ x y, IsNode (pairsOf g) x → IsNode (pairsOf g) y → Connected (pairsOf g) x y

/-- All ids of views are less than the largest one. -/
def ValidIds {I : Type} (g : ViewGraph I) : Prop := ∀ v, g.hasView v = true → v < ViewGraph.maxViewId

/-- A connected component, such that no set of pairwise connected views is larger. -/
structure BiggestComponent (pairs : List (Nat × Nat)) (component : List Nat) : Prop where
  nonempty : component ≠ []
  nodup : component.Nodup
  node : ∀ x ∈ component, IsNode pairs x
  exact : ∀ x ∈ component, ∀ y, y ∈ component ↔ Connected pairs x y
  largest : ∀ other : List Nat, other.Nodup → (∀ x ∈ other, IsNode pairs x) →
    (∀ x ∈ other, ∀ y ∈ other, Connected pairs x y) → other.length ≤ component.length

/-- The iteration orders and schedules are orders of what they are given. Rotations are estimated without ending the program
on every connected view graph that has edges, for views in it. Positions are estimated without ending the program on every
connected view graph that has edges whose views all have an orientation, and only for views that have an edge. The filter
for relative translations removes edges. -/
structure GlobalWellBehaved (num : Global.Numerics F P M O X L N W D C E) : Prop where
  common : WellBehaved num.common
  pairs : ∀ k l, (num.pairs k l).Perm l
  tasks : ∀ l, (num.tasks l).Perm l
  rotations : ∀ g, pairsOf g ≠ [] → Linked g → ∃ b m, num.rotations g = .ok (b, m) ∧ ∀ v ∈ m.keys, g.hasView v = true
  contradicted : ∀ m g, ∀ p ∈ num.contradicted m g, p ∈ pairsOf g
  positions : ∀ scene g m, pairsOf g ≠ [] → Linked g → (∀ v, IsNode (pairsOf g) v → ∃ o, m.get v = some o) →
    ∃ b ps, num.positions scene g m = .ok (b, ps)
  positioned : ∀ scene g m b ps, num.positions scene g m = .ok (b, ps) → ps.WF ∧ ∀ v ∈ ps.keys, IsNode (pairsOf g) v

/-- Estimation of rotations, of positions, or a bundle adjustment does not succeed. -/
def NumericsFail (num : Global.Numerics F P M O X L N W D C E) : Prop :=
  (∃ g m, num.rotations g = .ok (false, m)) ∨ (∃ scene g m ps, num.positions scene g m = .ok (false, ps)) ∨
    AdjustFails num.common

/-- Positions cannot be estimated without any pair of views: the program ends. -/
def NeedsPairs (num : Global.Numerics F P M O X L N W D C E) : Prop :=
  ∃ scene g m, pairsOf g = [] ∧ ∀ b ps, num.positions scene g m ≠ .ok (b, ps)

/-- The edges of a view graph that global reconstruction keeps: the relative rotation and the matches are those of the
edge in the graph given, there are enough matches, and both views have an orientation, acceptable to the filter. -/
def Kept (num : Global.Numerics F P M O X L N W D C E) (minMatches : Int) (g : ViewGraph (TwoView O X L))
    (orientations : AMap ViewId O) (a b : Nat) (info : TwoView O X L) : Prop :=
  (∃ original x, g.getEdge a b = some original ∧ info = { original with position2 := x }) ∧
    minMatches ≤ info.verifiedMatches ∧
    ∃ o1 o2, orientations.get a = some o1 ∧ orientations.get b = some o2 ∧ num.acceptable o1 o2 info.rotation2 = true

/-- The pairs of views whose orientations are both known and acceptable to the filter. -/
def agreeingPairs (num : Global.Numerics F P M O X L N W D C E) (orientations : AMap ViewId O)
    (g : ViewGraph (TwoView O X L)) : List (Nat × Nat) :=
  (g.allEdges.filter fun e => match orientations.get e.1.1, orientations.get e.1.2 with
    | some o1, some o2 => num.acceptable o1 o2 e.2.rotation2
    | _, _ => false).map (·.1)

/-- A view is estimated. -/
def IsEstimated (r : Reconstruction F P) (v : ViewId) : Prop := ∃ V, r.view v = some V ∧ V.estimated = true

end Theia.Spec
