import Verif.Model.RotationFilters
import Verif.Model.MinimumSpanningTree

/-!
# Orientations from a maximum spanning tree

Models src/theia/sfm/view_graph/orientations_from_maximum_spanning_tree.cc over the reals. `ofM` is
`ceres::RotationMatrixToAngleAxis`. The heap is a list from which an arbitrary element is taken (`pick` gives its
place), so what is proved does not depend on the comparator. `order` is the order of iteration of the set of tree edges.
-/

namespace Theia
namespace TreeOrientations

open AngleAxis TwoView

/-- `HeapElement` (line 54). -/
abbrev HeapElement := Info × (Nat × Nat)

/-- `ComputeOrientation` (lines 62-84). -/
noncomputable def computeOrientation (ofM : M3 ℝ → V3 ℝ) (source : V3 ℝ) (info : Info) (s n : Nat) : V3 ℝ :=
  if s < n then ofM ((toM info.rotation).mul (toM source))
  else ofM ((toM info.rotation).transpose.mul (toM source))

/-- The loop of `AddEdgesToHeap` (lines 95-104); the null edge pointer would be dereferenced. -/
def addEdgesLoop (g : ViewGraph Info) (o : AMap Nat (V3 ℝ)) (v : Nat) : List Nat → List HeapElement →
    Outcome (List HeapElement)
  | [], heap => .ok heap
  | w :: ws, heap =>
    if o.contains w then addEdgesLoop g o v ws heap
    else
      match g.getEdge v w with
      | none => .ub
      | some i => addEdgesLoop g o v ws (heap ++ [(i, (v, w))])

/-- `AddEdgesToHeap` (lines 88-105); the null set pointer would be dereferenced. -/
def addEdges (g : ViewGraph Info) (o : AMap Nat (V3 ℝ)) (v : Nat) (heap : List HeapElement) :
    Outcome (List HeapElement) :=
  match g.neighbors v with
  | none => .ub
  | some ws => addEdgesLoop g o v ws heap

/-- The main loop (lines 156-178). Running out of `fuel` means the loop has not ended. -/
noncomputable def loop (ofM : M3 ℝ → V3 ℝ) (pick : List HeapElement → Nat) (g : ViewGraph Info) :
    Nat → List HeapElement → AMap Nat (V3 ℝ) → Outcome (AMap Nat (V3 ℝ))
  | 0, _, _ => .ub
  | fuel + 1, heap, o =>
    if heap = [] then .ok o
    else
      match heap[pick heap]? with
      | none => .ub
      | some next =>
        let heap := heap.eraseIdx (pick heap)
        if o.contains next.2.2 then loop ofM pick g fuel heap o
        else
          match o.get next.2.1 with
          | none => .abort
          | some source =>
            let o := o.insert next.2.2 (computeOrientation ofM source next.1 next.2.1 next.2.2)
            match addEdges g o next.2.2 heap with
            | .abort => .abort
            | .ub => .ub
            | .ok heap => loop ofM pick g fuel heap o

/-- The view graph of the tree (lines 139-145). -/
def treeGraph (sub : ViewGraph Info) : List (Nat × Nat) → ViewGraph Info → Outcome (ViewGraph Info)
  | [], g => .ok g
  | p :: ps, g =>
    match sub.getEdge p.1 p.2 with
    | none => .ub
    | some i => treeGraph sub ps (g.addEdge p.1 p.2 i)

/-- The edges given to the tree extractor (lines 124-129). -/
def weighted (es : List ((Nat × Nat) × Info)) : List (Int × (Nat × Nat)) := es.map (fun e => (-e.2.verified, e.1))

/-- Setting the root and chaining the rotations along the tree (lines 149-179). -/
noncomputable def chain (ofM : M3 ℝ → V3 ℝ) (pick : List HeapElement → Nat) (fuel : Nat) (g : ViewGraph Info)
    (root : Nat) (o : AMap Nat (V3 ℝ)) : Outcome (AMap Nat (V3 ℝ)) :=
  let o := o.insert root V3.zero
  match addEdges g o root [] with
  | .abort => .abort
  | .ub => .ub
  | .ok heap => loop ofM pick g fuel heap o

/-- `OrientationsFromMaximumSpanningTree` (lines 109-180): the value returned and the orientations. -/
noncomputable def orientations (ofM : M3 ℝ → V3 ℝ) (order : List (Nat × Nat) → List (Nat × Nat))
    (pick : List HeapElement → Nat) (fuel : Nat) (g : ViewGraph Info) (o : AMap Nat (V3 ℝ)) :
    Outcome (Bool × AMap Nat (V3 ℝ)) :=
  match g.largestCC with
  | .abort => .abort
  | .ub => .ub
  | .ok cc =>
    match g.extractSubgraph cc ViewGraph.empty with
    | .abort => .abort
    | .ub => .ub
    | .ok sub =>
      match MST.extract ViewGraph.maxViewId (weighted sub.allEdges) [] with
      | .abort => .abort
      | .ub => .ub
      | .ok (false, _) => .ok (false, o)
      | .ok (true, mst) =>
        match treeGraph sub (order mst) ViewGraph.empty with
        | .abort => .abort
        | .ub => .ub
        | .ok tree =>
          match order mst with
          | [] => .ub
          | p :: _ =>
            match chain ofM pick fuel tree p.1 o with
            | .abort => .abort
            | .ub => .ub
            | .ok o => .ok (true, o)

end TreeOrientations
end Theia
