import Verif.Model.ConnectedComponents

/-!
# Model of `ViewGraph` (sfm/view_graph/view_graph.{h,cc}) and of `RemoveDisconnectedViewPairs`

`I` is the edge value (`TwoViewInfo`). View ids are unbounded naturals; theorems that depend on the
32-bit limit say so in their hypotheses.
-/

namespace Theia

/-- The data members of `ViewGraph` (view_graph.h:140-148): adjacency sets and edge values. -/
structure ViewGraph (I : Type) where
  vertices : AMap Nat (List Nat)
  edges : AMap (Nat × Nat) I
  deriving DecidableEq, Repr

/-- `ViewIdPair` with the smaller id first; the expression repeated at view_graph.cc:99-101,
116-118, 141-143, 158-160, 181-183, 189-191. -/
def ordPair (a b : Nat) : Nat × Nat := if a < b then (a, b) else (b, a)

namespace ViewGraph

variable {I : Type}

/-- Default constructor (view_graph.h:57). -/
def empty : ViewGraph I := ⟨.empty, .empty⟩

/-- `NumViews` (view_graph.cc:53). -/
def numViews (g : ViewGraph I) : Nat := g.vertices.size

/-- `NumEdges` (view_graph.cc:55). -/
def numEdges (g : ViewGraph I) : Nat := g.edges.size

/-- `ViewIds` (view_graph.cc:86-93). -/
def viewIds (g : ViewGraph I) : List Nat := g.vertices.keys

/-- `HasView` (view_graph.cc:95-97). -/
def hasView (g : ViewGraph I) (v : Nat) : Bool := g.vertices.contains v

/-- `HasEdge` (view_graph.cc:99-104). -/
def hasEdge (g : ViewGraph I) (a b : Nat) : Bool := g.edges.contains (ordPair a b)

/-- `GetEdge` (view_graph.cc:179-185). -/
def getEdge (g : ViewGraph I) (a b : Nat) : Option I := g.edges.get (ordPair a b)

/-- `GetNeighborIdsForView` (view_graph.cc:173-176). -/
def neighbors (g : ViewGraph I) (v : Nat) : Option (List Nat) := g.vertices.get v

/-- `GetAllEdges` (view_graph.cc:200-204). -/
def allEdges (g : ViewGraph I) : List ((Nat × Nat) × I) := g.edges.entries

/-- Insertion into an `unordered_set`. -/
def setInsert (s : List Nat) (v : Nat) : List Nat := if v ∈ s then s else s ++ [v]

/-- Erasure from an `unordered_set`. -/
def setErase (s : List Nat) (v : Nat) : List Nat := s.filter (fun w => decide (w ≠ v))

/-- Loop of `RemoveView` (view_graph.cc:116-122). The loop iterates over the adjacency set of the
removed view; no step changes that set because a view is never its own neighbour (proved). -/
def removeViewLoop (v : Nat) : List Nat → ViewGraph I → ViewGraph I
  | [], g => g
  | n :: ns, g =>
    removeViewLoop v ns
      { vertices := g.vertices.insert n (setErase ((g.vertices.get n).getD []) v)
        edges := g.edges.erase (ordPair v n) }

/-- `RemoveView` (view_graph.cc:109-127). -/
def removeView (g : ViewGraph I) (v : Nat) : Bool × ViewGraph I :=
  match g.vertices.get v with
  | none => (false, g)
  | some ns =>
    let g := removeViewLoop v ns g
    (true, { g with vertices := g.vertices.erase v })

/-- `AddEdge` (view_graph.cc:133-153). -/
def addEdge (g : ViewGraph I) (a b : Nat) (i : I) : ViewGraph I :=
  if a = b then g
  else
    let vs := g.vertices.insert a (setInsert ((g.vertices.get a).getD []) b)
    let vs := vs.insert b (setInsert ((vs.get b).getD []) a)
    { vertices := vs, edges := g.edges.insert (ordPair a b) i }

/-- `RemoveEdge` (view_graph.cc:157-174), with the short-circuit evaluation of the three erasures
(`erase` returns how many elements were removed). -/
def removeEdge (g : ViewGraph I) (a b : Nat) : Bool × ViewGraph I :=
  if ¬ g.edges.contains (ordPair a b) then (false, g)
  else
    let sa := (g.vertices.get a).getD []
    let g1 := { g with vertices := g.vertices.insert a (setErase sa b) }
    if b ∉ sa then (false, g1)
    else
      let sb := (g1.vertices.get b).getD []
      let g2 := { g1 with vertices := g1.vertices.insert b (setErase sb a) }
      if a ∉ sb then (false, g2)
      else (true, { g2 with edges := g2.edges.erase (ordPair a b) })

/-- Assignment through the pointer returned by `GetMutableEdge` (view_graph.cc:187-193); nothing
happens when it is null (the caller must check). -/
def setEdge (g : ViewGraph I) (a b : Nat) (i : I) : ViewGraph I :=
  match g.edges.get (ordPair a b) with
  | none => g
  | some _ => { g with edges := g.edges.insert (ordPair a b) i }

/-- Inner loop of `ExtractSubgraph` (view_graph.cc:223-238). -/
def subInner (g : ViewGraph I) (s : List Nat) (v : Nat) : List Nat → ViewGraph I → Outcome (ViewGraph I)
  | [], sub => .ok sub
  | w :: ws, sub =>
    if ¬ w ∈ s ∨ w < v then subInner g s v ws sub
    else
      match g.edges.get (v, w) with
      | none => .abort
      | some i => subInner g s v ws (sub.addEdge v w i)

/-- Outer loop of `ExtractSubgraph` (view_graph.cc:214-239). -/
def subOuter (g : ViewGraph I) (s : List Nat) :
    List (Nat × List Nat) → ViewGraph I → Outcome (ViewGraph I)
  | [], sub => .ok sub
  | (v, ws) :: rest, sub =>
    if ¬ v ∈ s then subOuter g s rest sub
    else
      match subInner g s v ws sub with
      | .ok sub' => subOuter g s rest sub'
      | .abort => .abort
      | .ub => .ub

/-- `ExtractSubgraph` (view_graph.cc:207-240). -/
def extractSubgraph (g : ViewGraph I) (s : List Nat) (sub : ViewGraph I) : Outcome (ViewGraph I) :=
  subOuter g s g.vertices.entries sub

/-- `kInvalidViewId`, also the default component limit `numeric_limits<ViewId>::max()`
(sfm/types.h:47, 53; connected_components.h:71-72). -/
def maxViewId : Nat := 4294967295

/-- Adding all edges to the component extractor (view_graph.cc:245-248,
remove_disconnected_view_pairs.cc:54-58). -/
def addAllEdges : List ((Nat × Nat) × I) → CC Nat → Outcome (CC Nat)
  | [], c => .ok c
  | (p, _) :: es, c =>
    match c.addEdge p.1 p.2 with
    | .ok c' => addAllEdges es c'
    | .abort => .abort
    | .ub => .ub

/-- Search for the largest component (view_graph.cc:257-262,
remove_disconnected_view_pairs.cc:63-70). `none` is `kInvalidViewId`. -/
def largestLoop : List (Nat × List Nat) → Nat → Option Nat → Option Nat
  | [], _, best => best
  | (r, l) :: rest, size, best =>
    if l.length > size then largestLoop rest l.length (some r) else largestLoop rest size best

/-- `GetLargestConnectedComponentIds` (view_graph.cc:242-267). -/
def largestCC (g : ViewGraph I) : Outcome (List Nat) :=
  match addAllEdges g.allEdges ⟨maxViewId, .empty⟩ with
  | .abort => .abort
  | .ub => .ub
  | .ok c =>
    match c.extract with
    | .abort => .abort
    | .ub => .ub
    | .ok (comps, _) =>
      match largestLoop comps.entries 0 none with
      | none => .abort
      | some r => .ok ((comps.get r).getD [])

/-- Removal of the views of one component (remove_disconnected_view_pairs.cc:83-86). -/
def removeViews : List Nat → ViewGraph I → List Nat → ViewGraph I × List Nat
  | [], g, removed => (g, removed)
  | v :: vs, g, removed => removeViews vs (g.removeView v).2 (setInsert removed v)

/-- Loop over the components (remove_disconnected_view_pairs.cc:75-87). -/
def removeComps (keep : Option Nat) : List (Nat × List Nat) → ViewGraph I → List Nat →
    ViewGraph I × List Nat
  | [], g, removed => (g, removed)
  | (r, l) :: rest, g, removed =>
    if some r = keep then removeComps keep rest g removed
    else
      let x := removeViews l g removed
      removeComps keep rest x.1 x.2

/-- `RemoveDisconnectedViewPairs` (remove_disconnected_view_pairs.cc:48-95): the new graph and the
set of removed views. -/
def removeDisconnected (g : ViewGraph I) : Outcome (ViewGraph I × List Nat) :=
  match addAllEdges g.allEdges ⟨maxViewId, .empty⟩ with
  | .abort => .abort
  | .ub => .ub
  | .ok c =>
    match c.extract with
    | .abort => .abort
    | .ub => .ub
    | .ok (comps, _) => .ok (removeComps (largestLoop comps.entries 0 none) comps.entries g [])

/-- A mutating call. -/
inductive Op (I : Type) where
  | addEdge (a b : Nat) (i : I)
  | removeEdge (a b : Nat)
  | removeView (v : Nat)
  | setEdge (a b : Nat) (i : I)

/-- Execute one call; the Boolean is the return value where there is one. -/
def step (g : ViewGraph I) : Op I → Option Bool × ViewGraph I
  | .addEdge a b i => (none, g.addEdge a b i)
  | .removeEdge a b => (some (g.removeEdge a b).1, (g.removeEdge a b).2)
  | .removeView v => (some (g.removeView v).1, (g.removeView v).2)
  | .setEdge a b i => (none, g.setEdge a b i)

/-- The graph after a history of calls on an empty graph. -/
def run (ops : List (Op I)) : ViewGraph I := ops.foldl (fun g op => (g.step op).2) empty

end ViewGraph
end Theia
