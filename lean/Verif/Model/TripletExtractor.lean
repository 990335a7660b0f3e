import Mathlib.Order.Defs.LinearOrder
import Verif.Model.ConnectedComponents

/-!
# Model of `TripletExtractor<T>` (math/graph/triplet_extractor.h)

The edge set is given as the list in which the `unordered_set` is iterated. A `std::set<T>` is
modelled as a list without repetitions (its order only influences the numbering of the triplets).
-/

namespace Theia
namespace Triplets

variable {T : Type} [LinearOrder T]

/-- `TypeTriplet` (triplet_extractor.h:62). -/
abbrev Triplet (T : Type) := T × T × T

/-- `internal::SortTriplet` (triplet_extractor.h:107-120). -/
def sortTriplet (t : Triplet T) : Triplet T :=
  let a := t.1
  let b := t.2.1
  let c := t.2.2
  let bc := if c < b then (c, b) else (b, c)
  let ab := if bc.1 < a then (bc.1, a) else (a, bc.1)
  (ab.1, ab.2, bc.2)

/-- `adjacency_graph[x].emplace(y)` (triplet_extractor.h:173-174). -/
def adjAdd (adj : AMap T (List T)) (x y : T) : AMap T (List T) :=
  let l := (adj.get x).getD []
  adj.insert x (if y ∈ l then l else l ++ [y])

/-- `adjacency_graph[x].erase(y)` (triplet_extractor.h:205-206). -/
def adjErase (adj : AMap T (List T)) (x y : T) : AMap T (List T) :=
  adj.insert x (((adj.get x).getD []).filter (fun z => decide (z ≠ y)))

/-- The adjacency graph of triplet_extractor.h:170-175. -/
def buildAdj (edges : List (T × T)) : AMap T (List T) :=
  edges.foldl (fun adj e => adjAdd (adjAdd adj e.1 e.2) e.2 e.1) .empty

/-- The members `triplets_` and `triplet_edges_` (triplet_extractor.h:89-93). -/
structure Found (T : Type) where
  triplets : List (Triplet T)
  edges : AMap (T × T) (List Nat)

/-- `triplet_edges_[pair].emplace_back(id)` (triplet_extractor.h:225-227). -/
def pushId (m : AMap (T × T) (List Nat)) (p : T × T) (i : Nat) : AMap (T × T) (List Nat) :=
  m.insert p ((m.get p).getD [] ++ [i])

/-- `StoreTriplet` (triplet_extractor.h:210-228). -/
def store (s : Found T) (a b c : T) : Found T :=
  let t := sortTriplet (a, b, c)
  let triplets := s.triplets ++ [t]
  let id := triplets.length - 1
  { triplets := triplets
    edges := pushId (pushId (pushId s.edges (t.1, t.2.1) id) (t.1, t.2.2) id) (t.2.1, t.2.2) id }

/-- The loop of `FindTriplets` (triplet_extractor.h:178-207). -/
def findLoop : List (T × T) → AMap T (List T) → Found T → Outcome (Found T)
  | [], _, s => .ok s
  | e :: es, adj, s =>
    match adj.get e.1, adj.get e.2 with
    | some l1, some l2 =>
      let common := l1.filter (fun z => decide (z ∈ l2))
      let s := common.foldl (fun s c => store s e.1 e.2 c) s
      findLoop es (adjErase (adjErase adj e.1 e.2) e.2 e.1) s
    | _, _ => .abort

/-- Chaining of the triplets of one edge (triplet_extractor.h:255-258). -/
def chain : List Nat → List (Nat × Nat)
  | i :: j :: r => (i, j) :: chain (j :: r)
  | _ => []

/-- The `AddEdge` calls made for one entry of `triplet_edges_` (triplet_extractor.h:241-258). For an
empty vector `size() - 1` wraps around and the loop would run out of bounds. -/
def links : List Nat → Outcome (List (Nat × Nat))
  | [] => .ub
  | [i] => .ok [(i, i)]
  | i :: j :: r => .ok (chain (i :: j :: r))

/-- The loop of `GetConnectedTripletGraphs` (triplet_extractor.h:241-259). -/
def linkAll : List ((T × T) × List Nat) → CC Nat → Outcome (CC Nat)
  | [], c => .ok c
  | e :: es, c =>
    match links e.2 with
    | .abort => .abort
    | .ub => .ub
    | .ok ls =>
      match CC.run c (ls.map (fun p => CC.Op.addEdge p.1 p.2)) with
      | .abort => .abort
      | .ub => .ub
      | .ok c' => linkAll es c'

/-- Copying the triplets of one component (triplet_extractor.h:147-149). -/
def collect (triplets : List (Triplet T)) : List Nat → Outcome (List (Triplet T))
  | [] => .ok []
  | i :: is =>
    match triplets[i]? with
    | none => .ub
    | some t =>
      match collect triplets is with
      | .abort => .abort
      | .ub => .ub
      | .ok ts => .ok (t :: ts)

/-- Moving the components to the output (triplet_extractor.h:141-151). -/
def collectAll (triplets : List (Triplet T)) :
    List (Nat × List Nat) → Outcome (List (List (Triplet T)))
  | [] => .ok []
  | e :: es =>
    match collect triplets e.2 with
    | .abort => .abort
    | .ub => .ub
    | .ok g =>
      match collectAll triplets es with
      | .abort => .abort
      | .ub => .ub
      | .ok gs => .ok (g :: gs)

/-- `ExtractTriplets` up to the final sort (triplet_extractor.h:123-151): the new groups. `limit` is
`numeric_limits<uint32_t>::max()`. -/
def newGroups (limit : Nat) (edges : List (T × T)) : Outcome (List (List (Triplet T))) :=
  match findLoop edges (buildAdj edges) ⟨[], .empty⟩ with
  | .abort => .abort
  | .ub => .ub
  | .ok found =>
    match CC.create limit with
    | .abort => .abort
    | .ub => .ub
    | .ok c0 =>
      match linkAll found.edges.entries c0 with
      | .abort => .abort
      | .ub => .ub
      | .ok c =>
        match c.extract with
        | .abort => .abort
        | .ub => .ub
        | .ok (comps, _) => collectAll found.triplets comps.entries

/-- `ExtractTriplets` (triplet_extractor.h:123-159), appending to the groups already in `out`.
`std::sort` is modelled by a stable sort. -/
def extract (limit : Nat) (edges : List (T × T)) (out : List (List (Triplet T))) :
    Outcome (List (List (Triplet T))) :=
  match newGroups limit edges with
  | .abort => .abort
  | .ub => .ub
  | .ok gs => .ok ((out ++ gs).mergeSort (fun a b => decide (b.length ≤ a.length)))

end Triplets
end Theia
