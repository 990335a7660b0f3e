import Mathlib.Order.Defs.LinearOrder
import Mathlib.Order.Lattice
import Mathlib.Data.List.Dedup
import Verif.Model.ConnectedComponents

/-!
# Model of `MinimumSpanningTree<T, V>` (math/graph/minimum_spanning_tree.h)
-/

namespace Theia
namespace MST

variable {T W : Type} [LinearOrder T] [LinearOrder W]

/-- A weighted edge, an element of `edges_` (minimum_spanning_tree.h:119). -/
abbrev Edge (T W : Type) := W × (T × T)

/-- `operator<=` of `std::pair<V, std::pair<T, T>>`, the order used by `std::sort`
(minimum_spanning_tree.h:82). -/
def edgeLe (e f : Edge T W) : Bool :=
  decide (e.1 < f.1 ∨ (e.1 = f.1 ∧ (e.2.1 < f.2.1 ∨ (e.2.1 = f.2.1 ∧ e.2.2 ≤ f.2.2))))

/-- `CountNodesInGraph` (minimum_spanning_tree.h:104-117). Sorting, `std::unique` and `distance`
are modelled by counting the distinct values. -/
def countNodes (edges : List (Edge T W)) : Nat :=
  (edges.map (fun e => e.2.1) ++ edges.map (fun e => e.2.2)).dedup.length

/-- The selection loop (minimum_spanning_tree.h:87-97) over the sorted edges. The output is an
`unordered_set`, so `emplace` of a present pair does nothing. -/
def loop (n : Nat) : List (Edge T W) → CC T → List (T × T) → Outcome (List (T × T))
  | [], _, out => .ok out
  | e :: es, cc, out =>
    if out.length < n - 1 then
      match cc.nodesInSame e.2.1 e.2.2 with
      | .abort => .abort
      | .ub => .ub
      | .ok (same, cc') =>
        if same then loop n es cc' out
        else
          match cc'.addEdge e.2.1 e.2.2 with
          | .abort => .abort
          | .ub => .ub
          | .ok cc'' => loop n es cc'' (if (e.2.1, e.2.2) ∈ out then out else out ++ [(e.2.1, e.2.2)])
    else .ok out

/-- `Extract` (minimum_spanning_tree.h:69-101) for the edges added so far, starting from the given
content of the output set; `limit` is `numeric_limits<T>::max()`. -/
def extract (limit : Nat) (edges : List (Edge T W)) (out : List (T × T)) :
    Outcome (Bool × List (T × T)) :=
  if edges.length = 0 then .ok (false, out)
  else
    let n := countNodes edges
    match loop n (edges.mergeSort edgeLe) ⟨limit, .empty⟩ out with
    | .abort => .abort
    | .ub => .ub
    | .ok res => .ok (decide (res.length = n - 1), res)

end MST
end Theia
