import Mathlib.Algebra.Order.Field.Basic
import Verif.Base.AMap
import Verif.Base.Outcome
import Mathlib.Data.List.Sort

/-!
# Normalized graph cuts

Models `/repo/src/theia/math/graph/normalized_graph_cut.h` (class `NormalizedGraphCut`) with `T` the natural numbers.

* Doubles are elements of an ordered field. Where a division by zero gives NaN or an infinity the cost is `none`; with weights that are
  not negative such a cost is never below another one.
* `edges` lists the entries of the hash map in the order of iteration. A set is the list of its elements.
* `solver` is the eigensolver (Spectra's `SymGEigsSolver` with the Cholesky factorisation of the node weights): for the size of the
  system, the matrix `D - W` and the diagonal of `D`, the column 0 of its eigenvectors, or `none` if it reports no success.
* `Options::num_cuts_to_test` does not occur: no function reads it (line 79; the constant of line 202 is used).
* `cost_or_null` is not null. The log is not modelled.
-/

namespace Theia
namespace GraphCut

variable {K : Type} [Field K] [LinearOrder K]

/-- Sum over the indices below `n` (Eigen's `sum` and `dot`). -/
def sumTo (n : Nat) (f : Nat → K) : K := ((List.range n).map f).sum

/-- `InsertIfNotPresent(&node_to_index_map_, v, node_to_index_map_.size())` (lines 241-244). -/
def indexNode (m : AMap Nat Nat) (v : Nat) : AMap Nat Nat := m.emplace v m.size

/-- `IndexNodeIds` (lines 239-246). It adds to the map of earlier calls. -/
def indexNodeIds (edges : List ((Nat × Nat) × K)) (m : AMap Nat Nat) : AMap Nat Nat :=
  edges.foldl (fun m e => indexNode (indexNode m e.1.1) e.1.2) m

/-- The triplets of `CreateEdgeWeightMatrix` (lines 252-261). -/
def triplets (m : AMap Nat Nat) : List ((Nat × Nat) × K) → Outcome (List (Nat × Nat × K))
  | [] => .ok []
  | e :: es =>
    match m.get e.1.1, m.get e.1.2 with
    | some row, some col =>
      match triplets m es with
      | .abort => .abort
      | .ub => .ub
      | .ok ts => .ok ((row, col, e.2) :: (col, row, e.2) :: ts)
    | _, _ => .abort

/-- `edge_weight_(i, j)` after `setFromTriplets` (lines 263-264), which adds triplets with the same position. -/
def weight (ts : List (Nat × Nat × K)) (i j : Nat) : K :=
  (ts.map fun t => if t.1 = i ∧ t.2.1 = j then t.2.2 else 0).sum

/-- `node_weight_(i, i)` after `CreateNodeWeightMatrix` (lines 268-280). -/
def nodeWeight (m : AMap Nat Nat) (ts : List (Nat × Nat × K)) (i : Nat) : K :=
  (m.entries.map fun e => if e.2 = i then sumTo m.size (weight ts e.2) else 0).sum

/-- `node_weight_ - edge_weight_` (lines 122 and 165). -/
def laplacian (m : AMap Nat Nat) (ts : List (Nat × Nat × K)) (i j : Nat) : K :=
  (if i = j then nodeWeight m ts i else 0) - weight ts i j

/-- `x^T * M * x` for the matrix with these entries. -/
def quadratic (n : Nat) (M : Nat → Nat → K) (x : Nat → K) : K := sumTo n fun i => x i * sumTo n fun j => M i j * x j

/-- `ComputeCostForCut` (lines 146-168). `none` is NaN or infinite: no weight at all, all weight above the cut with a node below it, or a
vector of length zero. -/
def costForCut (n : Nat) (L : Nat → Nat → K) (d y : Nat → K) (cut : K) : Option K :=
  let total := sumTo n d
  if total = 0 then none
  else
    let k := sumTo n (fun i => d i * if y i > cut then 1 else 0) / total
    if 1 - k = 0 ∧ (List.range n).any (fun i => decide (¬y i > cut)) then none
    else
      let b := k / (1 - k)
      let x := fun i => if y i > cut then 1 else -b
      let norm := sumTo n fun i => x i * (d i * x i)
      if norm = 0 then none else some (quadratic n L x / norm)

/-- The element `std::nth_element` puts at position `k`. -/
def nth (l : List K) (k : Nat) : Outcome K :=
  match (l.insertionSort (· ≤ ·))[k]? with
  | none => .ub
  | some x => .ok x

/-- `ComputeFirstAndThirdQuantiles` (lines 170-195). The second `nth_element` works behind the first quantile, where the elements are not
smaller. -/
def quantiles (n : Nat) (y : Nat → K) : Outcome (K × K) :=
  if n < 4 then .abort
  else
    match nth ((List.range n).map y) (n / 4), nth ((List.range n).map y) (3 * n / 4) with
    | .ok q1, .ok q3 => .ok (q1, q3)
    | _, _ => .ub

/-- `kNumCutsToTest` (line 202). -/
def numCuts : Nat := 10

/-- `cut_value` in turn `i` (lines 211-214). -/
def cutValue (q1 q3 : K) (i : Nat) : K := (1 - (i : K) / ((numCuts - 1 : Nat) : K)) * q1 + (i : K) / ((numCuts - 1 : Nat) : K) * q3

/-- One turn of the loop over the cuts (lines 210-221): best value and best cost. -/
def tryCut (cost : K → Option K) (best : K × K) (cut : K) : K × K :=
  match cost cut with
  | none => best
  | some c => if c < best.2 then (cut, c) else best

/-- The loop over the cuts (lines 203-221). -/
def bestCut (cost : K → Option K) (q1 q3 : K) : K × K :=
  ((List.range numCuts).map (cutValue q1 q3)).foldl (tryCut cost) (0, 10 ^ 12)

/-- `emplace` of an `unordered_set`. -/
def put (s : List Nat) (v : Nat) : List Nat := if v ∈ s then s else s ++ [v]

/-- The loop that forms the subgraphs (lines 224-230). -/
def divide (y : Nat → K) (cut : K) : List (Nat × Nat) → List Nat × List Nat → List Nat × List Nat
  | [], s => s
  | e :: es, s => divide y cut es (if y e.2 > cut then (put s.1 e.1, s.2) else (s.1, put s.2 e.1))

/-- `FindOptimalCut` (lines 198-235): subgraphs and cost. -/
def findOptimalCut (m : AMap Nat Nat) (ts : List (Nat × Nat × K)) (y : Nat → K) (s : List Nat × List Nat) :
    Outcome ((List Nat × List Nat) × K) :=
  match quantiles m.size y with
  | .abort => .abort
  | .ub => .ub
  | .ok (q1, q3) =>
    let best := bestCut (costForCut m.size (laplacian m ts) (nodeWeight m ts) y) q1 q3
    .ok (divide y best.1 m.entries s, best.2)

/-- `ComputeCut` (lines 86-143), for the map of the object and the contents of the output sets: the map afterwards, and the subgraphs and
the cost, or `none` for the result `false`. The constructor of Spectra's solver throws for fewer than ten rows, the number of Lanczos
vectors of line 130 (libraries/spectra/include/SymEigsSolver.h:491-495). -/
def computeCut (solver : Nat → (Nat → Nat → K) → (Nat → K) → Option (Nat → K)) (m : AMap Nat Nat)
    (edges : List ((Nat × Nat) × K)) (s : List Nat × List Nat) :
    Outcome (AMap Nat Nat × Option ((List Nat × List Nat) × K)) :=
  let m := indexNodeIds edges m
  match triplets m edges with
  | .abort => .abort
  | .ub => .ub
  | .ok ts =>
    if m.size < 10 then .abort
    else
      match solver m.size (laplacian m ts) (nodeWeight m ts) with
      | none => .ok (m, none)
      | some y =>
        match findOptimalCut m ts y s with
        | .abort => .abort
        | .ub => .ub
        | .ok r => .ok (m, some r)

end GraphCut
end Theia
