import Verif.Base.AMap
import Verif.Base.Outcome

/-!
# Model of `ConnectedComponents<T>` (math/graph/connected_components.h)

`Root*` pointers are pointers to values stored in `disjoint_set_`; a pointer is modelled by the key
under which its target is stored (`std::unordered_map` never moves its values). The recursion of
`FindRoot` is unbounded in the code; the model gives it as much fuel as there are entries and
reports `ub` if that does not suffice, i.e. if the parent links have a cycle.
-/

namespace Theia

/-- `ConnectedComponents::Root` (connected_components.h:65-69). -/
structure CCRoot (T : Type) where
  id : T
  size : Nat
  deriving DecidableEq, Repr

/-- The members of `ConnectedComponents` (connected_components.h:164-169). -/
structure CC (T : Type) where
  maxSize : Nat
  set : AMap T (CCRoot T)
  deriving DecidableEq, Repr

namespace CC

variable {T : Type} [DecidableEq T]

/-- Both constructors (connected_components.h:71-78); the default one passes
`numeric_limits<T>::max()`. `CHECK_GT(max, 0)`. -/
def create (maxSize : Nat) : Outcome (CC T) :=
  if maxSize > 0 then .ok ⟨maxSize, .empty⟩ else .abort

/-- `FindRoot` (connected_components.h:150-162): returns the key of the root. -/
def findRoot : Nat → AMap T (CCRoot T) → T → Outcome (T × AMap T (CCRoot T))
  | 0, _, _ => .ub
  | fuel + 1, d, node =>
    match d.get node with
    | none => .abort
    | some parent =>
      if node = parent.id then .ok (node, d)
      else
        match findRoot fuel d parent.id with
        | .ok (root, d') =>
          match d'.get root with
          | none => .ub
          | some r => .ok (root, d'.insert node r)
        | .abort => .abort
        | .ub => .ub

/-- `FindOrInsert` (connected_components.h:136-145). -/
def findOrInsert (d : AMap T (CCRoot T)) (node : T) : Outcome (T × AMap T (CCRoot T)) :=
  match d.get node with
  | none => .ok (node, d.insert node ⟨node, 1⟩)
  | some _ => findRoot (d.size + 1) d node

/-- `AddEdge` (connected_components.h:87-108). -/
def addEdge (c : CC T) (a b : T) : Outcome (CC T) :=
  match findOrInsert c.set a with
  | .abort => .abort
  | .ub => .ub
  | .ok (p1, d1) =>
    match findOrInsert d1 b with
    | .abort => .abort
    | .ub => .ub
    | .ok (p2, d) =>
      match d.get p1, d.get p2 with
      | some root1, some root2 =>
        if root1.id = root2.id ∨ root1.size + root2.size > c.maxSize then .ok { c with set := d }
        else if root1.size < root2.size then
          let root2 := { root2 with size := root2.size + root1.size }
          .ok { c with set := (d.insert p2 root2).insert p1 root2 }
        else
          let root1 := { root1 with size := root1.size + root2.size }
          .ok { c with set := (d.insert p1 root1).insert p2 root1 }
      | _, _ => .ub

/-- Loop of `Extract` (connected_components.h:115-118) over the keys of `disjoint_set_`. -/
def extractLoop : List T → AMap T (CCRoot T) → AMap T (List T) →
    Outcome (AMap T (List T) × AMap T (CCRoot T))
  | [], d, out => .ok (out, d)
  | node :: nodes, d, out =>
    match findRoot (d.size + 1) d node with
    | .abort => .abort
    | .ub => .ub
    | .ok (p, d') =>
      match d'.get p with
      | none => .ub
      | some root =>
        let members := (out.get root.id).getD []
        extractLoop nodes d'
          (out.insert root.id (if node ∈ members then members else members ++ [node]))

/-- `Extract` (connected_components.h:111-119). -/
def extract (c : CC T) : Outcome (AMap T (List T) × CC T) :=
  match extractLoop c.set.keys c.set .empty with
  | .ok (out, d) => .ok (out, { c with set := d })
  | .abort => .abort
  | .ub => .ub

/-- `NodesInSameConnectedComponent` (connected_components.h:123-132). -/
def nodesInSame (c : CC T) (a b : T) : Outcome (Bool × CC T) :=
  if ¬ c.set.contains a ∨ ¬ c.set.contains b then .ok (false, c)
  else
    match findRoot (c.set.size + 1) c.set a with
    | .abort => .abort
    | .ub => .ub
    | .ok (p1, d1) =>
      match findRoot (d1.size + 1) d1 b with
      | .abort => .abort
      | .ub => .ub
      | .ok (p2, d) =>
        match d.get p1, d.get p2 with
        | some root1, some root2 => .ok (decide (root1.id = root2.id), { c with set := d })
        | _, _ => .ub

/-- A call of a member function. -/
inductive Op (T : Type) where
  | addEdge (a b : T)
  | query (a b : T)
  | extract

/-- The edges passed to `AddEdge` in a history, in call order. -/
def edgesOf {T : Type} : List (Op T) → List (T × T)
  | [] => []
  | .addEdge a b :: ops => (a, b) :: edgesOf ops
  | _ :: ops => edgesOf ops

/-- Execute one call, discarding the answer. -/
def step (c : CC T) : Op T → Outcome (CC T)
  | .addEdge a b => c.addEdge a b
  | .query a b => (c.nodesInSame a b).bind fun x => .ok x.2
  | .extract => c.extract.bind fun x => .ok x.2

/-- Execute a sequence of calls. -/
def run : CC T → List (Op T) → Outcome (CC T)
  | c, [] => .ok c
  | c, op :: ops => (c.step op).bind fun c' => run c' ops

end CC
end Theia
