import Verif.Base.AMap
import Verif.Base.Outcome

/-!
# Model of `mutable_priority_queue` (util/mutable_priority_queue.h)

Heap-allocated key-value pairs live in a store `mem` addressed by pointers; `new` takes the next
address. The standard heap algorithms are a parameter (`HeapAlgo`), constrained only by what the
standard promises about their results (`HeapAlgo.Lawful` in the specification). `pop` deletes the
front pair *before* calling `std::pop_heap`, whose comparator dereferences pairs; `std::pop_heap` is
modelled, as libstdc++ and libc++ implement it, as comparing only the entries behind the front.
Comparing any other deleted pair is `ub`.
-/

namespace Theia

/-- The three standard algorithms used, on pointers, for a comparator on pointers. -/
structure HeapAlgo where
  /-- `std::make_heap`. -/
  make : (Nat → Nat → Bool) → List Nat → List Nat
  /-- `std::push_heap`: the last entry is the new one. -/
  push : (Nat → Nat → Bool) → List Nat → List Nat
  /-- `std::pop_heap`: what precedes the old front afterwards, given what followed it before. -/
  pop : (Nat → Nat → Bool) → List Nat → List Nat

/-- The members (mutable_priority_queue.h:155-157), with the store of allocated pairs. -/
structure MPQ (K V : Type) where
  mem : AMap Nat (K × V)
  next : Nat
  heap : List Nat
  index : AMap K Nat
  deriving DecidableEq, Repr

namespace MPQ

variable {K V : Type} [DecidableEq K] (A : HeapAlgo) (cmp : V → V → Bool)

/-- The default constructor (mutable_priority_queue.h:69). -/
def create : MPQ K V := ⟨.empty, 0, [], .empty⟩

/-- `KeyValuePtrComp` (mutable_priority_queue.h:62-65). -/
def ptrComp (mem : AMap Nat (K × V)) (p q : Nat) : Bool :=
  match mem.get p, mem.get q with
  | some a, some b => cmp a.2 b.2
  | _, _ => false

/-- Running a heap algorithm on pointers that may be compared: all must be live. -/
def withLive (mem : AMap Nat (K × V)) (ps : List Nat) (r : List Nat) : Outcome (List Nat) :=
  if ps.all (fun p => mem.contains p) then .ok r else .ub

/-- `clear` (mutable_priority_queue.h:90-93). `STLDeleteElements` deletes every pair and clears the
vector. -/
def clear (q : MPQ K V) : MPQ K V :=
  { q with mem := q.heap.foldl (fun m p => m.erase p) q.mem, heap := [], index := .empty }

/-- `erase` (mutable_priority_queue.h:96-107). -/
def erase (q : MPQ K V) (k : K) : Outcome (MPQ K V) :=
  match q.index.get k with
  | none => .ok q
  | some kv =>
    if kv ∈ q.heap then
      let heap := q.heap.erase kv
      match withLive q.mem heap (A.make (ptrComp cmp q.mem) heap) with
      | .ok heap => .ok { q with mem := q.mem.erase kv, heap := heap, index := q.index.erase k }
      | .abort => .abort
      | .ub => .ub
    else .ub

/-- `empty` (mutable_priority_queue.h:110). -/
def isEmpty (q : MPQ K V) : Bool := q.heap.length == 0

/-- `top` (mutable_priority_queue.h:112). -/
def top (q : MPQ K V) : Outcome (K × V) :=
  match q.heap with
  | [] => .ub
  | p :: _ =>
    match q.mem.get p with
    | none => .ub
    | some kv => .ok kv

/-- `pop` (mutable_priority_queue.h:115-122). -/
def pop (q : MPQ K V) : Outcome (MPQ K V) :=
  match q.heap with
  | [] => .ub
  | p :: rest =>
    match q.mem.get p with
    | none => .ub
    | some kv =>
      let index := q.index.erase kv.1
      let mem := q.mem.erase p
      match withLive mem rest (A.pop (ptrComp cmp mem) rest) with
      | .ok heap => .ok { q with mem := mem, heap := heap, index := index }
      | .abort => .abort
      | .ub => .ub

/-- `insert` (mutable_priority_queue.h:125-130). -/
def insert (q : MPQ K V) (k : K) (v : V) : Outcome (MPQ K V) :=
  let kv := q.next
  let mem := q.mem.insert kv (k, v)
  let heap := q.heap ++ [kv]
  match withLive mem heap (A.push (ptrComp cmp mem) heap) with
  | .ok heap => .ok { mem := mem, next := q.next + 1, heap := heap, index := q.index.insert k kv }
  | .abort => .abort
  | .ub => .ub

/-- `update` (mutable_priority_queue.h:134-138). -/
def update (q : MPQ K V) (k : K) (v : V) : Outcome (MPQ K V) :=
  match q.index.get k with
  | none => .abort
  | some kv =>
    if q.mem.contains kv then
      let mem := q.mem.modify kv (fun p => (p.1, v))
      match withLive mem q.heap (A.make (ptrComp cmp mem) q.heap) with
      | .ok heap => .ok { q with mem := mem, heap := heap }
      | .abort => .abort
      | .ub => .ub
    else .ub

/-- `size` (mutable_priority_queue.h:141-144), without the debug-only check. -/
def size (q : MPQ K V) : Nat := q.heap.length

/-- `contains` (mutable_priority_queue.h:146-148). -/
def contains (q : MPQ K V) (k : K) : Bool := q.index.contains k

/-- `find` (mutable_priority_queue.h:151-153). -/
def find (q : MPQ K V) (k : K) : Outcome V :=
  match q.index.get k with
  | none => .abort
  | some kv =>
    match q.mem.get kv with
    | none => .ub
    | some p => .ok p.2

/-- A modifying call. -/
inductive Op (K V : Type) where
  | insert (k : K) (v : V)
  | update (k : K) (v : V)
  | erase (k : K)
  | pop
  | clear

/-- Run one call. -/
def step (q : MPQ K V) : Op K V → Outcome (MPQ K V)
  | .insert k v => q.insert A cmp k v
  | .update k v => q.update A cmp k v
  | .erase k => q.erase A cmp k
  | .pop => q.pop A cmp
  | .clear => .ok q.clear

end MPQ
end Theia
