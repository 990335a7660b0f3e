import Verif.Base.AMap
import Verif.Base.Outcome

/-!
# Model of `LRUCache` (util/lru_cache.h)

The iterators stored in the map are modelled by the key of the list node they point to. All
modifying calls hold the mutex (lru_cache.h:84,112), so concurrent calls are some sequence of calls.
`fetch_entry_` is a total function.
-/

namespace Theia

/-- The members of `LRUCache` (lru_cache.h:163-182). -/
structure LRU (K V : Type) where
  max : Nat
  list : List K
  map : AMap K V
  misses : Nat
  hits : Nat
  deriving DecidableEq, Repr

namespace LRU

variable {K V : Type} [DecidableEq K]

/-- The constructor (lru_cache.h:71-79). -/
def create (max : Nat) : Outcome (LRU K V) :=
  if max > 0 then .ok ⟨max, [], .empty, 0, 0⟩ else .abort

/-- `EvictOldestEntry` (lru_cache.h:153-161). -/
def evict (c : LRU K V) : Outcome (LRU K V) :=
  if c.list.length > 0 ∧ c.map.size > 0 then
    match c.list with
    | [] => .ub
    | k :: rest => .ok { c with list := rest, map := c.map.erase k }
  else .abort

/-- `InsertIntoCache` (lru_cache.h:133-147). -/
def insertIntoCache (c : LRU K V) (k : K) (v : V) : Outcome (LRU K V) :=
  if c.map.contains k then .abort
  else
    match (if c.map.size = c.max then c.evict else .ok c) with
    | .abort => .abort
    | .ub => .ub
    | .ok c => .ok { c with list := c.list ++ [k], map := c.map.emplace k v }

/-- `Fetch` (lru_cache.h:83-106). Returns the value and the keys on which `fetch_entry_` was
called. -/
def fetch (f : K → V) (c : LRU K V) (k : K) : Outcome (V × List K × LRU K V) :=
  match c.map.get k with
  | none =>
    let v := f k
    match insertIntoCache { c with misses := c.misses + 1 } k v with
    | .abort => .abort
    | .ub => .ub
    | .ok c => .ok (v, [k], c)
  | some v =>
    if k ∈ c.list then
      .ok (v, [], { c with hits := c.hits + 1, list := c.list.filter (fun x => decide (x ≠ k)) ++ [k] })
    else .ub

/-- `ExistsInCache` (lru_cache.h:117-119). -/
def exists_ (c : LRU K V) (k : K) : Bool := c.map.contains k

/-- A call. -/
inductive Op (K V : Type) where
  | fetch (k : K)
  | insert (k : K) (v : V)

/-- Run calls, collecting for each the returned value (if any) and the calls of `fetch_entry_`. -/
def run (f : K → V) : LRU K V → List (Op K V) → Outcome (List (Option V × List K) × LRU K V)
  | c, [] => .ok ([], c)
  | c, .fetch k :: ops =>
    match fetch f c k with
    | .abort => .abort
    | .ub => .ub
    | .ok (v, calls, c') =>
      match run f c' ops with
      | .abort => .abort
      | .ub => .ub
      | .ok (rs, c'') => .ok ((some v, calls) :: rs, c'')
  | c, .insert k v :: ops =>
    match insertIntoCache c k v with
    | .abort => .abort
    | .ub => .ub
    | .ok c' =>
      match run f c' ops with
      | .abort => .abort
      | .ub => .ub
      | .ok (rs, c'') => .ok ((none, []) :: rs, c'')

end LRU
end Theia
