import Mathlib.Data.List.Dedup
import Verif.Model.LRUCache

/-!
# What an LRU cache should do, in terms of the history of uses

The history lists the uses so far, oldest first: the key and the value it had.
-/

namespace Theia.Spec

variable {K V : Type} [DecidableEq K]

/-- The `m` most recently used distinct keys, in order of their last use. (`dedup` keeps the last
occurrence of each key.) -/
def recent (m : Nat) (uses : List (K × V)) : List K :=
  let order := (uses.map (·.1)).dedup
  order.drop (order.length - m)

/-- The value of the last use of a key. -/
def lastValue (uses : List (K × V)) (k : K) : Option V :=
  (uses.reverse.find? (fun u => decide (u.1 = k))).map (·.2)

/-- The required behaviour: a fetch of one of the `m` most recently used keys returns the value of
its last use without calling `f`; any other fetch calls `f` on the key, once, and returns its value.
Inserting one of the `m` most recently used keys is a violated precondition (`none`). -/
def lruRun (m : Nat) (f : K → V) : List (K × V) → List (LRU.Op K V) →
    Option (List (Option V × List K) × List (K × V))
  | uses, [] => some ([], uses)
  | uses, .fetch k :: ops =>
    if k ∈ recent m uses then
      match lastValue uses k with
      | none => none
      | some v => (lruRun m f (uses ++ [(k, v)]) ops).map fun x => ((some v, []) :: x.1, x.2)
    else (lruRun m f (uses ++ [(k, f k)]) ops).map fun x => ((some (f k), [k]) :: x.1, x.2)
  | uses, .insert k v :: ops =>
    if k ∈ recent m uses then none
    else (lruRun m f (uses ++ [(k, v)]) ops).map fun x => ((none, []) :: x.1, x.2)

end Theia.Spec
