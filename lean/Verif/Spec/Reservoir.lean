import Mathlib.Algebra.BigOperators.Group.List.Basic
import Mathlib.Algebra.Field.Rat
import Verif.Model.Reservoir

/-!
# Finite probability distributions and histogram buckets

A distribution is a list of outcomes with rational weights.
-/

namespace Theia.Spec

/-- Weighted outcomes. -/
abbrev Dist (α : Type) := List (ℚ × α)

/-- The probability of an event. -/
def prob {α : Type} (d : Dist α) (event : α → Bool) : ℚ :=
  (d.map fun q => if event q.2 then q.1 else 0).sum

/-- A uniformly random number in `[0, n]`. -/
def uniformUpTo (n : Nat) : Dist Nat := (List.range (n + 1)).map fun r => (1 / ((n : ℚ) + 1), r)

/-- Run a randomised continuation on each outcome. -/
def Dist.bind {α β : Type} (d : Dist α) (f : α → Dist β) : Dist β :=
  d.flatMap fun q => (f q.2).map fun r => (q.1 * r.1, r.2)

/-- One call of `AddElementToSampler`, drawing the random number it needs. -/
def reservoirStep {α : Type} (x : α) : Outcome (Reservoir α) → Dist (Outcome (Reservoir α))
  | .ok s => if s.draws then (uniformUpTo s.numElementsAdded).map fun q => (q.1, s.add x q.2)
      else [(1, s.add x 0)]
  | o => [(1, o)]

/-- The distribution of a sampler of size `k` after all elements of the stream were added in order. -/
def reservoirDist {α : Type} (k : Nat) (stream : List α) : Dist (Outcome (Reservoir α)) :=
  stream.foldl (fun d x => d.bind (reservoirStep x)) [(1, .ok (Reservoir.new k))]

/-- The sampler returned normally and holds the element. -/
def holds {α : Type} [DecidableEq α] (x : α) : Outcome (Reservoir α) → Bool
  | .ok s => decide (x ∈ s.samples)
  | _ => false

/-- `v` lies in the bucket starting at boundary number `k` of the sorted list `b`: at or above it and
below the next one, if there is one. -/
def inBucket {T : Type} [LT T] [LE T] [DecidableLT T] [DecidableLE T] (b : List T) (k : Nat) (v : T) : Bool :=
  (match b[k]? with
    | some lo => decide (lo ≤ v)
    | none => false) &&
  (match b[k + 1]? with
    | some hi => decide (v < hi)
    | none => true)

end Theia.Spec
