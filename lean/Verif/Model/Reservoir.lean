import Verif.Base.Outcome

/-!
# Reservoir sampler and histogram

Models `/repo/src/theia/math/reservoir_sampler.h` and `/repo/src/theia/math/histogram.h`.
-/

namespace Theia

/-- The members of `ReservoirSampler` (reservoir_sampler.h:95-105), for a nonnegative size. -/
structure Reservoir (α : Type) where
  numElementsToSample : Nat
  numElementsAdded : Nat
  samples : List α
deriving DecidableEq, Repr

namespace Reservoir

variable {α : Type}

/-- The constructor (reservoir_sampler.h:58-62). -/
def new (k : Nat) : Reservoir α := ⟨k, 0, []⟩

/-- Whether `AddElementToSampler` draws a random number (reservoir_sampler.h:70). -/
def draws (s : Reservoir α) : Bool := decide (s.numElementsToSample ≤ s.numElementsAdded)

/-- `AddElementToSampler` (reservoir_sampler.h:67-85) where `r` is the value of
`rng_.RandInt(0, num_elements_added_)` if a number is drawn. -/
def add (s : Reservoir α) (x : α) (r : Nat) : Outcome (Reservoir α) :=
  if s.numElementsAdded < s.numElementsToSample then
    .ok ⟨s.numElementsToSample, s.numElementsAdded + 1, s.samples ++ [x]⟩
  else if r < s.numElementsToSample then
    if r < s.samples.length then
      .ok ⟨s.numElementsToSample, s.numElementsAdded + 1, s.samples.set r x⟩
    else .ub
  else .ok ⟨s.numElementsToSample, s.numElementsAdded + 1, s.samples⟩

end Reservoir

/-- The members of `Histogram` (histogram.h:111-112). -/
structure Histogram (T : Type) where
  boundaries : List T
  counts : List Nat
deriving DecidableEq, Repr

namespace Histogram

variable {T : Type}

/-- The constructor (histogram.h:52-59). `negInf` is `-numeric_limits<T>::infinity()` and `max` is
`numeric_limits<T>::max()`. For integer types `infinity()` is zero. -/
def new (negInf max : T) (boundaries : List T) : Histogram T :=
  let b := negInf :: boundaries ++ [max]
  ⟨b, List.replicate b.length 0⟩

/-- `std::upper_bound` on a sorted range: the number of elements before the first one greater than
`v`. -/
def upperBound [LT T] [DecidableLT T] (b : List T) (v : T) : Nat := (b.takeWhile fun x => !decide (v < x)).length

/-- `Histogram::Add` (histogram.h:63-69); an index before or after the vector is undefined. -/
def add [LT T] [DecidableLT T] (h : Histogram T) (v : T) : Outcome (Histogram T) :=
  match upperBound h.boundaries v with
  | 0 => .ub
  | binIndex + 1 =>
    match h.counts[binIndex]? with
    | none => .ub
    | some c => .ok ⟨h.boundaries, h.counts.set binIndex (c + 1)⟩

/-- Successive calls of `Add`. -/
def addAll [LT T] [DecidableLT T] : List T → Histogram T → Outcome (Histogram T)
  | [], h => .ok h
  | v :: vs, h =>
    match h.add v with
    | .abort => .abort
    | .ub => .ub
    | .ok h => addAll vs h

/-- A printed line. -/
inductive Row (T : Type) where
  | below (b : T) (count : Nat)
  | between (lo hi : T) (count : Nat)
  | above (b : T) (count : Nat)
deriving DecidableEq, Repr

/-- The number a printed line shows. -/
def Row.count : Row T → Nat
  | .below _ c => c
  | .between _ _ c => c
  | .above _ c => c

/-- The lines with a range (histogram.h:90-96), from index `i` on. -/
def rangeRows : List T → List Nat → List (Row T)
  | lo :: hi :: bs, c :: cs =>
    match bs with
    | [] => []
    | _ :: _ => .between lo hi c :: rangeRows (hi :: bs) cs
  | _, _ => []

/-- `PrintString` (histogram.h:78-108) as a list of lines, for at least one user boundary; an empty
list of counts or boundaries cannot occur. -/
def print (h : Histogram T) : Outcome (List (Row T)) :=
  match h.boundaries, h.counts with
  | _ :: b1 :: bs, c0 :: cs =>
    let last := h.boundaries.length - 2
    match h.boundaries[last]?, h.counts[last]? with
    | some bl, some cl =>
      .ok ((if c0 > 0 then [.below b1 c0] else []) ++ rangeRows (b1 :: bs) cs ++
        (if cl > 0 then [.above bl cl] else []))
    | _, _ => .ub
  | _, _ => .ub

end Histogram
end Theia
