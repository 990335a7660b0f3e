import Mathlib.Data.List.Sort
import Mathlib.Order.WithBot
import Mathlib.Algebra.Order.Ring.Rat
import Verif.Model.Reservoir

/-!
# Statistics of pose errors

Models `src/theia/sfm/pose_error.h`. Errors are rational numbers, the first boundary of a histogram is minus infinity;
rounding, entries that are not numbers and the formatting of the message are left out.
-/

namespace Theia
namespace PoseErr

/-- The members of `PoseError` (pose_error.h:103-107). -/
structure State where
  rotHist : Histogram (WithBot ℚ)
  posHist : Histogram (WithBot ℚ)
  rot : List ℚ
  pos : List ℚ

/-- The constructor (pose_error.h:55-59); `max` is the largest finite number. -/
def new (max : ℚ) (rotBins posBins : List ℚ) : State :=
  ⟨Histogram.new ⊥ max (rotBins.map fun x : ℚ => (x : WithBot ℚ)), Histogram.new ⊥ max (posBins.map fun x : ℚ => (x : WithBot ℚ)), [], []⟩

/-- `AddError` (pose_error.h:60-66). -/
def addError (r p : ℚ) (s : State) : Outcome State := do
  let hr ← s.rotHist.add r
  let hp ← s.posHist.add p
  .ok ⟨hr, hp, s.rot ++ [r], s.pos ++ [p]⟩

/-- The numbers in one half of the message (pose_error.h:83-85, 96-98). -/
structure Numbers where
  mean : ℚ
  median : ℚ
  rows : List (Histogram.Row (WithBot ℚ))
deriving DecidableEq

/-- One half of the message, for sorted errors (pose_error.h:76-85, 89-98). -/
def numbers (sorted : List ℚ) (h : Histogram (WithBot ℚ)) : Outcome Numbers :=
  match sorted[sorted.length / 2]? with
  | none => .ub
  | some median => do
    let rows ← h.print
    .ok ⟨sorted.foldl (· + ·) 0 / sorted.length, median, rows⟩

/-- `PrintMeanMedianHistogram` (pose_error.h:68-100): `none` is the message that there are no poses. The errors stay
sorted. -/
def print (s : State) : Outcome (Option (Numbers × Numbers) × State) :=
  if s.rot.length = 0 then .ok (none, s)
  else do
    let rot := s.rot.insertionSort (· ≤ ·)
    let r ← numbers rot s.rotHist
    let pos := s.pos.insertionSort (· ≤ ·)
    let p ← numbers pos s.posHist
    .ok (some (r, p), { s with rot := rot, pos := pos })

/-- A call (pose_error.h:60-100). -/
inductive Op where
  | add (r p : ℚ)
  | print

/-- One call (pose_error.h:60-100). -/
def step (s : State) : Op → Outcome State
  | .add r p => addError r p s
  | .print => do let x ← print s; .ok x.2

/-- Calls one after the other (pose_error.h:60-100). -/
def run : List Op → State → Outcome State
  | [], s => .ok s
  | o :: os, s => do
    let s ← step s o
    run os s

end PoseErr
end Theia
