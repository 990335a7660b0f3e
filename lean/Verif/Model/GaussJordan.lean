import Mathlib.Algebra.Order.Field.Basic
import Mathlib.Algebra.Order.Group.Abs
import Verif.Base.Outcome

/-!
# Gauss-Jordan elimination

Models src/theia/math/matrix/gauss_jordan.h over an ordered field without rounding. A matrix is a function of
row and column; all positions read or written are inside it. Dividing a row by zero, which fills it with
infinities and NaN, is `ub`.

Each state carries a flag that is not in the code: whether a coefficient that is not zero was left in place
because it is below the threshold.
-/

namespace Theia
namespace GaussJordan

variable {K : Type} [Field K] [LinearOrder K] [IsStrictOrderedRing K]

/-- The matrix, and whether a nonzero coefficient was left. -/
structure State (K : Type) where
  m : Nat → Nat → K
  skipped : Bool

/-- `FindLargestAbsoluteValueInColumn` (gauss_jordan.h:47-65): the loop over the rows from `starting_row` up to,
but without, `ending_row`. -/
def findMax (m : Nat → Nat → K) (column : Nat) : List Nat → K × Nat → K × Nat
  | [], best => best
  | r :: rs, best => findMax m column rs (if |best.1| < |m r column| then (m r column, r) else best)

/-- `row(a).swap(row(b))` (line 114). -/
def swapRows (m : Nat → Nat → K) (a b : Nat) : Nat → Nat → K :=
  fun i => if i = a then m b else if i = b then m a else m i

/-- Lines 117-118. -/
def divideRow (m : Nat → Nat → K) (r : Nat) (x : K) : Nat → Nat → K :=
  fun i j => if i = r then (if j = r then 1 else m i j / x) else m i j

/-- `row(target) -= coeff * row(source)` (lines 131, 182). -/
def subtractRow (m : Nat → Nat → K) (target source : Nat) (coeff : K) : Nat → Nat → K :=
  fun i j => if i = target then m i j - coeff * m source j else m i j

/-- The loops that eliminate the entries of column `col` with row `col` in the given rows, one after another
(lines 121-132 and 174-183). -/
def eliminate (eps : K) (col : Nat) : List Nat → State K → State K
  | [], st => st
  | r :: rs, st =>
    if |st.m r col| < eps then eliminate eps col rs ⟨st.m, st.skipped || decide (st.m r col ≠ 0)⟩
    else eliminate eps col rs ⟨subtractRow st.m r col (st.m r col), st.skipped⟩

/-- One turn of the top-down loop (lines 104-133), `n` the number of rows to process. -/
def topStep (eps : K) (n row : Nat) (st : State K) : Outcome (State K) :=
  let best := findMax st.m row (List.range' row (n - 1 - row)) (st.m row row, row)
  if best.1 = 0 then .ub
  else .ok (eliminate eps row (List.range' (row + 1) (n - (row + 1)))
    ⟨divideRow (swapRows st.m row best.2) row best.1, st.skipped⟩)

/-- The top-down loop (lines 104-133). -/
def topLoop (eps : K) (n : Nat) : List Nat → State K → Outcome (State K)
  | [], st => .ok st
  | r :: rs, st =>
    match topStep eps n r st with
    | .abort => .abort
    | .ub => .ub
    | .ok st => topLoop eps n rs st

/-- `TopDownGaussJordan` (lines 92-136): the number of rows processed, and the matrix. -/
def topDown (eps : K) (rows cols : Nat) (lastRow : Int) (st : State K) : Outcome (Nat × State K) :=
  if lastRow < 1 then .abort
  else if cols < rows then .abort
  else
    let n := min rows (lastRow + 1).toNat
    match topLoop eps n (List.range n) st with
    | .abort => .abort
    | .ub => .ub
    | .ok st => .ok (n, st)

/-- The bottom-up loop (lines 169-184): rows `start - 1` down to `last`. -/
def bottomLoop (eps : K) (last : Nat) : List Nat → State K → State K
  | [], st => st
  | r :: rs, st => bottomLoop eps last rs (eliminate eps r (List.range' last (r - last)).reverse st)

/-- `BottomUpGaussJordan` (lines 149-185). -/
def bottomUp (eps : K) (rows cols start : Nat) (last : Int) (st : State K) : Outcome (State K) :=
  if min rows cols < start then .abort
  else if last < 0 then .abort
  else if (start : Int) < last then .abort
  else if (start : Int) = last then .ok st
  else .ok (bottomLoop eps last.toNat (List.range' last.toNat (start - last.toNat)).reverse st)

/-- `GaussJordan` with both limits (lines 203-216). -/
def run (eps : K) (rows cols : Nat) (topLast bottomLast : Int) (m : Nat → Nat → K) : Outcome (State K) :=
  match topDown eps rows cols topLast ⟨m, false⟩ with
  | .abort => .abort
  | .ub => .ub
  | .ok (n, st) => bottomUp eps rows cols n bottomLast st

/-- `GaussJordan` of a whole matrix (lines 226-229). -/
def runFull (eps : K) (rows cols : Nat) (m : Nat → Nat → K) : Outcome (State K) :=
  run eps rows cols ((rows : Int) - 1) 0 m

end GaussJordan
end Theia
