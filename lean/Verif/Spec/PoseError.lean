import Verif.Model.PoseError

/-!
# What the statistics of errors should be
-/

namespace Theia
namespace Spec.Stat

open PoseErr

/-- The errors added, in order. -/
def errors : List Op → List (ℚ × ℚ)
  | [] => []
  | .add r p :: os => (r, p) :: errors os
  | .print :: os => errors os

/-- The (upper) median: one of the numbers, at most half of them are below it and more than half are not above it. -/
structure IsMedian (xs : List ℚ) (m : ℚ) : Prop where
  mem : m ∈ xs
  below : xs.countP (fun x => decide (x < m)) ≤ xs.length / 2
  above : xs.length / 2 < xs.countP (fun x => decide (x ≤ m))

/-- The printed lines: each shows how many of the numbers lie in the range it names, and together they show all numbers
below the largest finite one. -/
structure Shows (max : ℚ) (xs : List ℚ) (rows : List (Histogram.Row (WithBot ℚ))) : Prop where
  all : (rows.map Histogram.Row.count).sum = xs.countP fun x : ℚ => decide (x < max)
  each : ∀ row ∈ rows, match row with
    | .below hi c => c = xs.countP fun x : ℚ => decide ((x : WithBot ℚ) < hi)
    | .between lo hi c => c = xs.countP fun x : ℚ => decide (lo ≤ (x : WithBot ℚ)) && decide ((x : WithBot ℚ) < hi)
    | .above lo c => c = xs.countP fun x : ℚ => decide (lo ≤ (x : WithBot ℚ)) && decide (x < max)

/-- The statistics of some numbers. -/
structure IsReport (max : ℚ) (xs : List ℚ) (n : Numbers) : Prop where
  mean : n.mean * xs.length = xs.sum
  median : IsMedian xs n.median
  rows : Shows max xs n.rows

/-- Boundaries of a histogram: at least one, increasing, none above the largest finite number. -/
def Bins (max : ℚ) (b : List ℚ) : Prop := b ≠ [] ∧ (b ++ [max]).Pairwise (· ≤ ·)

end Spec.Stat
end Theia
