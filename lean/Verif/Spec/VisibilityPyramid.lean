import Mathlib.Data.Finset.Image
import Mathlib.Data.Rat.Floor
import Mathlib.Algebra.BigOperators.Group.Finset.Basic

/-!
# The score of a set of image points

The image is divided into `n × n` equal cells for `n = 2, 4, 8, ...`; each occupied cell of the `n × n`
grid is worth `n * n`.
-/

namespace Theia.Spec

/-- The cell (0 to `n - 1`) of a coordinate when an extent is divided into `n` equal parts; points
outside the image go to the nearest cell. -/
def cellOf (n extent : Nat) (coordinate : ℚ) : Nat := min ⌊(n : ℚ) * coordinate / extent⌋₊ (n - 1)

/-- The cells of the `n × n` grid occupied by some point. -/
def occupied (width height n : Nat) (points : List (ℚ × ℚ)) : Finset (Nat × Nat) :=
  (points.map fun p => (cellOf n width p.1, cellOf n height p.2)).toFinset

/-- The score of the points over `levels` grids. -/
def visibilityScore (width height levels : Nat) (points : List (ℚ × ℚ)) : Nat :=
  ∑ i ∈ Finset.range levels,
    (occupied width height (2 ^ (i + 1)) points).card * (2 ^ (i + 1) * 2 ^ (i + 1))

end Theia.Spec
