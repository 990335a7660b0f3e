import Mathlib.Data.Rat.Floor
import Verif.Base.Outcome

/-!
# Visibility pyramid

Models `/repo/src/theia/sfm/visibility_pyramid.{h,cc}`. Coordinates are rational numbers; the `int`
conversions and shifts are assumed not to overflow (fewer than 31 levels, coordinates that are not
huge).
-/

namespace Theia

/-- One occupancy grid (an `Eigen::MatrixXi`): a square matrix. -/
structure Grid where
  dim : Nat
  cells : Nat → Nat → Nat

namespace Grid

/-- `grid(x, y) += 1`; indices outside the matrix are undefined. -/
def increment (g : Grid) (x y : Nat) : Outcome Grid :=
  if x < g.dim ∧ y < g.dim then
    .ok ⟨g.dim, fun a b => if a = x ∧ b = y then g.cells a b + 1 else g.cells a b⟩
  else .ub

/-- Eigen's `count()`: the number of nonzero coefficients. -/
def count (g : Grid) : Nat :=
  ((List.range g.dim).map fun x => (List.range g.dim).countP fun y => decide (g.cells x y ≠ 0)).sum

/-- Eigen's `size()`. -/
def size (g : Grid) : Nat := g.dim * g.dim

end Grid

/-- The members of `VisibilityPyramid` (visibility_pyramid.h:72-78). -/
structure VisibilityPyramid where
  width : Nat
  height : Nat
  maxCells : Nat
  pyramid : List Grid

namespace VisibilityPyramid

/-- The constructor (visibility_pyramid.cc:47-65). -/
def new (width height levels : Nat) : Outcome VisibilityPyramid :=
  if 0 < width then
    if 0 < height then
      if 0 < levels then
        .ok ⟨width, height, 2 ^ levels, (List.range levels).map fun i => ⟨2 ^ (1 + i), fun _ _ => 0⟩⟩
      else .abort
    else .abort
  else .abort

/-- `static_cast<int>`: truncation towards zero. -/
def truncate (q : ℚ) : Int := if 0 ≤ q then ⌊q⌋ else ⌈q⌉

/-- `theia::Clamp` (math/util.h:58-60; it works on doubles, exact for the integers used here). -/
def clamp (v lo hi : Int) : Int := max lo (min v hi)

/-- The grid cell of a coordinate in the finest level (visibility_pyramid.cc:71-78). -/
def gridCell (maxCells extent : Nat) (coordinate : ℚ) : Nat :=
  (clamp (truncate (maxCells * coordinate / extent)) 0 ((maxCells : Int) - 1)).toNat

/-- The loop of `AddPoint` (visibility_pyramid.cc:82-90) over the levels below `i`, finest first. -/
def addLevels : Nat → Nat → Nat → List Grid → Outcome (List Grid)
  | 0, _, _, p => .ok p
  | i + 1, x, y, p =>
    match p[i]? with
    | none => .ub
    | some g =>
      match g.increment x y with
      | .abort => .abort
      | .ub => .ub
      | .ok g => addLevels i (x >>> 1) (y >>> 1) (p.set i g)

/-- `AddPoint` (visibility_pyramid.cc:68-91). -/
def addPoint (v : VisibilityPyramid) (pt : ℚ × ℚ) : Outcome VisibilityPyramid :=
  match addLevels v.pyramid.length (gridCell v.maxCells v.width pt.1) (gridCell v.maxCells v.height pt.2)
    v.pyramid with
  | .abort => .abort
  | .ub => .ub
  | .ok p => .ok { v with pyramid := p }

/-- Successive calls of `AddPoint`. -/
def addPoints : List (ℚ × ℚ) → VisibilityPyramid → Outcome VisibilityPyramid
  | [], v => .ok v
  | pt :: pts, v =>
    match v.addPoint pt with
    | .abort => .abort
    | .ub => .ub
    | .ok v => addPoints pts v

/-- `ComputeScore` (visibility_pyramid.cc:97-103). -/
def computeScore (v : VisibilityPyramid) : Nat :=
  v.pyramid.foldl (fun score g => score + g.count * g.size) 0

end VisibilityPyramid
end Theia
