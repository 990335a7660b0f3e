import Verif.Base.AMap
import Verif.Base.Outcome
import Verif.Base.RotationMatrix
import Verif.Model.ConstrainedL1Solver
import Verif.Model.LinearRotation

/-!
# Estimation of global positions by least unsquared deviations

Models src/theia/sfm/global_pose_estimation/least_unsquared_deviation_position_estimator.{h,cc} over the reals.

* `pairs` is the map of view pairs, in the order of its iteration, with the member `position_2` of each `TwoViewInfo`.
* `order` is the order of iteration of the set of views.
* The inner solver is that of the model `ConstrainedL1Solver`. The code constructs it with the default options (line 104);
  here they are a parameter `l1`.
-/

namespace Theia
namespace LeastDeviations

open AngleAxis Matrix

/-- `LeastUnsquaredDeviationPositionEstimator::Options` (least_unsquared_deviation_position_estimator.h:61-70). -/
structure Options where
  maxNumIterations : ℤ := 400
  maxNumReweightedIterations : ℤ := 10
  convergenceCriterion : ℝ := 1e-4

/-- The members that outlive a call (least_unsquared_deviation_position_estimator.h:94-95): the first column of each view
and the column of each pair. -/
structure State where
  views : AMap Nat Int
  pairs : AMap (Nat × Nat) Int

/-- The constructor (least_unsquared_deviation_position_estimator.cc:67-73). -/
noncomputable def create (o : Options) : Outcome State :=
  if o.maxNumIterations ≤ 0 then .abort
  else if o.maxNumReweightedIterations ≤ 0 then .abort
  else .ok ⟨AMap.empty, AMap.empty⟩

/-- Insertion into an `unordered_set`. -/
def setInsert (s : List Nat) (v : Nat) : List Nat := if v ∈ s then s else s ++ [v]

/-- The views of the pairs whose views both have an orientation (lines 126-133). -/
def viewSet (orientations : AMap Nat (V3 ℝ)) : List ((Nat × Nat) × V3 ℝ) → List Nat → List Nat
  | [], s => s
  | p :: ps, s =>
    if orientations.contains p.1.1 && orientations.contains p.1.2 then
      viewSet orientations ps (setInsert (setInsert s p.1.1) p.1.2)
    else viewSet orientations ps s

/-- The loop that gives columns to the views (lines 136-141): the map and the next column. -/
def numberViews : List Nat → Int → AMap Nat Int → AMap Nat Int × Int
  | [], i, m => (m, i)
  | v :: vs, i, m => numberViews vs (i + 3) (m.insert v i)

/-- The loop that gives columns to the pairs (lines 145-151). -/
def numberPairs (views : AMap Nat Int) : List ((Nat × Nat) × V3 ℝ) → Int → AMap (Nat × Nat) Int → AMap (Nat × Nat) Int
  | [], _, m => m
  | p :: ps, i, m =>
    if views.contains p.1.1 && views.contains p.1.2 then numberPairs views ps (i + 1) (m.insert p.1 i)
    else numberPairs views ps i m

/-- `InitializeIndexMapping` (lines 123-152). -/
def indexMapping (order : List Nat → List Nat) (pairs : AMap (Nat × Nat) (V3 ℝ)) (orientations : AMap Nat (V3 ℝ))
    (st : State) : State :=
  let r := numberViews (order (viewSet orientations pairs.entries [])) (-3) st.views
  ⟨r.1, numberPairs r.1 pairs.entries r.2 st.pairs⟩

/-- The three entries of one view of a pair (lines 185-197); none for the constant view. -/
def viewTriplets (row : Nat) (i : Int) (value : ℝ) : List (Nat × Nat × ℝ) :=
  if i = -3 then []
  else [(row, i.toNat, value), (row + 1, i.toNat + 1, value), (row + 2, i.toNat + 2, value)]

/-- The three entries of the scale of a pair (lines 201-203). -/
def scaleTriplets (row : Nat) (i : Int) (t : V3 ℝ) : List (Nat × Nat × ℝ) :=
  [(row, i.toNat, -t.x), (row + 1, i.toNat, -t.y), (row + 2, i.toNat, -t.z)]

/-- `GetRotatedTranslation` (lines 56-63). -/
noncomputable def rotated (rotation translation : V3 ℝ) : V3 ℝ := (toM rotation).transpose.mulVec translation

/-- The loop of `SetupConstraintMatrix` (lines 164-206). `FindOrDie` ends the program for a missing key. -/
noncomputable def triplets (st : State) (orientations : AMap Nat (V3 ℝ)) :
    Nat → List ((Nat × Nat) × V3 ℝ) → Outcome (List (Nat × Nat × ℝ))
  | _, [] => .ok []
  | row, p :: ps =>
    match st.views.get p.1.1, st.views.get p.1.2 with
    | some i, some j =>
      match st.pairs.get p.1, orientations.get p.1.1 with
      | some k, some r =>
        match triplets st orientations (row + 3) ps with
        | .abort => .abort
        | .ub => .ub
        | .ok es =>
          .ok (viewTriplets row i (-1) ++ viewTriplets row j 1 ++ scaleTriplets row k (rotated r p.2) ++ es)
      | _, _ => .abort
    | _, _ => triplets st orientations row ps

/-- The sparse matrix (lines 157-159, 208): `setFromTriplets` adds up the values at a place. -/
noncomputable def matrix (m n : Nat) (es : List (Nat × Nat × ℝ)) : Matrix (Fin m) (Fin n) ℝ :=
  fun r c => LinearRotation.stored es r c

/-- `geq_mat` (lines 91-95). -/
noncomputable def geqMatrix (views k n : Nat) : Matrix (Fin k) (Fin n) ℝ :=
  fun i j => if j.val = 3 * (views - 1) + i then 1 else 0

/-- An entry of the solution; the indices that are read are in range. -/
noncomputable def entry {n : Nat} (x : Fin n → ℝ) (j : Nat) : ℝ := if h : j < n then x ⟨j, h⟩ else 0

/-- The position of a view with a given column (lines 111-118). -/
noncomputable def positionAt {n : Nat} (x : Fin n → ℝ) (i : Int) : V3 ℝ :=
  if i = -3 then V3.zero else ⟨entry x i.toNat, entry x (i.toNat + 1), entry x (i.toNat + 2)⟩

/-- The loop over the views (lines 110-119). -/
noncomputable def positions {n : Nat} (x : Fin n → ℝ) (views : AMap Nat Int) : AMap Nat (V3 ℝ) :=
  views.entries.foldl (fun m e => m.insert e.1 (positionAt x e.2)) AMap.empty

/-- Solving the system with the given entries and reading the positions (lines 87-119). An entry outside a matrix or a vector
is undefined. -/
noncomputable def solve (l1 : ConstrainedL1Solver.Options) (numViews numPairs n : Nat) (es : List (Nat × Nat × ℝ))
    (views : AMap Nat Int) : Outcome (AMap Nat (V3 ℝ)) :=
  if ∃ e ∈ es, 3 * numPairs ≤ e.1 ∨ n ≤ e.2.1 then .ub
  else if n < 3 * (numViews - 1) + numPairs then .ub
  else
    match ConstrainedL1Solver.construct l1 (matrix (3 * numPairs) n es) 0 (geqMatrix numViews numPairs n) (fun _ => 1) with
    | .abort => .abort
    | .ub => .ub
    | .ok solver =>
      if ∃ e ∈ views.entries, e.2 ≠ -3 ∧ n < e.2.toNat + 3 then .ub
      else .ok (positions (solver.solve 0) views)

/-- `EstimatePositions` (lines 75-121): it returns true; the positions and the estimator after the call. Without views the
number of columns (line 159) is computed from an unsigned -1; the model calls that undefined. -/
noncomputable def estimate (order : List Nat → List Nat) (l1 : ConstrainedL1Solver.Options)
    (pairs : AMap (Nat × Nat) (V3 ℝ)) (orientations : AMap Nat (V3 ℝ)) (st : State) :
    Outcome (AMap Nat (V3 ℝ) × State) :=
  let st := indexMapping order pairs orientations st
  if st.views.size = 0 then .ub
  else
    match triplets st orientations 0 pairs.entries with
    | .abort => .abort
    | .ub => .ub
    | .ok es =>
      match solve l1 st.views.size st.pairs.size (3 * (st.views.size - 1) + pairs.size) es st.views with
      | .abort => .abort
      | .ub => .ub
      | .ok positions => .ok (positions, st)

/-- A new estimator and one call. -/
noncomputable def run (o : Options) (order : List Nat → List Nat) (l1 : ConstrainedL1Solver.Options)
    (pairs : AMap (Nat × Nat) (V3 ℝ)) (orientations : AMap Nat (V3 ℝ)) : Outcome (AMap Nat (V3 ℝ) × State) :=
  match create o with
  | .abort => .abort
  | .ub => .ub
  | .ok st => estimate order l1 pairs orientations st

end LeastDeviations
end Theia
