import Verif.Base.AMap
import Verif.Base.Outcome
import Verif.Base.RotationMatrix
import Verif.Model.LinearRotation
import Verif.Model.Triangulation
import Verif.Model.TripletExtractor
import Mathlib.Data.List.Sort

/-!
# Linear estimation of global positions

Models, over the reals, src/theia/sfm/global_pose_estimation/compute_triplet_baseline_ratios.cc,
src/theia/sfm/global_pose_estimation/linear_position_estimator.cc and src/theia/sfm/find_common_tracks_in_views.cc.

* `llt` is Eigen's Cholesky decomposition and solve (as in `Triangulation`), `fromTwo` is
  `Eigen::Quaterniond::FromTwoVectors(a, b).toRotationMatrix()`.
* `eig` is the eigensolver (Spectra's `SymEigsShiftSolver` over CHOLMOD): the eigenvector of the smallest eigenvalue, or
  `none` when it has not converged. As in `LinearRotation`, the failure of the Cholesky decomposition for a singular matrix
  is left out: what is proved is about the runs in which the solver returns.
* A view is the map from its tracks to their normalized image points: `GetNormalizedFeature` (lines 423-430), that is
  `GetFeature`, `PixelToNormalizedCoordinates` (C46) and `hnormalized`, has been applied to all features.
* The baselines are computed by a thread pool, each into its own slot; here they are computed one after the other.
-/

namespace Theia

open Triangulation AngleAxis

namespace BaselineRatios

/-- The members `rotation_2` and `position_2` of `TwoViewInfo`. -/
structure Info where
  rotation : V3 ℝ
  position : V3 ℝ

/-- The two directions of `GetTriangulatedPointDepths` (compute_triplet_baseline_ratios.cc:62-68). -/
noncomputable def directions (info : Info) (feature1 feature2 : V3 ℝ) : List (V3 ℝ) :=
  [feature1, (toM info.rotation).transpose.mulVec feature2]

/-- The depths of a triangulated point (lines 81-84); `hnormalized` divides by the last coordinate. -/
noncomputable def depthsOf (info : Info) (point : V4) : Outcome (Option (ℝ × ℝ)) :=
  if point.2 = 0 then .ub
  else
    let p := point.1.smul point.2⁻¹
    .ok (some (Real.sqrt (p.dot p), Real.sqrt ((p.sub info.position).dot (p.sub info.position))))

/-- `GetTriangulatedPointDepths` (lines 55-86): the depths, if true is returned. -/
noncomputable def depths (llt : (V4 → V4) → V4 → Option V4) (info : Info) (feature1 feature2 : V3 ℝ) :
    Outcome (Option (ℝ × ℝ)) :=
  if sufficientAngle (directions info feature1 feature2) 2 then
    match triangulateMidpoint llt [V3.zero, info.position] (directions info feature1 feature2) with
    | .abort => .abort
    | .ub => .ub
    | .ok none => .ok none
    | .ok (some point) => depthsOf info point
  else .ok none

/-- One round of the loop of `ComputeTripletBaselineRatios` (lines 110-137): the two ratios, if it does not `continue`.
Dividing by a depth of zero is `ub`. -/
noncomputable def ratio (llt : (V4 → V4) → V4 → Option V4) (info12 info13 info23 : Info) (f : V2 × V2 × V2) :
    Outcome (Option (ℝ × ℝ)) :=
  let n1 := normalize (homog f.1)
  let n2 := normalize (homog f.2.1)
  let n3 := normalize (homog f.2.2)
  match depths llt info12 n1 n2 with
  | .abort => .abort
  | .ub => .ub
  | .ok none => .ok none
  | .ok (some d12) =>
    match depths llt info13 n1 n3 with
    | .abort => .abort
    | .ub => .ub
    | .ok none => .ok none
    | .ok (some d13) =>
      match depths llt info23 n2 n3 with
      | .abort => .abort
      | .ub => .ub
      | .ok none => .ok none
      | .ok (some d23) => if d13.1 = 0 ∨ d23.1 = 0 then .ub else .ok (some (d12.1 / d13.1, d12.2 / d23.1))

/-- The loop (lines 109-138): `baseline2` and `baseline3` as pairs. -/
noncomputable def ratios (llt : (V4 → V4) → V4 → Option V4) (info12 info13 info23 : Info) :
    List (V2 × V2 × V2) → Outcome (List (ℝ × ℝ))
  | [] => .ok []
  | f :: fs =>
    match ratio llt info12 info13 info23 f with
    | .abort => .abort
    | .ub => .ub
    | .ok r =>
      match ratios llt info12 info13 info23 fs with
      | .abort => .abort
      | .ub => .ub
      | .ok rs => .ok (r.toList ++ rs)

/-- `nth_element` at the middle (lines 147-153). -/
noncomputable def median (l : List ℝ) : Outcome ℝ :=
  match (l.insertionSort (· ≤ ·))[l.length / 2]? with
  | none => .ub
  | some x => .ok x

/-- The result for the collected ratios (lines 140-155). -/
noncomputable def fromRatios (rs : List (ℝ × ℝ)) : Outcome (Option (V3 ℝ)) :=
  if rs.length = 0 then .ok none
  else
    match median (rs.map Prod.fst), median (rs.map Prod.snd) with
    | .ok b2, .ok b3 => .ok (some ⟨1, b2, b3⟩)
    | _, _ => .ub

/-- `ComputeTripletBaselineRatios` (lines 90-156): the baselines, if true is returned; they are zero otherwise. -/
noncomputable def compute (llt : (V4 → V4) → V4 → Option V4) (info12 info13 info23 : Info) (feature1 feature2 feature3 : List V2) :
    Outcome (Option (V3 ℝ)) :=
  if feature1.length ≠ feature2.length then .abort
  else if feature1.length ≠ feature3.length then .abort
  else
    match ratios llt info12 info13 info23 (feature1.zip (feature2.zip feature3)) with
    | .abort => .abort
    | .ub => .ub
    | .ok rs => fromRatios rs

end BaselineRatios

namespace CommonTracks

/-- `std::set_intersection` of sorted ranges. -/
def setIntersection : List Nat → List Nat → List Nat
  | [], _ => []
  | _ :: _, [] => []
  | a :: as, b :: bs =>
    if a < b then setIntersection as (b :: bs)
    else if b < a then setIntersection (a :: as) bs
    else a :: setIntersection as bs
termination_by l m => l.length + m.length

/-- The loop of `FindCommonTracksInViews` (find_common_tracks_in_views.cc:68-83); a missing view ends the program. -/
def loop {F : Type} (views : AMap Nat (AMap Nat F)) : List Nat → List Nat → Outcome (List Nat)
  | [], common => .ok common
  | v :: vs, common =>
    if common.length = 0 then .ok common
    else
      match views.get v with
      | none => .abort
      | some tracks => loop views vs (setIntersection common (tracks.keys.insertionSort (· ≤ ·)))

/-- `FindCommonTracksInViews` (lines 58-86). -/
def find {F : Type} (views : AMap Nat (AMap Nat F)) (ids : List Nat) : Outcome (List Nat) :=
  if ids.length ≤ 1 then .abort
  else
    match ids with
    | [] => .abort
    | v :: vs =>
      match views.get v with
      | none => .abort
      | some tracks => loop views vs (tracks.keys.insertionSort (· ≤ ·))

end CommonTracks

namespace LinearPosition

open BaselineRatios

/-- A triplet of views. -/
abbrev Triplet := Nat × Nat × Nat

/-- The members that outlive a call (linear_position_estimator.h:134-135). -/
structure State where
  count : AMap Nat Nat
  index : AMap Nat Int

/-- A new estimator. -/
def empty : State := ⟨AMap.empty, AMap.empty⟩

/-- `num_triplets_for_view_[v] += 1`. -/
def countUp (m : AMap Nat Nat) (v : Nat) : AMap Nat Nat := m.insert v ((m.get v).getD 0 + 1)

/-- `InsertIfNotPresent(&linear_system_index_, v, linear_system_index_.size() - 1)`. -/
def indexUp (m : AMap Nat Int) (v : Nat) : AMap Nat Int := m.emplace v ((m.size : Int) - 1)

/-- `AddTripletConstraint` (linear_position_estimator.cc:230-248). -/
def addTriplet (s : State) (t : Triplet) : State :=
  ⟨countUp (countUp (countUp s.count t.1) t.2.1) t.2.2, indexUp (indexUp (indexUp s.index t.1) t.2.1) t.2.2⟩

/-- The image points of the tracks in a view (lines 265-273); a missing feature is a null pointer. -/
def featuresOf (view : AMap Nat V2) : List Nat → Outcome (List V2)
  | [] => .ok []
  | t :: ts =>
    match view.get t with
    | none => .ub
    | some p =>
      match featuresOf view ts with
      | .abort => .abort
      | .ub => .ub
      | .ok ps => .ok (p :: ps)

/-- The baselines for the three pairs (lines 280-291): zero if they cannot be computed, `FindOrDie` ends the program. -/
noncomputable def baselineWith (llt : (V4 → V4) → V4 → Option V4) (pairs : AMap (Nat × Nat) Info) (t : Triplet)
    (f1 f2 f3 : List V2) : Outcome (V3 ℝ) :=
  match pairs.get (t.1, t.2.1), pairs.get (t.1, t.2.2), pairs.get (t.2.1, t.2.2) with
  | some i12, some i13, some i23 =>
    match compute llt i12 i13 i23 f1 f2 f3 with
    | .abort => .abort
    | .ub => .ub
    | .ok b => .ok (b.getD V3.zero)
  | _, _, _ => .abort

/-- `ComputeBaselineRatioForTriplet` (lines 250-292); a missing view is a null pointer. -/
noncomputable def baselineFor (llt : (V4 → V4) → V4 → Option V4) (views : AMap Nat (AMap Nat V2)) (pairs : AMap (Nat × Nat) Info)
    (t : Triplet) : Outcome (V3 ℝ) :=
  match views.get t.1, views.get t.2.1, views.get t.2.2 with
  | some v1, some v2, some v3 =>
    match CommonTracks.find views [t.1, t.2.1, t.2.2] with
    | .abort => .abort
    | .ub => .ub
    | .ok tracks =>
      match featuresOf v1 tracks, featuresOf v2 tracks, featuresOf v3 tracks with
      | .ok f1, .ok f2, .ok f3 => baselineWith llt pairs t f1 f2 f3
      | _, _, _ => .ub
  | _, _, _ => .ub

/-- `AngleAxisToRotationMatrix` (lines 135-139): the axis is divided by the angle. -/
noncomputable def rotationOf (w : V3 ℝ) : Outcome (M3 ℝ) := if w = V3.zero then .ub else .ok (toM w)

/-- The three rotations `r012`, `r201`, `r120` for the relative translations `t01`, `t02`, `t12` (lines 357-359). -/
noncomputable def between (fromTwo : V3 ℝ → V3 ℝ → M3 ℝ) (t01 t02 t12 : V3 ℝ) : M3 ℝ × M3 ℝ × M3 ℝ :=
  (fromTwo t12 t01.neg, fromTwo t01 t02, fromTwo t02.neg t12.neg)

/-- A relative translation in the global frame, for example `t01` (lines 346-348). -/
noncomputable def translation (r : M3 ℝ) (info : Info) : V3 ℝ := (r.transpose.mulVec info.position).neg

/-- `ComputeRotatedRelativeTranslationRotations` (lines 332-360); `FindOrDie` ends the program. -/
noncomputable def rotations (fromTwo : V3 ℝ → V3 ℝ → M3 ℝ) (pairs : AMap (Nat × Nat) Info) (orientations : AMap Nat (V3 ℝ))
    (t : Triplet) : Outcome (M3 ℝ × M3 ℝ × M3 ℝ) :=
  match orientations.get t.1, orientations.get t.2.1 with
  | some o0, some o1 =>
    match rotationOf o0, rotationOf o1 with
    | .ok r0, .ok r1 =>
      match pairs.get (t.1, t.2.1), pairs.get (t.1, t.2.2), pairs.get (t.2.1, t.2.2) with
      | some i01, some i02, some i12 => .ok (between fromTwo (translation r0 i01) (translation r0 i02) (translation r1 i12))
      | _, _, _ => .abort
    | _, _ => .ub
  | _, _ => .abort

/-- Sum, difference and multiple of matrices. -/
noncomputable def addM (a b : M3 ℝ) : M3 ℝ := ⟨a.r1.add b.r1, a.r2.add b.r2, a.r3.add b.r3⟩
@[inherit_doc addM] noncomputable def subM (a b : M3 ℝ) : M3 ℝ := ⟨a.r1.sub b.r1, a.r2.sub b.r2, a.r3.sub b.r3⟩
@[inherit_doc addM] noncomputable def scaleM (s : ℝ) (a : M3 ℝ) : M3 ℝ := ⟨a.r1.smul s, a.r2.smul s, a.r3.smul s⟩

/-- The three constraints of a triplet (lines 389-420), each as the matrices of its three views. -/
noncomputable def rows (r : M3 ℝ × M3 ℝ × M3 ℝ) (b : V3 ℝ) (w : ℝ) : List (M3 ℝ × M3 ℝ × M3 ℝ) :=
  let r012 := r.1
  let r201 := r.2.1
  let r120 := r.2.2
  let s012 := b.x / b.z
  let s201 := b.y / b.x
  let s120 := b.z / b.y
  [(scaleM w (addM (addM (scaleM (-s201) r201) (scaleM s012⁻¹ r012.transpose)) M3.one),
    scaleM w (addM (subM (scaleM s201 r201) (scaleM s012⁻¹ r012.transpose)) M3.one),
    scaleM (-2 * w) M3.one),
   (scaleM w (addM (addM (scaleM (-s201⁻¹) r201.transpose) (scaleM s120 r120)) M3.one),
    scaleM (-2 * w) M3.one,
    scaleM w (addM (subM (scaleM s201⁻¹ r201.transpose) (scaleM s120 r120)) M3.one)),
   (scaleM (-2 * w) M3.one,
    scaleM w (addM (addM (scaleM (-s012) r012) (scaleM s120⁻¹ r120.transpose)) M3.one),
    scaleM w (addM (subM (scaleM s012 r012) (scaleM s120⁻¹ r120.transpose)) M3.one))]

/-- A 3x3 block of entries (lines 121-129). -/
def fillInt (m : M3 ℝ) (row col : Int) : List (Int × Int × ℝ) :=
  [(row, col, m.r1.x), (row, col + 1, m.r1.y), (row, col + 2, m.r1.z),
   (row + 1, col, m.r2.x), (row + 1, col + 1, m.r2.y), (row + 1, col + 2, m.r2.z),
   (row + 2, col, m.r3.x), (row + 2, col + 1, m.r3.y), (row + 2, col + 2, m.r3.z)]

/-- The block for two of the views (lines 111-129), skipped below the diagonal. -/
noncomputable def blockOf (a b : M3 ℝ × Int) : List (Int × Int × ℝ) :=
  if a.2 > b.2 then [] else fillInt (a.1.transpose.mul b.1) a.2 b.2

/-- `AddTripletConstraintToSymmetricMatrix` (lines 95-133): the values added to the entries. -/
noncomputable def symmetricEntries (row : M3 ℝ × M3 ℝ × M3 ℝ) (i0 i1 i2 : Int) : List (Int × Int × ℝ) :=
  let a := (row.1, i0)
  let b := (row.2.1, i1)
  let c := (row.2.2, i2)
  blockOf a a ++ blockOf a b ++ blockOf a c ++ (blockOf b a ++ blockOf b b ++ blockOf b c) ++
    (blockOf c a ++ blockOf c b ++ blockOf c c)

/-- The weight of a triplet (lines 373-376). -/
noncomputable def weight (count : AMap Nat Nat) (t : Triplet) : ℝ :=
  1 / Real.sqrt (min ((count.get t.1).getD 0) (min ((count.get t.2.1).getD 0) ((count.get t.2.2).getD 0)) : Nat)

/-- `AddTripletConstraintToSparseMatrix` (lines 365-421). A baseline of zero divides by zero. -/
noncomputable def tripletEntries (fromTwo : V3 ℝ → V3 ℝ → M3 ℝ) (pairs : AMap (Nat × Nat) Info)
    (orientations : AMap Nat (V3 ℝ)) (s : State) (t : Triplet) (b : V3 ℝ) : Outcome (List (Int × Int × ℝ)) :=
  match s.index.get t.1, s.index.get t.2.1, s.index.get t.2.2 with
  | some i0, some i1, some i2 =>
    match rotations fromTwo pairs orientations t with
    | .abort => .abort
    | .ub => .ub
    | .ok r =>
      if b.x = 0 ∨ b.y = 0 ∨ b.z = 0 then .ub
      else .ok ((rows r b (weight s.count t)).flatMap fun row => symmetricEntries row (3 * i0) (3 * i1) (3 * i2))
  | _, _, _ => .abort

/-- The loop of `CreateLinearSystem` (lines 301-307). -/
noncomputable def allEntries (fromTwo : V3 ℝ → V3 ℝ → M3 ℝ) (pairs : AMap (Nat × Nat) Info)
    (orientations : AMap Nat (V3 ℝ)) (s : State) : List (Triplet × V3 ℝ) → Outcome (List (Int × Int × ℝ))
  | [] => .ok []
  | tb :: tbs =>
    match tripletEntries fromTwo pairs orientations s tb.1 tb.2 with
    | .abort => .abort
    | .ub => .ub
    | .ok es =>
      match allEntries fromTwo pairs orientations s tbs with
      | .abort => .abort
      | .ub => .ub
      | .ok es' => .ok (es ++ es')

/-- The entries kept (lines 312-323): none with a negative index. Values at the same place are added up by the hash map in
the code, and by `LinearRotation.stored` here. -/
def kept : List (Int × Int × ℝ) → List (Nat × Nat × ℝ)
  | [] => []
  | e :: es => if e.1 < 0 ∨ e.2.1 < 0 then kept es else (e.1.toNat, e.2.1.toNat, e.2.2) :: kept es

/-- The baselines of the triplets (lines 179-188). -/
noncomputable def baselines (llt : (V4 → V4) → V4 → Option V4) (views : AMap Nat (AMap Nat V2))
    (pairs : AMap (Nat × Nat) Info) : List Triplet → Outcome (List (Triplet × V3 ℝ))
  | [] => .ok []
  | t :: ts =>
    match baselineFor llt views pairs t with
    | .abort => .abort
    | .ub => .ub
    | .ok b =>
      match baselines llt views pairs ts with
      | .abort => .abort
      | .ub => .ub
      | .ok bs => .ok ((t, b) :: bs)

/-- The position of a view in the solution (lines 212-219). -/
noncomputable def positionOf (u : Nat → ℝ) (i : Int) : V3 ℝ :=
  if i < 0 then V3.zero else ⟨u (i.toNat * 3), u (i.toNat * 3 + 1), u (i.toNat * 3 + 2)⟩

/-- `VectorsAreSameDirection` (lines 142-154). -/
noncomputable def sameDirection (p1 p2 o1 : V3 ℝ) (info : Info) : Bool :=
  decide (((toM o1).mulVec (normalize (p2.sub p1))).dot info.position > 0)

/-- The votes (lines 435-455); `FindOrDie` ends the program. -/
noncomputable def votes (orientations : AMap Nat (V3 ℝ)) (positions : AMap Nat (V3 ℝ)) :
    List ((Nat × Nat) × Info) → Outcome Int
  | [] => .ok 0
  | e :: es =>
    match votes orientations positions es with
    | .abort => .abort
    | .ub => .ub
    | .ok n =>
      match positions.get e.1.1, positions.get e.1.2 with
      | some p1, some p2 =>
        match orientations.get e.1.1 with
        | none => .abort
        | some o => .ok (if sameDirection p1 p2 o e.2 then n + 1 else n - 1)
      | _, _ => .ok n

/-- `FlipSignOfPositionsIfNecessary` (lines 432-470). -/
noncomputable def flip (pairs : AMap (Nat × Nat) Info) (orientations : AMap Nat (V3 ℝ)) (positions : AMap Nat (V3 ℝ)) :
    Outcome (AMap Nat (V3 ℝ)) :=
  match votes orientations positions pairs.entries with
  | .abort => .abort
  | .ub => .ub
  | .ok n => .ok (if n < 0 then positions.mapVals (fun _ p => p.smul (-1)) else positions)

/-- `GetLargetConnectedTripletGraph` (lines 67-84). `order` is the order in which the set of pairs is iterated. -/
noncomputable def largest (limit : Nat) (order : List (Nat × Nat) → List (Nat × Nat)) (pairs : AMap (Nat × Nat) Info) :
    Outcome (List Triplet) :=
  match Triplets.extract limit (order pairs.keys) [] with
  | .abort => .abort
  | .ub => .ub
  | .ok [] => .abort
  | .ok (g :: _) => .ok g

/-- Solving and collecting the positions (lines 190-224), for the entries of the matrix. Spectra throws for a matrix with
fewer than six rows. -/
noncomputable def solve (eig : Nat → (Nat → Nat → ℝ) → Option (Nat → ℝ)) (pairs : AMap (Nat × Nat) Info)
    (orientations : AMap Nat (V3 ℝ)) (s : State) (es : List (Int × Int × ℝ)) : Outcome (AMap Nat (V3 ℝ)) :=
  if (s.count.size - 1) * 3 < 6 then .abort
  else
    match eig ((s.count.size - 1) * 3) (LinearRotation.symmetric (LinearRotation.stored (kept es))) with
    | none => .ub
    | some u => flip pairs orientations (s.index.mapVals fun _ i => positionOf u i)

/-- `EstimatePositions` (lines 163-225): the positions and the members of the estimator after the call. -/
noncomputable def estimate (llt : (V4 → V4) → V4 → Option V4) (fromTwo : V3 ℝ → V3 ℝ → M3 ℝ)
    (eig : Nat → (Nat → Nat → ℝ) → Option (Nat → ℝ)) (limit : Nat) (order : List (Nat × Nat) → List (Nat × Nat))
    (views : AMap Nat (AMap Nat V2)) (pairs : AMap (Nat × Nat) Info) (orientations : AMap Nat (V3 ℝ)) (s : State) :
    Outcome (State × AMap Nat (V3 ℝ)) :=
  match largest limit order pairs with
  | .abort => .abort
  | .ub => .ub
  | .ok ts =>
    match baselines llt views pairs ts with
    | .abort => .abort
    | .ub => .ub
    | .ok tbs =>
      match allEntries fromTwo pairs orientations (ts.foldl addTriplet s) tbs with
      | .abort => .abort
      | .ub => .ub
      | .ok es =>
        match solve eig pairs orientations (ts.foldl addTriplet s) es with
        | .abort => .abort
        | .ub => .ub
        | .ok p => .ok (ts.foldl addTriplet s, p)

end LinearPosition
end Theia
