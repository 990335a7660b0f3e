import Verif.Base.Outcome

/-!
# Geometric verification of the matches of an image pair

Models `TwoViewMatchGeometricVerification` (src/theia/sfm/two_view_match_geometric_verification.cc:54-324).

The numerical parts are parameters: the estimation of the relative pose, the guided matcher (C51), the
triangulation of a point, projection, and two-view bundle adjustment. What is modelled is which matches
survive, the counts that are compared, and where the reported geometry comes from. The count of homography
inliers (lines 329-362) only fills a field of the result and is left out.
-/

namespace Theia
namespace Verification

/-- `IndexedFeatureMatch` (feature1_ind, feature2_ind). -/
abbrev Match := Nat × Nat

/-- Everything numerical, and the options, with thresholds already squared. `F` are features (keypoint
positions), `C` cameras, `P` points, `I` two-view infos. -/
structure Env (F C P I : Type) where
  /-- `options_.min_num_inlier_matches`, an `int`. -/
  minInliers : Int
  /-- `options_.guided_matching` and `options_.bundle_adjustment`. -/
  guidedMatching : Bool
  bundleAdjustment : Bool
  /-- `EstimateTwoViewInfo`: the geometry and the inlier positions, or failure. -/
  estimate : List (F × F) → Option (I × List Nat)
  /-- `SetupCameras` (lines 57-68). -/
  setup : I → C × C
  /-- `GuidedEpipolarMatcher::GetMatches` for the two cameras: the new match list, or failure. -/
  guided : C → C → List Match → Outcome (Option (List Match))
  /-- `SufficientTriangulationAngle` of the two rays (lines 209-213). -/
  angleOk : C → C → F → F → Bool
  /-- `TriangulateMidpoint` (line 219). -/
  triangulate : C → C → F → F → Option P
  /-- `AcceptableReprojectionError` (lines 72-83) with the triangulation and the final threshold. -/
  acceptInitial : C → F → P → Bool
  acceptFinal : C → F → P → Bool
  /-- `BundleAdjustTwoViews`: the new cameras and points, or no success. -/
  adjust : List (F × F) → C → C → List P → Option (C × C × List P)
  /-- The new relative pose and focal lengths (lines 316-321). -/
  updateInfo : I → C → C → I

variable {F C P I : Type}

/-- An `int` converted to `size_t` for a comparison with a size. -/
def asSize (n : Int) : Nat := (n % 2 ^ 64).toNat

/-- One correspondence (lines 106-109): positions out of range are undefined. -/
def correspondence (kps1 kps2 : List F) (m : Match) : Outcome (F × F) :=
  match kps1[m.1]?, kps2[m.2]? with
  | some a, some b => .ok (a, b)
  | _, _ => .ub

/-- `CreateCorrespondencesFromIndexedMatches` (lines 101-111). -/
def correspondences (kps1 kps2 : List F) : List Match → Outcome (List (F × F))
  | [] => .ok []
  | m :: ms =>
    match correspondence kps1 kps2 m with
    | .abort => .abort
    | .ub => .ub
    | .ok c =>
      match correspondences kps1 kps2 ms with
      | .abort => .abort
      | .ub => .ub
      | .ok cs => .ok (c :: cs)

/-- The matches at the inlier positions (lines 145-150). -/
def keep (ms : List Match) : List Nat → Outcome (List Match)
  | [] => .ok []
  | i :: is =>
    match ms[i]? with
    | none => .ub
    | some m =>
      match keep ms is with
      | .abort => .abort
      | .ub => .ub
      | .ok r => .ok (m :: r)

/-- The checks on one match (lines 212-238): the point, unless it is thrown out. -/
def triangulateOne (e : Env F C P I) (c1 c2 : C) (f : F × F) : Option P :=
  if !e.angleOk c1 c2 f.1 f.2 then none
  else
    match e.triangulate c1 c2 f.1 f.2 with
    | none => none
    | some p => if !e.acceptInitial c1 f.1 p || !e.acceptInitial c2 f.2 p then none else some p

/-- `TriangulatePoints` (lines 185-254): the matches left, with their points. -/
def triangulatePoints (e : Env F C P I) (kps1 kps2 : List F) (c1 c2 : C) :
    List Match → Outcome (List Match × List P)
  | [] => .ok ([], [])
  | m :: ms =>
    match correspondence kps1 kps2 m with
    | .abort => .abort
    | .ub => .ub
    | .ok f =>
      match triangulatePoints e kps1 kps2 c1 c2 ms with
      | .abort => .abort
      | .ub => .ub
      | .ok (rs, ps) =>
        match triangulateOne e c1 c2 f with
        | none => .ok (rs, ps)
        | some p => .ok (m :: rs, p :: ps)

/-- The loop after bundle adjustment (lines 298-311), from position `i` on. -/
def finalLoop (e : Env F C P I) (c1 c2 : C) (points : List P) (ms : List Match) :
    Nat → List (F × F) → Outcome (List Match)
  | _, [] => .ok []
  | i, f :: fs =>
    match points[i]?, ms[i]? with
    | some p, some m =>
      match finalLoop e c1 c2 points ms (i + 1) fs with
      | .abort => .abort
      | .ub => .ub
      | .ok r => if e.acceptFinal c1 f.1 p && e.acceptFinal c2 f.2 p then .ok (m :: r) else .ok r
    | _, _ => .ub

/-- `BundleAdjustRelativePose` (lines 256-324): `none` for the result false, else the matches and the info. -/
def bundleAdjust (e : Env F C P I) (kps1 kps2 : List F) (c1 c2 : C) (info : I) (ms : List Match) :
    Outcome (Option (List Match × I)) :=
  match triangulatePoints e kps1 kps2 c1 c2 ms with
  | .abort => .abort
  | .ub => .ub
  | .ok (ms, points) =>
    if ms.length < asSize e.minInliers then .ok none
    else
      match correspondences kps1 kps2 ms with
      | .abort => .abort
      | .ub => .ub
      | .ok corrs =>
        match e.adjust corrs c1 c2 points with
        | none => .ok none
        | some (c1, c2, points) =>
          match finalLoop e c1 c2 points ms 0 corrs with
          | .abort => .abort
          | .ub => .ub
          | .ok ms => .ok (some (ms, e.updateInfo info c1 c2))

/-- The verified matches, their count as written to the info, and the info. -/
structure Result (F I : Type) where
  verified : List (F × F)
  numVerified : Nat
  info : I

/-- The end of `VerifyMatches` (lines 170-181). -/
def finish (e : Env F C P I) (kps1 kps2 : List F) (c1 c2 : C) (info : I) (ms : List Match) :
    Outcome (Option (Result F I)) :=
  let adjusted :=
    if e.bundleAdjustment && decide (ms.length > asSize e.minInliers) then bundleAdjust e kps1 kps2 c1 c2 info ms
    else .ok (some (ms, info))
  match adjusted with
  | .abort => .abort
  | .ub => .ub
  | .ok none => .ok none
  | .ok (some (ms, info)) =>
    match correspondences kps1 kps2 ms with
    | .abort => .abort
    | .ub => .ub
    | .ok cs =>
      if cs.length > asSize e.minInliers then .ok (some ⟨cs, cs.length, info⟩) else .ok none

/-- `VerifyMatches` (lines 113-182): `none` for the result false, when the outputs are undefined by the
interface. -/
def verifyMatches (e : Env F C P I) (kps1 kps2 : List F) (ms : List Match) : Outcome (Option (Result F I)) :=
  if ms.length < asSize e.minInliers then .ok none
  else
    match correspondences kps1 kps2 ms with
    | .abort => .abort
    | .ub => .ub
    | .ok corrs =>
      match e.estimate corrs with
      | none => .ok none
      | some (info, inliers) =>
        if inliers.length < asSize e.minInliers then .ok none
        else
          match keep ms inliers with
          | .abort => .abort
          | .ub => .ub
          | .ok kept =>
            if e.guidedMatching then
              match e.guided (e.setup info).1 (e.setup info).2 kept with
              | .abort => .abort
              | .ub => .ub
              | .ok none => .ok none
              | .ok (some more) => finish e kps1 kps2 (e.setup info).1 (e.setup info).2 info more
            else finish e kps1 kps2 (e.setup info).1 (e.setup info).2 info kept

end Verification
end Theia
