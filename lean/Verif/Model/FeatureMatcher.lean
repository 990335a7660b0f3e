import Mathlib.Algebra.Order.Field.Basic
import Verif.Model.MatchDB
import Verif.Model.EstimateTrack

/-!
# Feature matching

Models `src/theia/matching/feature_matcher.cc`, `feature_matcher_utils.cc` and
`brute_force_feature_matcher.cc`.

Descriptors are values of any type with a distance in an ordered field (floats are exact). The thread pool
is a schedule: some order of all positions of the pair list (see C17 for the pool itself); the puts into
the database are atomic (its mutex). `std::partial_sort` is a parameter `ps`, of which the theorems only
assume that it does what the C++ standard says.
-/

namespace Theia
namespace Matcher

/-- `SelectAllPairs` (feature_matcher.cc:63-77): the outer loop picks an image, the inner loop all later
ones. -/
def selectAllPairs : List ImageName → List (ImageName × ImageName)
  | [] => []
  | x :: xs => xs.map (fun y => (x, y)) ++ selectAllPairs xs

/-- `kMaxThreadingStepSize_` (feature_matcher.h:135). -/
def maxStep : Nat := 20

/-- The chunks of `MatchImages` (feature_matcher.cc:115-124) for `n` pairs; a pool with no threads aborts. -/
def plan (numThreads : Int) (n : Nat) : Outcome (List (Nat × Nat)) :=
  let threads := min numThreads n
  if threads < 1 then .abort
  else .ok (TrackEstimator.chunkLoop n (min maxStep (n / threads.toNat)) n 0)

variable {F I M : Type}

/-- What `MatchImagePair` and `GeometricVerification` (feature_matcher.cc:151-182, 198-230) compute from the
features of the two images and their priors, where there are any: a match, or nothing. -/
abbrev PairMatcher (F I M : Type) := F → F → Option I → Option I → Option M

/-- One turn of the loop of `MatchAndVerifyImagePairs` (feature_matcher.cc:136-194). The priors are looked up
under the image name that the features carry (lines 206-215). -/
def matchOne (pm : PairMatcher F I M) (imageName : F → ImageName) (d : MatchDB.Mem F I M)
    (pr : ImageName × ImageName) : Outcome (MatchDB.Mem F I M) :=
  match d.getFeatures pr.1 with
  | .abort => .abort
  | .ub => .ub
  | .ok f1 =>
    match d.getFeatures pr.2 with
    | .abort => .abort
    | .ub => .ub
    | .ok f2 =>
      match pm f1 f2 (d.priors.get (imageName f1)) (d.priors.get (imageName f2)) with
      | none => .ok d
      | some m => .ok (d.putMatch pr.1 pr.2 m)

/-- The turns of all loops, in the order in which they happen. -/
def matchLoop (pm : PairMatcher F I M) (imageName : F → ImageName) :
    List (ImageName × ImageName) → MatchDB.Mem F I M → Outcome (MatchDB.Mem F I M)
  | [], d => .ok d
  | pr :: prs, d =>
    match matchOne pm imageName d pr with
    | .abort => .abort
    | .ub => .ub
    | .ok d => matchLoop pm imageName prs d

/-- The pairs `MatchImages` uses (feature_matcher.cc:107-109). -/
def pairsToMatch (names : List ImageName) (pairs : List (ImageName × ImageName)) : List (ImageName × ImageName) :=
  if pairs = [] then selectAllPairs names else pairs

/-- `MatchImages` (feature_matcher.cc:104-131) for the order `schedule` of the positions the workers visit. -/
def matchImages (pm : PairMatcher F I M) (imageName : F → ImageName) (numThreads : Int)
    (names : List ImageName) (pairs : List (ImageName × ImageName)) (schedule : List Nat)
    (d : MatchDB.Mem F I M) : Outcome (MatchDB.Mem F I M) :=
  match plan numThreads (pairsToMatch names pairs).length with
  | .abort => .abort
  | .ub => .ub
  | .ok _ =>
    match schedule.mapM (fun i => (pairsToMatch names pairs)[i]?) with
    | none => .ub
    | some prs => matchLoop pm imageName prs d

/-- `IndexedFeatureMatch` (indexed_feature_match.h). -/
structure FMatch (K : Type) where
  feature1 : Int
  feature2 : Int
  distance : K
  deriving DecidableEq

variable {K D : Type}

/-- The first loop of `IntersectMatches` (feature_matcher_utils.cc:50-57): `InsertOrDie` aborts on a second
match with the same first index. -/
def indexMap : List (FMatch K) → AMap Int Int → Outcome (AMap Int Int)
  | [], m => .ok m
  | b :: bs, m =>
    if m.contains b.feature1 then .abort else indexMap bs (m.insert b.feature1 b.feature2)

/-- `FindWithDefault(index_map, key, -1)` (util/map_util.h). -/
def findWithDefault (m : AMap Int Int) (k : Int) : Int :=
  match m.get k with
  | some v => v
  | none => -1

/-- The second loop of `IntersectMatches` (feature_matcher_utils.cc:61-70). -/
def eraseLoop (m : AMap Int Int) : List (FMatch K) → List (FMatch K)
  | [] => []
  | f :: fs =>
    if f.feature1 ≠ findWithDefault m f.feature2 then eraseLoop m fs else f :: eraseLoop m fs

/-- `IntersectMatches` (feature_matcher_utils.cc:48-71). -/
def intersect (backward forward : List (FMatch K)) : Outcome (List (FMatch K)) :=
  match indexMap backward .empty with
  | .abort => .abort
  | .ub => .ub
  | .ok m => .ok (eraseLoop m forward)

/-- The options used (feature_matcher_options.h). -/
structure Options (K : Type) where
  useLowesRatio : Bool
  lowesRatio : K
  symmetric : Bool
  minMatches : Nat

variable [Field K] [LinearOrder K]

/-- The distances of one descriptor to all of the other image (brute_force_feature_matcher.cc:65-68). -/
def row (dist : D → D → K) (x : D) (i : Nat) : Nat → List D → List (FMatch K)
  | _, [] => []
  | j, y :: ys => ⟨i, j, dist x y⟩ :: row dist x i (j + 1) ys

/-- The partial sort and the ratio test (brute_force_feature_matcher.cc:71-81). Sorting the first two of
fewer than two elements is out of range. -/
def selectNearest (ps : List (FMatch K) → List (FMatch K)) (o : Options K) (l : List (FMatch K)) :
    Outcome (Option (FMatch K)) :=
  if l.length < 2 then .ub
  else
    match ps l with
    | a :: b :: _ =>
      if !o.useLowesRatio || decide (a.distance < o.lowesRatio * o.lowesRatio * b.distance) then .ok (some a)
      else .ok none
    | _ => .ub

/-- The loop over the descriptors of one image (brute_force_feature_matcher.cc:64-82, 93-112). -/
def directed (ps : List (FMatch K) → List (FMatch K)) (o : Options K) (dist : D → D → K) (other : List D) :
    Nat → List D → Outcome (List (FMatch K))
  | _, [] => .ok []
  | i, x :: xs =>
    match selectNearest ps o (row dist x i 0 other) with
    | .abort => .abort
    | .ub => .ub
    | .ok r =>
      match directed ps o dist other (i + 1) xs with
      | .abort => .abort
      | .ub => .ub
      | .ok ms => .ok (r.toList ++ ms)

/-- `BruteForceFeatureMatcher::MatchImagePair` (brute_force_feature_matcher.cc:49-117): the return value and
the matches. -/
def bruteForce (ps : List (FMatch K) → List (FMatch K)) (o : Options K) (dist : D → D → K) (d1 d2 : List D) :
    Outcome (Bool × List (FMatch K)) :=
  match directed ps o dist d2 0 d1 with
  | .abort => .abort
  | .ub => .ub
  | .ok ms =>
    if ms.length < o.minMatches then .ok (false, ms)
    else if o.symmetric then
      match directed ps o dist d1 0 d2 with
      | .abort => .abort
      | .ub => .ub
      | .ok rs =>
        match intersect rs ms with
        | .abort => .abort
        | .ub => .ub
        | .ok ms => .ok (decide (o.minMatches ≤ ms.length), ms)
    else .ok (decide (o.minMatches ≤ ms.length), ms)

end Matcher
end Theia
