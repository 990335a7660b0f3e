import Mathlib.Algebra.Order.Floor.Defs
import Mathlib.Algebra.Order.Floor.Ring
import Mathlib.Data.List.Sort
import Verif.Model.FeatureMatcher

/-!
# Guided epipolar matching

Models `src/theia/matching/guided_epipolar_matcher.cc`.

Coordinates and distances are values of an ordered field with floor. Parameters are: the epipolar line of a
point, the number of steps along a line (a rounded Euclidean length), the random draws and the FLANN search.
The scaling of the line (line 224) cancels in the intersections and is left out; a division by zero gives an
infinity or NaN, of which all range checks are false, so that no point is produced.
-/

namespace Theia
namespace Guided

variable {K D : Type} [Field K] [LinearOrder K] [FloorRing K]

/-- A point. -/
abbrev Pt (K : Type) := K × K

/-- `static_cast<uint16_t>` of a double (guided_epipolar_matcher.cc:62-65): truncation, undefined if the
result is out of range. -/
def toU16 (x : K) : Outcome Nat := if -1 < x ∧ x < 65536 then .ok ⌊x⌋.toNat else .ub

/-- Combining the four numbers (guided_epipolar_matcher.cc:61, 66-70), in 64 bits. -/
def pack (x1 y1 x2 y2 : Nat) : Nat :=
  (((0 ||| ((x1 <<< 48) % 2 ^ 64)) ||| ((y1 <<< 32) % 2 ^ 64)) ||| ((x2 <<< 16) % 2 ^ 64)) ||| ((y2 <<< 0) % 2 ^ 64)

/-- `EncodeLineEndpoints` (guided_epipolar_matcher.cc:60-71). -/
def encode (p q : Pt K) : Outcome Nat :=
  match toU16 p.1, toU16 p.2, toU16 q.1, toU16 q.2 with
  | .ok x1, .ok y1, .ok x2, .ok y2 => .ok (pack x1 y1 x2 y2)
  | _, _, _, _ => .ub

/-- `DecodeLineEndpoints` (guided_epipolar_matcher.cc:73-87). -/
def decode (e : Nat) : (Nat × Nat) × (Nat × Nat) :=
  let s := (2 ^ 64 - 1) >>> 48
  (((s &&& (e >>> 48)) % 65536, (s &&& (e >>> 32)) % 65536), ((s &&& (e >>> 16)) % 65536, (s &&& (e >>> 0)) % 65536))

/-- `EpilineGroup` (guided_epipolar_matcher.h:116-119). -/
structure LineGroup (K : Type) where
  p : Pt K
  q : Pt K
  features : List Nat
  deriving DecidableEq

/-- The decoded endpoints as points (guided_epipolar_matcher.cc:85-86). -/
def toPt (c : Nat × Nat) : Pt K := ((c.1 : K), (c.2 : K))

/-- `(a - b).squaredNorm()`. -/
def sqDist (a b : Pt K) : K := (a.1 - b.1) * (a.1 - b.1) + (a.2 - b.2) * (a.2 - b.2)

/-- The running mean of lines 265-272: `n` is the number of features including the new one. -/
def mean (n : Nat) (old new : Pt K) : Pt K :=
  ((1 - 1 / (n : K)) * old.1 + 1 / (n : K) * new.1, (1 - 1 / (n : K)) * old.2 + 1 / (n : K) * new.2)

/-- Adding a feature to a group (guided_epipolar_matcher.cc:262-272). -/
def LineGroup.add (g : LineGroup K) (p q : Pt K) (i : Nat) : LineGroup K :=
  { p := mean (g.features.length + 1) g.p p
    q := mean (g.features.length + 1) g.q q
    features := g.features ++ [i] }

/-- The clustering loop (guided_epipolar_matcher.cc:246-273): `cur` is the last group, if there is one. -/
def groupLoop (sqMax : K) : List (Nat × Nat) → Option (LineGroup K) → List (LineGroup K)
  | [], cur => cur.toList
  | (e, i) :: rest, none => groupLoop sqMax rest
      (some (LineGroup.add ⟨toPt (decode e).1, toPt (decode e).2, []⟩ (toPt (decode e).1) (toPt (decode e).2) i))
  | (e, i) :: rest, some g =>
    if sqMax < sqDist g.p (toPt (decode e).1) then
      g :: groupLoop sqMax rest
        (some (LineGroup.add ⟨toPt (decode e).1, toPt (decode e).2, []⟩ (toPt (decode e).1) (toPt (decode e).2) i))
    else groupLoop sqMax rest (some (g.add (toPt (decode e).1) (toPt (decode e).2) i))

/-- The bounding box (guided_epipolar_matcher.h:162). -/
structure Box (K : Type) where
  left : K
  top : K
  right : K
  bottom : K
  deriving DecidableEq

/-- A homogeneous line. -/
abbrev Line (K : Type) := K × K × K

/-- `FindEpipolarLineIntersection` (guided_epipolar_matcher.cc:320-356). -/
def intersections (b : Box K) (l : Line K) : List (Pt K) :=
  (if l.2.1 ≠ 0 ∧ b.top ≤ -(l.2.2 + l.1 * b.left) / l.2.1 ∧ -(l.2.2 + l.1 * b.left) / l.2.1 ≤ b.bottom then
    [(b.left, -(l.2.2 + l.1 * b.left) / l.2.1)] else []) ++
  (if l.1 ≠ 0 ∧ b.left ≤ -(l.2.2 + l.2.1 * b.top) / l.1 ∧ -(l.2.2 + l.2.1 * b.top) / l.1 ≤ b.right then
    [(-(l.2.2 + l.2.1 * b.top) / l.1, b.top)] else []) ++
  (if l.2.1 ≠ 0 ∧ b.top ≤ -(l.2.2 + l.1 * b.right) / l.2.1 ∧ -(l.2.2 + l.1 * b.right) / l.2.1 ≤ b.bottom then
    [(b.right, -(l.2.2 + l.1 * b.right) / l.2.1)] else []) ++
  (if l.1 ≠ 0 ∧ b.left ≤ -(l.2.2 + l.2.1 * b.bottom) / l.1 ∧ -(l.2.2 + l.2.1 * b.bottom) / l.1 ≤ b.right then
    [(-(l.2.2 + l.2.1 * b.bottom) / l.1, b.bottom)] else [])

/-- The loop that collects the encoded endpoints of the features of the first image that have no match
(guided_epipolar_matcher.cc:212-236), from feature `i` on. -/
def endpointLoop (line : Pt K → Line K) (b : Box K) (matched1 : List Nat) :
    Nat → List (Pt K) → Outcome (List (Nat × Nat))
  | _, [] => .ok []
  | i, p :: ps =>
    match endpointLoop line b matched1 (i + 1) ps with
    | .abort => .abort
    | .ub => .ub
    | .ok rest =>
      if i ∈ matched1 then .ok rest
      else
        match intersections b (line p) with
        | [u, v] =>
          match encode u v with
          | .abort => .abort
          | .ub => .ub
          | .ok e => .ok ((e, i) :: rest)
        | _ => .ok rest

/-- `operator<` of `std::pair<uint64_t, int>`, not strictly. -/
def pairLe (a b : Nat × Nat) : Prop := a.1 < b.1 ∨ (a.1 = b.1 ∧ a.2 ≤ b.2)

instance : DecidableRel pairLe := fun _ _ => inferInstanceAs (Decidable (_ ∨ _))

/-- `GroupEpipolarLines` (guided_epipolar_matcher.cc:197-274). The features of the pairs differ, so there is
only one sorted order. -/
def groupLines (line : Pt K → Line K) (b : Box K) (maxDist : K) (matched1 : List Nat) (kps1 : List (Pt K)) :
    Outcome (List (LineGroup K)) :=
  match endpointLoop line b matched1 0 kps1 with
  | .abort => .abort
  | .ub => .ub
  | .ok es => .ok (groupLoop (maxDist * maxDist) (es.insertionSort pairLe) none)

/-- `static_cast<int>` of a double in range. -/
def truncInt (x : K) : Int := if 0 ≤ x then ⌊x⌋ else ⌈x⌉

/-- One coordinate of `GetClosestGridCenter` (guided_epipolar_matcher.cc:455-463). -/
def center1 (size offset x : K) : Int := truncInt ((⌊(x - offset) / (2 * size)⌋ : K) * 2 * size + size + offset)

/-- `GetClosestGridCenter` (guided_epipolar_matcher.cc:455-463) for the grid with the given offset. -/
def center (size : K) (off : Pt K) (p : Pt K) : Int × Int := (center1 size off.1 p.1, center1 size off.2 p.2)

/-- The offsets of the four grids (guided_epipolar_matcher.cc:108-113). -/
def offsets (size : K) : List (Pt K) := [(0, 0), (size, 0), (0, size), (size, size)]

/-- The cell of a grid with the given center: the unmatched features of the second image that were added to
it (guided_epipolar_matcher.cc:121-131, 447-453, 465-468). -/
def cell (size : K) (off : Pt K) (matched2 : List Nat) (kps2 : List (Pt K)) (c : Int × Int) : List Nat :=
  (List.range kps2.length).filter (fun i => match kps2[i]? with
    | some p => decide (i ∉ matched2) && decide (center size off p = c)
    | none => false)

/-- The loop of `FindClosestCellAndKeypoints` (guided_epipolar_matcher.cc:423-432) over the remaining grids,
given the best one so far. -/
def closest (size : K) (pt : Pt K) : List (Pt K) → Pt K × (Int × Int) → Pt K × (Int × Int)
  | [], best => best
  | off :: offs, best =>
    let c := center size off pt
    if sqDist ((c.1 : K), (c.2 : K)) pt < sqDist ((best.2.1 : K), (best.2.2 : K)) pt then
      closest size pt offs (off, c)
    else closest size pt offs best

/-- `FindClosestCellAndKeypoints` (guided_epipolar_matcher.cc:416-436). -/
def cellAt (size : K) (matched2 : List Nat) (kps2 : List (Pt K)) (pt : Pt K) : List Nat :=
  let best := closest size pt (offsets size) ((0, 0), center size (0, 0) pt)
  cell size best.1 matched2 kps2 best.2

/-- `insert` into an `unordered_set`. -/
def insertSet (s : List Nat) (x : Nat) : List Nat := if x ∈ s then s else s ++ [x]

/-- The walk along the line (guided_epipolar_matcher.cc:290-303): `k` more steps from `pt`. -/
def walk (size : K) (matched2 : List Nat) (kps2 : List (Pt K)) (delta : Pt K) : Nat → Pt K → List Nat → List Nat
  | 0, _, s => s
  | k + 1, pt, s =>
    let pt := (pt.1 + delta.1, pt.2 + delta.2)
    walk size matched2 kps2 delta k pt ((cellAt size matched2 kps2 pt).foldl insertSet s)

/-- The random features added to a small set (guided_epipolar_matcher.cc:308-314); `draws` are the numbers
drawn, of which as many are used as are needed. -/
def addRandom (draws : List Nat) (s : List Nat) : List Nat := (draws.take (50 - s.length)).foldl insertSet s

/-- `FindFeaturesNearEpipolarLines` (guided_epipolar_matcher.cc:276-318). The order of the set is that of
insertion. -/
def near (steps : Pt K → Pt K → Nat) (size : K) (matched2 : List Nat) (kps2 : List (Pt K)) (draws : List Nat)
    (g : LineGroup K) : List Nat :=
  let n := steps g.p g.q
  addRandom draws (walk size matched2 kps2 ((g.p.1 - g.q.1) / (n : K), (g.p.2 - g.q.2) / (n : K)) n g.q [])

/-- One query result (guided_epipolar_matcher.cc:174-184, 406-413): the neighbours of feature `f` as
distances and positions among the candidates. Reading a neighbour that is not there is out of range. -/
def readRow (ratio : K) (cands : List Nat) (f : Nat) (row : List (K × Nat)) :
    Outcome (Option (Matcher.FMatch K)) :=
  match row with
  | a :: b :: _ =>
    match cands[a.2]?, cands[b.2]? with
    | some c, some _ => if a.1 < b.1 * (ratio * ratio) then .ok (some ⟨f, c, a.1⟩) else .ok none
    | _, _ => .ub
  | _ => .ub

/-- The matches of one group (guided_epipolar_matcher.cc:174-184). -/
def readRows (ratio : K) (cands : List Nat) : List Nat → List (List (K × Nat)) → Outcome (List (Matcher.FMatch K))
  | [], [] => .ok []
  | f :: fs, row :: rows =>
    match readRow ratio cands f row with
    | .abort => .abort
    | .ub => .ub
    | .ok m =>
      match readRows ratio cands fs rows with
      | .abort => .abort
      | .ub => .ub
      | .ok ms => .ok (m.toList ++ ms)
  | _, _ => .ub

/-- The parameters of a run: `draws k` are the random numbers for group number `k`; `knn` is the search for
the two nearest among the candidates, for each of the queries. -/
structure Env (K : Type) where
  line : Pt K → Line K
  steps : Pt K → Pt K → Nat
  draws : Nat → List Nat
  knn : List Nat → List Nat → List (List (K × Nat))

/-- The loop over the groups (guided_epipolar_matcher.cc:160-185), from group number `k` on: the matches it
adds. -/
def matchGroups (env : Env K) (maxDist ratio : K) (matched2 : List Nat) (kps2 : List (Pt K)) :
    Nat → List (LineGroup K) → Outcome (List (Matcher.FMatch K))
  | _, [] => .ok []
  | k, g :: gs =>
    let cands := near env.steps maxDist matched2 kps2 (env.draws k) g
    match readRows ratio cands g.features (env.knn g.features cands) with
    | .abort => .abort
    | .ub => .ub
    | .ok ms =>
      match matchGroups env maxDist ratio matched2 kps2 (k + 1) gs with
      | .abort => .abort
      | .ub => .ub
      | .ok rest => .ok (ms ++ rest)

/-- The unmatched keypoints of the second image (guided_epipolar_matcher.cc:121-134). -/
def unmatchedPts (matched2 : List Nat) (kps2 : List (Pt K)) : List (Pt K) :=
  (List.range kps2.length).filterMap (fun i => if i ∈ matched2 then none else kps2[i]?)

/-- The bounding box (guided_epipolar_matcher.cc:136-142); without any feature the iterators of
`std::minmax_element` are past the end and must not be read. -/
def boundingBox : List (Pt K) → Outcome (Box K)
  | [] => .ub
  | p :: ps => .ok (ps.foldl (fun b q => ⟨min b.left q.1, min b.top q.2, max b.right q.1, max b.bottom q.2⟩)
      ⟨p.1, p.2, p.1, p.2⟩)

/-- `Initialize` and `GetMatches` (guided_epipolar_matcher.cc:93-195): the matches afterwards. Indices of
features are natural numbers here. -/
def getMatches (env : Env K) (maxDist ratio : K) (kps1 kps2 : List (Pt K)) (ms : List (Matcher.FMatch K)) :
    Outcome (List (Matcher.FMatch K)) :=
  let matched1 := ms.map (fun m => m.feature1.toNat)
  let matched2 := ms.map (fun m => m.feature2.toNat)
  match boundingBox (unmatchedPts matched2 kps2) with
  | .abort => .abort
  | .ub => .ub
  | .ok b =>
    match groupLines env.line b maxDist matched1 kps1 with
    | .abort => .abort
    | .ub => .ub
    | .ok gs =>
      match matchGroups env maxDist ratio matched2 kps2 0 gs with
      | .abort => .abort
      | .ub => .ub
      | .ok added => .ok (ms ++ added)

end Guided
end Theia
