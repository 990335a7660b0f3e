import Verif.Model.FeatureMatcher

/-!
# Cascade hashing

Models `src/theia/matching/cascade_hasher.cc` and `cascade_hashing_feature_matcher.cc`
(`MatchImagePair`).

The random projections, the mean descriptor and the float products are summarised by the signs they
produce (`Signs`): the theorems hold for all signs. Distances are values of an ordered field.
`std::partial_sort` is a parameter `ps`.
-/

namespace Theia
namespace Cascade

/-- `kHashCodeSize` (cascade_hasher.h:52). -/
def hashCodeSize : Nat := 128
/-- `kNumBucketBits` (cascade_hasher.h:54). -/
def numBucketBits : Nat := 10
/-- `kNumBucketGroups` (cascade_hasher.h:56). -/
def numBucketGroups : Nat := 6
/-- `kNumBucketsPerGroup` (cascade_hasher.h:58). -/
def numBucketsPerGroup : Nat := 1 <<< numBucketBits
/-- `kNumTopCandidates` (cascade_hasher.cc:179). -/
def numTopCandidates : Nat := 10

/-- The signs of the projections of the zero-mean descriptors of one image (cascade_hasher.cc:96-101,
109-110): `primary x j` is `primary_projection(j) > 0` and `secondary x g k` is
`secondary_projection(k) > 0` in bucket group `g`. -/
structure Signs (D : Type) where
  primary : D → Nat → Bool
  secondary : D → Nat → Nat → Bool

/-- `HashedSiftDescriptor` (cascade_hasher.h:60-66). -/
structure HashedDesc where
  code : List Bool
  bucketIds : List Nat
  deriving DecidableEq

/-- `HashedImage` without its mean (cascade_hasher.h:68-79). -/
structure HashedImage where
  descs : List HashedDesc
  buckets : List (List (List Nat))
  deriving DecidableEq

/-- The bucket id after the first `k` bits (cascade_hasher.cc:108, 112-114); the id is a `uint16_t`. -/
def bucketId (bit : Nat → Bool) : Nat → Nat
  | 0 => 0
  | k + 1 => ((bucketId bit k <<< 1) + (if bit k then 1 else 0)) % 65536

variable {D : Type}

/-- One turn of the loop of `CreateHashedDescriptors` (cascade_hasher.cc:91-118). -/
def hashDesc (s : Signs D) (x : D) : HashedDesc :=
  { code := (List.range hashCodeSize).map (s.primary x)
    bucketIds := (List.range numBucketGroups).map (fun g => bucketId (s.secondary x g) numBucketBits) }

/-- `buckets[i][bucket_id].push_back(j)` (cascade_hasher.cc:125); out of range is undefined. -/
def pushBucket (bs : List (List Nat)) (id j : Nat) : Outcome (List (List Nat)) :=
  match bs[id]? with
  | none => .ub
  | some b => .ok (bs.set id (b ++ [j]))

/-- The inner loop of `BuildBuckets` (cascade_hasher.cc:123-126) for group `g`, from descriptor `j` on. -/
def fillGroup (g : Nat) : Nat → List HashedDesc → List (List Nat) → Outcome (List (List Nat))
  | _, [], bs => .ok bs
  | j, h :: hs, bs =>
    match h.bucketIds[g]? with
    | none => .ub
    | some id =>
      match pushBucket bs id j with
      | .abort => .abort
      | .ub => .ub
      | .ok bs => fillGroup g (j + 1) hs bs

/-- The outer loop of `BuildBuckets` (cascade_hasher.cc:120-128) for the groups `g`, `g + 1`, ..., as many as
the second argument says; each group starts with empty buckets (lines 139-142). -/
def fillGroups (hs : List HashedDesc) : Nat → Nat → Outcome (List (List (List Nat)))
  | _, 0 => .ok []
  | g, n + 1 =>
    match fillGroup g 0 hs (List.replicate numBucketsPerGroup []) with
    | .abort => .abort
    | .ub => .ub
    | .ok bs =>
      match fillGroups hs (g + 1) n with
      | .abort => .abort
      | .ub => .ub
      | .ok rest => .ok (bs :: rest)

/-- `CreateHashedSiftDescriptors` (cascade_hasher.cc:134-164). -/
def createHashed (s : Signs D) (xs : List D) : Outcome HashedImage :=
  match fillGroups (xs.map (hashDesc s)) 0 numBucketGroups with
  | .abort => .abort
  | .ub => .ub
  | .ok bs => .ok ⟨xs.map (hashDesc s), bs⟩

/-- The body of the innermost loop at cascade_hasher.cc:217-220: the candidates and the used flags. -/
def addCandidates : List Nat → List Nat × List Bool → Outcome (List Nat × List Bool)
  | [], st => .ok st
  | f :: fs, (cands, used) =>
    if f < used.length then addCandidates fs (cands ++ [f], used.set f false) else .ub

/-- The loop over the bucket groups (cascade_hasher.cc:215-221). -/
def gather (h : HashedDesc) (buckets : List (List (List Nat))) :
    List Nat → List Nat × List Bool → Outcome (List Nat × List Bool)
  | [], st => .ok st
  | g :: gs, st =>
    match h.bucketIds[g]? with
    | none => .ub
    | some id =>
      match buckets[g]? with
      | none => .ub
      | some group =>
        match group[id]? with
        | none => .ub
        | some bucket =>
          match addCandidates bucket st with
          | .abort => .abort
          | .ub => .ub
          | .ok st => gather h buckets gs st

/-- The Hamming distance (cascade_hasher.cc:236-238); it is at most 128 and fits the `uint8_t`. -/
def hamming : List Bool → List Bool → Nat
  | a :: as, b :: bs => (if a != b then 1 else 0) + hamming as bs
  | _, _ => 0

/-- Writing a candidate into the column of its distance (cascade_hasher.cc:239-241). The column has as many
rows as there are descriptors in the second image (line 195) and the filled rows are kept as a list. -/
def pushColumn (rows : Nat) (cols : List (List Nat)) (d c : Nat) : Outcome (List (List Nat)) :=
  match cols[d]? with
  | none => .ub
  | some col => if col.length < rows then .ok (cols.set d (col ++ [c])) else .ub

/-- The loop that sorts the candidates by Hamming distance (cascade_hasher.cc:231-242). -/
def hammingLoop (rows : Nat) (h : HashedDesc) (descs : List HashedDesc) :
    List Nat → List Bool × List (List Nat) → Outcome (List Bool × List (List Nat))
  | [], st => .ok st
  | c :: cs, (used, cols) =>
    match used[c]? with
    | none => .ub
    | some true => hammingLoop rows h descs cs (used, cols)
    | some false =>
      match descs[c]? with
      | none => .ub
      | some hc =>
        match pushColumn rows cols (hamming h.code hc.code) c with
        | .abort => .abort
        | .ub => .ub
        | .ok cols => hammingLoop rows h descs cs (used.set c true, cols)

variable {K : Type}

/-- One column (cascade_hasher.cc:248-256). -/
def takeColumn (dist : D → D → K) (x : D) (ys : List D) :
    List Nat → List (K × Nat) → Outcome (List (K × Nat))
  | [], acc => .ok acc
  | c :: cs, acc =>
    match ys[c]? with
    | none => .ub
    | some y =>
      if (acc ++ [(dist y x, c)]).length > numTopCandidates then .ok (acc ++ [(dist y x, c)])
      else takeColumn dist x ys cs (acc ++ [(dist y x, c)])

/-- The loop over the columns (cascade_hasher.cc:247-260). -/
def takeColumns (dist : D → D → K) (x : D) (ys : List D) :
    List (List Nat) → List (K × Nat) → Outcome (List (K × Nat))
  | [], acc => .ok acc
  | col :: cols, acc =>
    match takeColumn dist x ys col acc with
    | .abort => .abort
    | .ub => .ub
    | .ok acc => if acc.length > numTopCandidates then .ok acc else takeColumns dist x ys cols acc

variable [Field K] [LinearOrder K]

/-- The partial sort and the ratio test (cascade_hasher.cc:263-275). Sorting the first two of fewer than two
elements is out of range. -/
def pick (ps : List (K × Nat) → List (K × Nat)) (ratio : K) (i : Nat) (l : List (K × Nat)) :
    Outcome (Option (Matcher.FMatch K)) :=
  if l.length < 2 then .ub
  else
    match ps l with
    | a :: b :: _ => if b.1 * (ratio * ratio) < a.1 then .ok none else .ok (some ⟨i, a.2, a.1⟩)
    | _ => .ub

/-- One turn of the loop of `MatchImages` (cascade_hasher.cc:206-276): the match and the used flags. -/
def matchDesc (ps : List (K × Nat) → List (K × Nat)) (dist : D → D → K) (ratio : K) (i : Nat) (h : HashedDesc)
    (x : D) (img2 : HashedImage) (ys : List D) (used : List Bool) :
    Outcome (Option (Matcher.FMatch K) × List Bool) :=
  match gather h img2.buckets (List.range numBucketGroups) ([], used) with
  | .abort => .abort
  | .ub => .ub
  | .ok (cands, used) =>
    if cands.length ≤ numTopCandidates then .ok (none, used)
    else
      match hammingLoop ys.length h img2.descs cands (used, List.replicate (hashCodeSize + 1) []) with
      | .abort => .abort
      | .ub => .ub
      | .ok (used, cols) =>
        match takeColumns dist x ys cols [] with
        | .abort => .abort
        | .ub => .ub
        | .ok l =>
          match pick ps ratio i l with
          | .abort => .abort
          | .ub => .ub
          | .ok m => .ok (m, used)

/-- The loop of `MatchImages` (cascade_hasher.cc:206-276) from descriptor `i` on. -/
def matchLoop (ps : List (K × Nat) → List (K × Nat)) (dist : D → D → K) (ratio : K) (img2 : HashedImage)
    (ys : List D) (xs : List D) : Nat → List HashedDesc → List Bool → Outcome (List (Matcher.FMatch K))
  | _, [], _ => .ok []
  | i, h :: hs, used =>
    match xs[i]? with
    | none => .ub
    | some x =>
      match matchDesc ps dist ratio i h x img2 ys used with
      | .abort => .abort
      | .ub => .ub
      | .ok (m, used) =>
        match matchLoop ps dist ratio img2 ys xs (i + 1) hs used with
        | .abort => .abort
        | .ub => .ub
        | .ok ms => .ok (m.toList ++ ms)

/-- `MatchImages` (cascade_hasher.cc:168-277): the matches it appends. -/
def matchImages (ps : List (K × Nat) → List (K × Nat)) (dist : D → D → K) (ratio : K) (img1 : HashedImage)
    (xs : List D) (img2 : HashedImage) (ys : List D) : Outcome (List (Matcher.FMatch K)) :=
  if xs.length = 0 ∨ ys.length = 0 then .ok []
  else matchLoop ps dist ratio img2 ys xs 0 img1.descs (List.replicate ys.length false)

/-- `CascadeHashingFeatureMatcher::MatchImagePair` (cascade_hashing_feature_matcher.cc:130-166), for hashed
images that exist: the return value and the matches. -/
def matchPair (ps : List (K × Nat) → List (K × Nat)) (dist : D → D → K) (o : Matcher.Options K)
    (img1 : HashedImage) (xs : List D) (img2 : HashedImage) (ys : List D) :
    Outcome (Bool × List (Matcher.FMatch K)) :=
  let ratio := if o.useLowesRatio then o.lowesRatio else 1
  match matchImages ps dist ratio img1 xs img2 ys with
  | .abort => .abort
  | .ub => .ub
  | .ok ms =>
    if o.minMatches ≤ ms.length ∧ o.symmetric then
      match matchImages ps dist ratio img2 ys img1 xs with
      | .abort => .abort
      | .ub => .ub
      | .ok rs =>
        match Matcher.intersect rs ms with
        | .abort => .abort
        | .ub => .ub
        | .ok ms => .ok (decide (o.minMatches ≤ ms.length), ms)
    else .ok (decide (o.minMatches ≤ ms.length), ms)

end Cascade
end Theia
