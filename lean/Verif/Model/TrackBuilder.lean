import Verif.Model.ConnectedComponents
import Verif.Model.Reconstruction

/-!
# Model of `TrackBuilder` (sfm/track_builder.{h,cc})

Feature ids are unbounded (the code stores a `uint64_t` id in an `int`, track_builder.cc:74-75, so it
is only faithful below 2^31 features).
-/

namespace Theia

/-- The members of `TrackBuilder` (track_builder.h:85-94). -/
structure TrackBuilder (F : Type) where
  features : AMap (ViewId × F) Nat
  numFeatures : Nat
  minLength : Nat
  cc : CC Nat

namespace TrackBuilder

variable {F P : Type} [DecidableEq F]

/-- The constructor (track_builder.cc:53-58). -/
def create (minLength maxLength : Nat) : Outcome (TrackBuilder F) :=
  match CC.create maxLength with
  | .abort => .abort
  | .ub => .ub
  | .ok cc => .ok ⟨.empty, 0, minLength, cc⟩

/-- `FindOrInsert` (track_builder.cc:132-149). -/
def findOrInsert (b : TrackBuilder F) (o : ViewId × F) : Nat × TrackBuilder F :=
  match b.features.get o with
  | some i => (i, b)
  | none =>
    (b.numFeatures,
      { b with features := b.features.insert o b.numFeatures, numFeatures := b.numFeatures + 1 })

/-- `AddFeatureCorrespondence` (track_builder.cc:62-78). -/
def addCorrespondence (b : TrackBuilder F) (o1 o2 : ViewId × F) : Outcome (TrackBuilder F) :=
  if o1.1 = o2.1 then .abort
  else
    let r1 := b.findOrInsert o1
    let r2 := r1.2.findOrInsert o2
    match r2.2.cc.addEdge r1.1 r2.1 with
    | .abort => .abort
    | .ub => .ub
    | .ok cc => .ok { r2.2 with cc := cc }

/-- A sequence of `AddFeatureCorrespondence` calls. -/
def addAll : TrackBuilder F → List ((ViewId × F) × (ViewId × F)) → Outcome (TrackBuilder F)
  | b, [] => .ok b
  | b, c :: cs =>
    match b.addCorrespondence c.1 c.2 with
    | .abort => .abort
    | .ub => .ub
    | .ok b' => addAll b' cs

/-- The reverse map of track_builder.cc:84-88; `InsertOrDie` aborts on a repeated key. -/
def reverse : List ((ViewId × F) × Nat) → AMap Nat (ViewId × F) → Outcome (AMap Nat (ViewId × F))
  | [], m => .ok m
  | e :: es, m => if m.contains e.2 then .abort else reverse es (m.insert e.2 e.1)

/-- The loop over the features of one component (track_builder.cc:107-121): keeps the first feature
of every view. -/
def pick (rev : AMap Nat (ViewId × F)) :
    List Nat → List ViewId → List (ViewId × F) → Outcome (List (ViewId × F))
  | [], _, track => .ok track
  | i :: is, views, track =>
    match rev.get i with
    | none => .abort
    | some o =>
      if o.1 ∈ views then pick rev is views track
      else pick rev is (views ++ [o.1]) (track ++ [o])

/-- The loop over the components (track_builder.cc:97-125); `payload` is the default point/colour of
a new track. -/
def buildLoop (rev : AMap Nat (ViewId × F)) (minLength : Nat) (payload : P) :
    List (Nat × List Nat) → Reconstruction F P → Outcome (Reconstruction F P)
  | [], r => .ok r
  | c :: cs, r =>
    if c.2.length < minLength then buildLoop rev minLength payload cs r
    else
      match pick rev c.2 [] [] with
      | .abort => .abort
      | .ub => .ub
      | .ok track =>
        match r.addTrack payload track with
        | .abort => .abort
        | .ub => .ub
        | .ok (none, _) => .abort
        | .ok (some _, r') => buildLoop rev minLength payload cs r'

/-- `BuildTracks` (track_builder.cc:80-130). -/
def buildTracks (b : TrackBuilder F) (payload : P) (r : Reconstruction F P) :
    Outcome (Reconstruction F P) :=
  match reverse b.features.entries .empty with
  | .abort => .abort
  | .ub => .ub
  | .ok rev =>
    match b.cc.extract with
    | .abort => .abort
    | .ub => .ub
    | .ok (comps, _) => buildLoop rev b.minLength payload comps.entries r

end TrackBuilder
end Theia
