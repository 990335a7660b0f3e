import Verif.Base.AMap
import Verif.Base.Outcome

/-!
# The features and matches databases

Models `src/theia/matching/in_memory_features_and_matches_database.cc` and the key handling of
`src/theia/matching/rocksdb_features_and_matches_database.cc`.

Features, priors and matches are values of arbitrary types `F`, `I`, `M`; a match has the two image names
of `ImagePairMatch::image1` and `image2`. File names are lists of characters, so that the key composition
is visible. RocksDB itself is a map from byte strings to byte strings per column family, and cereal a pair
of functions `enc`/`dec` (their round trip is a hypothesis of the theorems that need it). The mutex of
`PutImagePairMatch` makes the call one step. Not modelled: the estimated entry counts of RocksDB
(`rocksdb.estimate-num-keys`), opening and creating column families, and I/O errors.
-/

namespace Theia

/-- An image name. -/
abbrev ImageName := List Char

namespace MatchDB

variable {F I M : Type}

/-- The calls that change a database (features_and_matches_database.h:62-99). -/
inductive Op (F I M : Type) where
  | putFeatures (n : ImageName) (f : F)
  | putPrior (n : ImageName) (p : I)
  | putMatch (a b : ImageName) (m : M)
  | removeAllMatches
  deriving DecidableEq

/-- `InMemoryFeaturesAndMatchesDatabase` (in_memory_features_and_matches_database.h:110-114). -/
structure Mem (F I M : Type) where
  priors : AMap ImageName I
  features : AMap ImageName F
  matches_ : AMap (ImageName × ImageName) M
  deriving DecidableEq

/-- The default constructor. -/
def Mem.new : Mem F I M := ⟨.empty, .empty, .empty⟩

/-- `PutFeatures` (in_memory_features_and_matches_database.cc:100-103). -/
def Mem.putFeatures (n : ImageName) (f : F) (d : Mem F I M) : Mem F I M :=
  { d with features := d.features.insert n f }

/-- `PutCameraIntrinsicsPrior` (in_memory_features_and_matches_database.cc:68-71). -/
def Mem.putPrior (n : ImageName) (p : I) (d : Mem F I M) : Mem F I M :=
  { d with priors := d.priors.insert n p }

/-- `PutImagePairMatch` (in_memory_features_and_matches_database.cc:126-132). -/
def Mem.putMatch (a b : ImageName) (m : M) (d : Mem F I M) : Mem F I M :=
  { d with matches_ := d.matches_.insert (a, b) m }

/-- `RemoveAllMatches` (in_memory_features_and_matches_database.cc:213-215). -/
def Mem.removeAllMatches (d : Mem F I M) : Mem F I M := { d with matches_ := .empty }

/-- One call. -/
def Mem.step (d : Mem F I M) : Op F I M → Mem F I M
  | .putFeatures n f => d.putFeatures n f
  | .putPrior n p => d.putPrior n p
  | .putMatch a b m => d.putMatch a b m
  | .removeAllMatches => d.removeAllMatches

/-- A history of calls on a new database. -/
def Mem.run (h : List (Op F I M)) : Mem F I M := h.foldl Mem.step .new

/-- `FindOrDie` (util/map_util.h). -/
def findOrDie {α : Type} : Option α → Outcome α
  | some a => .ok a
  | none => .abort

/-- `GetFeatures` (in_memory_features_and_matches_database.cc:94-97). -/
def Mem.getFeatures (d : Mem F I M) (n : ImageName) : Outcome F := findOrDie (d.features.get n)

/-- `ContainsFeatures` (in_memory_features_and_matches_database.cc:88-91). -/
def Mem.containsFeatures (d : Mem F I M) (n : ImageName) : Bool := d.features.contains n

/-- `ImageNamesOfFeatures` (in_memory_features_and_matches_database.cc:105-113). -/
def Mem.namesOfFeatures (d : Mem F I M) : List ImageName := d.features.keys

/-- `NumImages` (in_memory_features_and_matches_database.cc:115-117). -/
def Mem.numImages (d : Mem F I M) : Nat := d.features.size

/-- `GetCameraIntrinsicsPrior` (in_memory_features_and_matches_database.cc:61-65). -/
def Mem.getPrior (d : Mem F I M) (n : ImageName) : Outcome I := findOrDie (d.priors.get n)

/-- `ContainsCameraIntrinsicsPrior` (in_memory_features_and_matches_database.cc:55-58). -/
def Mem.containsPrior (d : Mem F I M) (n : ImageName) : Bool := d.priors.contains n

/-- `GetImagePairMatch` (in_memory_features_and_matches_database.cc:120-123). -/
def Mem.getMatch (d : Mem F I M) (a b : ImageName) : Outcome M := findOrDie (d.matches_.get (a, b))

/-- `ImageNamesOfMatches` (in_memory_features_and_matches_database.cc:134-142). -/
def Mem.namesOfMatches (d : Mem F I M) : List (ImageName × ImageName) := d.matches_.keys

/-- `NumMatches` (in_memory_features_and_matches_database.cc:144-146). -/
def Mem.numMatches (d : Mem F I M) : Nat := d.matches_.size

/-- What `WriteToFile` puts in the archive (in_memory_features_and_matches_database.cc:180-211): the names,
the priors and the matches. The features are not written. -/
def Mem.write (d : Mem F I M) : List ImageName × List I × List M :=
  (d.priors.entries.map (·.1), d.priors.entries.map (·.2), d.matches_.entries.map (·.2))

/-- The first loop of `ReadFromFile` (in_memory_features_and_matches_database.cc:168-171): the key is made of
the image names in the match. -/
def Mem.readMatches (image1 image2 : M → ImageName) : List M → Mem F I M → Mem F I M
  | [], d => d
  | m :: ms, d => Mem.readMatches image1 image2 ms { d with matches_ := d.matches_.insert (image1 m, image2 m) m }

/-- The second loop of `ReadFromFile` (in_memory_features_and_matches_database.cc:173-176). -/
def Mem.readPriors : List ImageName → List I → Mem F I M → Mem F I M
  | n :: ns, p :: ps, d => Mem.readPriors ns ps { d with priors := d.priors.insert n p }
  | _, _, d => d

/-- `ReadFromFile` after the archive has been read (in_memory_features_and_matches_database.cc:166-178). -/
def Mem.read (image1 image2 : M → ImageName) (a : List ImageName × List I × List M) (d : Mem F I M) :
    Outcome (Mem F I M) :=
  if a.1.length = a.2.1.length then .ok ((d.readMatches image1 image2 a.2.2).readPriors a.1 a.2.1)
  else .abort

/-- `kNamePairSeparator` (rocksdb_features_and_matches_database.cc:68). -/
def separator : Char := '/'

/-- `ComposeImageNamePair` (rocksdb_features_and_matches_database.cc:89-92). -/
def compose (a b : ImageName) : List Char := a ++ separator :: b

/-- `DecomposeImageNamePair` (rocksdb_features_and_matches_database.cc:94-98). Without a separator `find`
returns `npos`, `substr(0, npos)` is the whole string and so is `substr(npos + 1)`. -/
def decompose (k : List Char) : ImageName × ImageName :=
  if separator ∈ k then (k.takeWhile (· ≠ separator), (k.dropWhile (· ≠ separator)).tail) else (k, k)

/-- `RocksDbFeaturesAndMatchesDatabase`: three column families of byte strings `B`. -/
structure Rocks (B : Type) where
  priors : AMap (List Char) B
  features : AMap (List Char) B
  matches_ : AMap (List Char) B
  deriving DecidableEq

/-- How values are written to and read from byte strings (cereal's portable binary archives). -/
structure Codec (F I M B : Type) where
  encF : F → B
  decF : B → F
  encI : I → B
  decI : B → I
  encM : M → B
  decM : B → M

variable {B : Type}

/-- A new database (rocksdb_features_and_matches_database.cc:168-174). -/
def Rocks.new : Rocks B := ⟨.empty, .empty, .empty⟩

/-- One call (rocksdb_features_and_matches_database.cc:231-244, 303-318, 368-386, 408-416). -/
def Rocks.step (c : Codec F I M B) (d : Rocks B) : Op F I M → Rocks B
  | .putFeatures n f => { d with features := d.features.insert n (c.encF f) }
  | .putPrior n p => { d with priors := d.priors.insert n (c.encI p) }
  | .putMatch a b m => { d with matches_ := d.matches_.insert (compose a b) (c.encM m) }
  | .removeAllMatches => { d with matches_ := .empty }

/-- A history of calls on a new database. -/
def Rocks.run (c : Codec F I M B) (h : List (Op F I M)) : Rocks B := h.foldl (Rocks.step c) .new

/-- `GetFeatures` (rocksdb_features_and_matches_database.cc:278-300). -/
def Rocks.getFeatures (c : Codec F I M B) (d : Rocks B) (n : ImageName) : Outcome F :=
  match d.features.get n with
  | none => .abort
  | some b => .ok (c.decF b)

/-- `GetCameraIntrinsicsPrior` (rocksdb_features_and_matches_database.cc:203-228). -/
def Rocks.getPrior (c : Codec F I M B) (d : Rocks B) (n : ImageName) : Outcome I :=
  match d.priors.get n with
  | none => .abort
  | some b => .ok (c.decI b)

/-- `GetImagePairMatch` (rocksdb_features_and_matches_database.cc:341-365). -/
def Rocks.getMatch (c : Codec F I M B) (d : Rocks B) (x y : ImageName) : Outcome M :=
  match d.matches_.get (compose x y) with
  | none => .abort
  | some b => .ok (c.decM b)

/-- `ImageNamesOfMatches` (rocksdb_features_and_matches_database.cc:388-399); RocksDB iterates in key order,
the model in the order of the map. -/
def Rocks.namesOfMatches (d : Rocks B) : List (ImageName × ImageName) := d.matches_.keys.map decompose

end MatchDB
end Theia
