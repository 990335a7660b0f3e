import Verif.Base.Outcome
import Verif.Base.FloatRounding
import Mathlib.Data.List.Basic

/-!
# Files of features

The two binary files in which Theia keeps the features of an image: the portable one written with
cereal (`io/write_keypoints_and_descriptors.cc`, `io/read_keypoints_and_descriptors.cc`) and the
binary form of Lowe's SIFT key files (`io/sift_binary_file.cc`).

A file is its list of bytes.  The machine that runs the code is described by its byte order: `true`
for little endian.  Simplifications: the file can be opened and written to the end, and there is
memory for what is read.
-/

namespace Theia.FeatureFile

/-- A byte. -/
abbrev Byte := Fin 256

/-- The `k` bytes of a number, least significant first. -/
def leBytes : Nat → Nat → List Byte
  | 0, _ => []
  | k + 1, n => ⟨n % 256, Nat.mod_lt _ (by decide)⟩ :: leBytes k (n / 256)

/-- The number whose bytes, least significant first, are given. -/
def ofLe : List Byte → Nat
  | [] => 0
  | b :: bs => b.val + 256 * ofLe bs

/-- The `k` bytes that hold a number in the memory of a machine. -/
def mem (little : Bool) (k n : Nat) : List Byte :=
  if little then leBytes k n else (leBytes k n).reverse

/-- The number that bytes in the memory of a machine hold. -/
def unmem (little : Bool) (bs : List Byte) : Nat := ofLe (if little then bs else bs.reverse)

/-- `image/keypoint_detector/keypoint.h:52-57,99-104`: a keypoint.  `D` is the type of doubles.
The kind is the 32 bits of the enumeration. -/
structure Keypoint (D : Type) where
  x : D
  y : D
  kind : BitVec 32
  strength : D
  scale : D
  orientation : D
  deriving DecidableEq, Repr

/-- `image/keypoint_detector/keypoint.h:52-57`: `Keypoint::SIFT`. -/
def sift : BitVec 32 := 1#32

/-! ## Reading from a stream -/

/-- Something that reads from a stream of bytes, and leaves the rest. -/
def Loader (α : Type) := List Byte → Outcome (α × List Byte)

namespace Loader

def pure {α : Type} (a : α) : Loader α := fun bs => .ok (a, bs)

def bind {α β : Type} (l : Loader α) (f : α → Loader β) : Loader β := fun bs =>
  match l bs with
  | .ok (a, rest) => f a rest
  | .abort => .abort
  | .ub => .ub

/-- Fails with the given outcome. -/
def fail {α : Type} (o : Outcome (α × List Byte)) : Loader α := fun _ => o

instance : Monad Loader where
  pure := Loader.pure
  bind := Loader.bind

end Loader

/-- Does something `n` times. -/
def loadMany {α : Type} (l : Loader α) : Nat → Loader (List α)
  | 0 => pure []
  | n + 1 => do
    let a ← l
    let as ← loadMany l n
    pure (a :: as)

/-! ## The portable file -/

/-- `libraries/cereal/include/cereal/archives/portable_binary.hpp:52-57`: swaps the bytes of each
group of `k`.  The number of groups is given. -/
def swapGroups (k : Nat) : Nat → List Byte → List Byte
  | 0, bs => bs
  | n + 1, bs => (bs.take k).reverse ++ swapGroups k n (bs.drop k)

/-- `libraries/cereal/include/cereal/archives/portable_binary.hpp:234-250` (`loadBinary`): reads
`count` values of `k` bytes into memory, and swaps their bytes if the byte orders differ.  The
exception thrown when the stream is too short ends the program. -/
def loadBinary (convert : Bool) (k count : Nat) : Loader (List Byte) := fun bs =>
  if bs.length < k * count then .abort
  else
    let data := bs.take (k * count)
    .ok (if convert then swapGroups k count data else data, bs.drop (k * count))

/-- `libraries/cereal/include/cereal/archives/portable_binary.hpp:271-280`: reads a number of `k`
bytes. -/
def loadWord (little convert : Bool) (k : Nat) : Loader Nat := do
  let data ← loadBinary convert k 1
  pure (unmem little data)

/-- The values of `k` bytes in memory. -/
def words (little : Bool) (k : Nat) : Nat → List Byte → List Nat
  | 0, _ => []
  | n + 1, bs => unmem little (bs.take k) :: words little k n (bs.drop k)

/-- `libraries/cereal/include/cereal/archives/portable_binary.hpp:120-147,260-269`: saves a
number of `k` bytes.  With the default options the file has the byte order of the machine, so the
bytes are those in memory. -/
def saveWord (little : Bool) (k n : Nat) : List Byte := mem little k n

/-- `image/keypoint_detector/keypoint.h:112-115`, with
`libraries/cereal/include/cereal/cereal.hpp:475-486`: saves a keypoint.  The version of the class,
zero, comes before the first one. -/
def saveKeypoint (little first : Bool) (k : Keypoint (BitVec 64)) : List Byte :=
  (if first then saveWord little 4 0 else []) ++ saveWord little 8 k.x.toNat ++
    saveWord little 8 k.y.toNat ++ saveWord little 4 k.kind.toNat ++
    saveWord little 8 k.strength.toNat ++ saveWord little 8 k.scale.toNat ++
    saveWord little 8 k.orientation.toNat

/-- `libraries/cereal/include/cereal/types/vector.hpp:65-70`: saves the keypoints one after the
other. -/
def saveKeypoints (little : Bool) : Bool → List (Keypoint (BitVec 64)) → List Byte
  | _, [] => []
  | first, k :: ks => saveKeypoint little first k ++ saveKeypoints little false ks

/-- `io/eigen_serializable.h:46-58`: saves a vector of floats: rows, columns and entries. -/
def saveVector (little : Bool) (v : List (BitVec 32)) : List Byte :=
  saveWord little 4 (BitVec.ofNat 32 v.length).toNat ++ saveWord little 4 1 ++
    v.flatMap fun f => saveWord little 4 f.toNat

/-- `io/write_keypoints_and_descriptors.cc:56-73` (`WriteKeypointsAndDescriptors`), with
`libraries/cereal/include/cereal/archives/portable_binary.hpp:120-126` and
`libraries/cereal/include/cereal/types/vector.hpp:65-70`: the byte order, the keypoints and the
descriptors, each after their number. -/
def writeFeatures (little : Bool) (keypoints : List (Keypoint (BitVec 64)))
    (descriptors : List (List (BitVec 32))) : List Byte :=
  saveWord little 1 (if little then 1 else 0) ++
    saveWord little 8 keypoints.length ++ saveKeypoints little true keypoints ++
    saveWord little 8 descriptors.length ++ descriptors.flatMap (saveVector little)

/-- `libraries/cereal/include/cereal/cereal.hpp:852-868`: reads the version of the class, before the
first object only. -/
def loadVersion (little convert first : Bool) : Loader Nat :=
  if first then loadWord little convert 4 else pure 0

/-- `image/keypoint_detector/keypoint.h:112-115`: reads a keypoint. -/
def loadKeypoint (little convert first : Bool) : Loader (Keypoint (BitVec 64)) := do
  let _ ← loadVersion little convert first
  let x ← loadWord little convert 8
  let y ← loadWord little convert 8
  let kind ← loadWord little convert 4
  let strength ← loadWord little convert 8
  let scale ← loadWord little convert 8
  let orientation ← loadWord little convert 8
  pure ⟨BitVec.ofNat 64 x, BitVec.ofNat 64 y, BitVec.ofNat 32 kind, BitVec.ofNat 64 strength,
    BitVec.ofNat 64 scale, BitVec.ofNat 64 orientation⟩

/-- `libraries/cereal/include/cereal/types/vector.hpp:76-84`: reads keypoints. -/
def loadKeypoints (little convert : Bool) : Bool → Nat → Loader (List (Keypoint (BitVec 64)))
  | _, 0 => pure []
  | first, n + 1 => do
    let k ← loadKeypoint little convert first
    let ks ← loadKeypoints little convert false n
    pure (k :: ks)

/-- `io/eigen_serializable.h:60-74`: reads a vector of floats.  Making a column vector with a number
of columns other than one, or a negative number of rows, fails an assertion of Eigen. -/
def loadVector (little convert : Bool) : Loader (List (BitVec 32)) := do
  let rows ← loadWord little convert 4
  let cols ← loadWord little convert 4
  if (BitVec.ofNat 32 rows).toInt < 0 ∨ cols ≠ 1 then Loader.fail .ub
  else do
    let data ← loadBinary convert 4 rows
    pure ((words little 4 rows data).map (BitVec.ofNat 32))

/-- `libraries/cereal/include/cereal/archives/portable_binary.hpp:220-228`, then
`libraries/cereal/include/cereal/types/vector.hpp:76-84` twice: what the archive reads. -/
def loadFeatures (little : Bool) :
    Loader (List (Keypoint (BitVec 64)) × List (List (BitVec 32))) := do
  let order ← loadWord little false 1
  let convert := decide (order ≠ if little then 1 else 0)
  let n ← loadWord little convert 8
  let keypoints ← loadKeypoints little convert true n
  let m ← loadWord little convert 8
  let descriptors ← loadMany (loadVector little convert) m
  pure (keypoints, descriptors)

/-- `io/read_keypoints_and_descriptors.cc:56-74` (`ReadKeypointsAndDescriptors`).  What follows in
the file is not looked at. -/
def readFeatures (little : Bool) (file : List Byte) :
    Outcome (List (Keypoint (BitVec 64)) × List (List (BitVec 32))) :=
  match loadFeatures little file with
  | .ok (features, _) => .ok features
  | .abort => .abort
  | .ub => .ub

/-! ## The binary SIFT key file -/

/-- The conversions between doubles and floats, and the invalid value `-9999`
(`image/keypoint_detector/keypoint.h:49`).  `inverse` says how Eigen divides by a number. -/
structure Doubles (D : Type) where
  toFloat : D → BitVec 32
  toDouble : BitVec 32 → D
  invalid : D
  inverse : Bool

/-- `io/sift_binary_file.cc:137-139`: an entry of a descriptor, times 255, as a byte.  Converting a
number that does not fit in a byte, once its fraction is dropped, is undefined. -/
def quantize (v : ℚ) : Outcome Byte :=
  let y := roundFloat (v * 255)
  if -1 < y ∧ y < 256 then .ok (Fin.ofNat 256 y.floor.toNat) else .ub

/-- `io/sift_binary_file.cc:94-95`: a byte as a float, divided by 255.  Some releases of Eigen multiply
by the inverse, itself rounded, instead. -/
def dequantize (inverse : Bool) (b : Byte) : ℚ :=
  if inverse then roundFloat ((b.val : ℚ) * roundFloat (1 / 255))
  else roundFloat ((b.val : ℚ) / 255)

/-- `io/sift_binary_file.cc:136-141`: the entries of a descriptor. -/
def quantizeAll : List ℚ → Outcome (List Byte)
  | [] => .ok []
  | v :: vs => do
    let b ← quantize v
    let bs ← quantizeAll vs
    pure (b :: bs)

/-- `io/sift_binary_file.cc:128-141`: what is written for one feature: row, column, scale and
orientation as floats, then the entries of the descriptor, however many there are. -/
def siftFeature {D : Type} (little : Bool) (c : Doubles D) (k : Keypoint D) (v : List ℚ) :
    Outcome (List Byte) := do
  let bytes ← quantizeAll v
  pure (mem little 4 (c.toFloat k.y).toNat ++ mem little 4 (c.toFloat k.x).toNat ++
    mem little 4 (c.toFloat k.scale).toNat ++ mem little 4 (c.toFloat k.orientation).toNat ++ bytes)

/-- `io/sift_binary_file.cc:127-142`: the loop over the features. -/
def siftFeatures {D : Type} (little : Bool) (c : Doubles D) :
    List (Keypoint D × List ℚ) → Outcome (List Byte)
  | [] => .ok []
  | f :: fs => do
    let b ← siftFeature little c f.1 f.2
    let bs ← siftFeatures little c fs
    pure (b ++ bs)

/-- `io/sift_binary_file.cc:105-145` (`WriteSiftKeyBinaryFile`).  The number of features is kept in
an `int`, which also bounds the loop. -/
def writeSift {D : Type} (little : Bool) (c : Doubles D) (descriptors : List (List ℚ))
    (keypoints : List (Keypoint D)) : Outcome (List Byte) := do
  Outcome.check (decide (descriptors.length = keypoints.length))
  let num := BitVec.ofNat 32 descriptors.length
  let body ← siftFeatures little c ((keypoints.zip descriptors).take num.toInt.toNat)
  pure (mem little 4 num.toNat ++ mem little 4 128 ++ body)

/-- `std::istream::read` of `k` bytes.  When the file is too short, the variables it should have
filled are used uninitialised. -/
def rawRead (k : Nat) : Loader (List Byte) := fun bs =>
  if bs.length < k then .ub else .ok (bs.take k, bs.drop k)

/-- `io/sift_binary_file.cc:80-97`: reads one feature. -/
def loadSiftFeature {D : Type} (little : Bool) (c : Doubles D) :
    Loader (Keypoint D × List ℚ) := do
  let y ← rawRead 4
  let x ← rawRead 4
  let scale ← rawRead 4
  let orientation ← rawRead 4
  let bytes ← rawRead 128
  let value := fun w => c.toDouble (BitVec.ofNat 32 (unmem little w))
  pure (⟨value x, value y, sift, c.invalid, value scale, value orientation⟩,
    bytes.map (dequantize c.inverse))

/-- `io/sift_binary_file.cc:71-98`: what is read.  Reserving a negative number of entries throws an
exception. -/
def loadSift {D : Type} (little : Bool) (c : Doubles D) : Loader (List (Keypoint D × List ℚ)) := do
  let num ← rawRead 4
  let len ← rawRead 4
  let num := BitVec.ofNat 32 (unmem little num)
  if unmem little len ≠ 128 then Loader.fail .abort
  else if num.toInt < 0 then Loader.fail .abort
  else loadMany (loadSiftFeature little c) num.toInt.toNat

/-- `io/sift_binary_file.cc:58-101` (`ReadSiftKeyBinaryFile`): the descriptors and the keypoints.
What follows in the file is not looked at. -/
def readSift {D : Type} (little : Bool) (c : Doubles D) (file : List Byte) :
    Outcome (List (List ℚ) × List (Keypoint D)) :=
  match loadSift little c file with
  | .ok (features, _) => .ok (features.map Prod.snd, features.map Prod.fst)
  | .abort => .abort
  | .ub => .ub

end Theia.FeatureFile
