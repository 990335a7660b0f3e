import Verif.Model.SiftText

/-!
# The text format of SIFT features
-/

namespace Theia
namespace Spec.SiftFile

open SiftText

/-- A feature: a keypoint and 128 bytes. -/
structure Feature where
  kp : Kp
  bytes : List Nat

/-- There are 128 numbers below 256. -/
def Feature.Valid (f : Feature) : Prop := f.bytes.length = 128 ∧ ∀ b ∈ f.bytes, b < 256

/-- The feature with each number reduced modulo 256. -/
def Feature.reduced (f : Feature) : Feature := { f with bytes := f.bytes.map (· % 256) }

/-- A line of integers. -/
def intLine (bs : List Nat) : List Word := bs.map fun b : Nat => .int b

/-- Row, column, scale and orientation, then six lines of twenty numbers and one of eight. -/
def block (f : Feature) : File :=
  [[.frac f.kp.y, .frac f.kp.x, .frac f.kp.scale, .frac f.kp.orientation],
   intLine (f.bytes.take 20), intLine ((f.bytes.drop 20).take 20), intLine ((f.bytes.drop 40).take 20),
   intLine ((f.bytes.drop 60).take 20), intLine ((f.bytes.drop 80).take 20), intLine ((f.bytes.drop 100).take 20),
   intLine (f.bytes.drop 120)]

/-- The file: the number of features and of dimensions, then the features. -/
def fileOf (fs : List Feature) : File := [.int fs.length, .int 128] :: fs.flatMap block

/-- What reading it should give: the keypoints and the bytes divided by 255. -/
def contents (fs : List Feature) : Out :=
  ⟨fs.map (·.kp), fs.map fun f => f.bytes.map fun b : Nat => (b : ℚ) / 255⟩

end Spec.SiftFile
end Theia
