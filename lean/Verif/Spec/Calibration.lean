import Verif.Model.Calibration

/-!
# What calibration files keep
-/

namespace Theia.Spec

open Calibration Json

/-- No quotes, backslashes or control characters. -/
def PlainText (s : List Char) : Prop := ∀ c ∈ s, c ≠ '"' ∧ c ≠ '\\' ∧ 32 ≤ c.toNat

/-- Printed doubles are JSON numbers, which have the value `rnd`, in whatever follows that does not continue the number. -/
def Prints (fmt : ℚ → List Char) (rnd : ℚ → ℚ) : Prop :=
  ∀ v, ∃ n, n.value = rnd v ∧ (n.isInt = true ∨ n.isDouble = true) ∧
    (∀ c ∈ fmt v, c.toNat ≠ 0) ∧ ∀ c rest, c ∈ [',', '\n', ']'] → number (fmt v ++ c :: rest) = some (n, c :: rest)

/-- Rounding to six significant digits. -/
def SixDigits (rnd : ℚ → ℚ) : Prop :=
  ∀ v, (∃ m e : Int, |m| ≤ 10 ^ 6 ∧ rnd v = m * (10 : ℚ) ^ e) ∧ |rnd v - v| ≤ |v| * (5 / 10 ^ 6)

/-- A prior as it is stored: values that are not set are lost. -/
def storedPrior {N : Nat} (rnd : ℚ → ℚ) (p : Prior N) : Prior N := ⟨p.isSet, fun i => if p.isSet then rnd (p.value i) else 0⟩

/-- The priors of a camera as they are stored. -/
def storedCamera (rnd : ℚ → ℚ) (p : CameraPrior) : CameraPrior :=
  { width := p.width
    height := p.height
    modelType := p.modelType
    focalLength := storedPrior rnd p.focalLength
    principalPoint := storedPrior rnd p.principalPoint
    aspectRatio := storedPrior rnd p.aspectRatio
    skew := storedPrior rnd p.skew
    radialDistortion := storedPrior rnd p.radialDistortion
    tangentialDistortion := storedPrior rnd p.tangentialDistortion
    position := storedPrior rnd p.position
    orientation := storedPrior rnd p.orientation
    latitude := storedPrior rnd p.latitude
    longitude := storedPrior rnd p.longitude
    altitude := storedPrior rnd p.altitude }

/-- The image size is of type `int`, the type of the camera is known, and twice the principal point is in the range of
`int`. -/
structure WritablePrior (rnd : ℚ → ℚ) (p : CameraPrior) : Prop where
  width : -(2 ^ 31) ≤ p.width ∧ p.width < 2 ^ 31
  height : -(2 ^ 31) ≤ p.height ∧ p.height < 2 ^ 31
  modelType : p.modelType ∈ [chars! "PINHOLE", chars! "PINHOLE_RADIAL_TANGENTIAL", chars! "FISHEYE", chars! "FOV",
    chars! "DIVISION_UNDISTORTION"]
  point : p.principalPoint.isSet = true → ∀ i, |2 * rnd (p.principalPoint.value i)| < 2 ^ 31

end Theia.Spec
