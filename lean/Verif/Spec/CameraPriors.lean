import Verif.Model.CameraPriors

/-!
# Specification of camera parameters by name
-/

namespace Theia
namespace Spec

open CameraPriors

/-- The parameters of a camera by name. A model uses some of them. -/
structure Lens (K : Type) where
  focal : K
  aspect : K
  skew : K
  px : K
  py : K
  r1 : K
  r2 : K
  r3 : K
  r4 : K
  t1 : K
  t2 : K

variable {K : Type}

/-- The parameters a model uses, in the order in which it stores them. -/
def layout (t : ModelType) (l : Lens K) : List K :=
  match t with
  | .pinhole => [l.focal, l.aspect, l.skew, l.px, l.py, l.r1, l.r2]
  | .pinholeRadialTangential => [l.focal, l.aspect, l.skew, l.px, l.py, l.r1, l.r2, l.r3, l.t1, l.t2]
  | .fisheye => [l.focal, l.aspect, l.skew, l.px, l.py, l.r1, l.r2, l.r3, l.r4]
  | .fov => [l.focal, l.aspect, l.px, l.py, l.r1]
  | .division => [l.focal, l.aspect, l.px, l.py, l.r1]
  | .invalid => []

/-- The image size of a prior is known. -/
def SizeKnown (p : IntrinsicsPrior K) : Prop := p.width ≠ 0 ∧ p.height ≠ 0

instance (p : IntrinsicsPrior K) : Decidable (SizeKnown p) := inferInstanceAs (Decidable (_ ∧ _))

variable [Field K] [LinearOrder K]

/-- The focal length guessed from the image size: a factor times the larger side. -/
def guessedFocal (t : ModelType) (p : IntrinsicsPrior K) : K :=
  (if t = .fisheye then 2 / 5 else 6 / 5) * (max p.width p.height : Int)

/-- What the parameters should be after a prior was applied: the value of the prior if it is set; else, for the focal
length and the principal point, a guess from the image size if it is known; else the old value, but the default
distortion for the models with one distortion parameter. -/
def withPrior (t : ModelType) (p : IntrinsicsPrior K) (l : Lens K) : Lens K where
  focal := if p.focal.isSet then p.focal.value else if SizeKnown p then guessedFocal t p else l.focal
  aspect := if p.aspect.isSet then p.aspect.value else l.aspect
  skew := if p.skew.isSet then p.skew.value else l.skew
  px := if p.principal.isSet then p.principal.value.1 else if SizeKnown p then p.width / 2 else l.px
  py := if p.principal.isSet then p.principal.value.2 else if SizeKnown p then p.height / 2 else l.py
  r1 := if p.radial.isSet then p.radial.value.1 else if t = .fov then 3 / 4 else if t = .division then 0 else l.r1
  r2 := if p.radial.isSet then p.radial.value.2.1 else l.r2
  r3 := if p.radial.isSet then p.radial.value.2.2.1 else l.r3
  r4 := if p.radial.isSet then p.radial.value.2.2.2 else l.r4
  t1 := if p.tangential.isSet then p.tangential.value.1 else l.t1
  t2 := if p.tangential.isSet then p.tangential.value.2 else l.t2

/-- The prior gives a focal length that is not positive, directly or by a guess. -/
def BadFocal (t : ModelType) (p : IntrinsicsPrior K) : Prop :=
  (p.focal.isSet = true ∧ p.focal.value ≤ 0) ∨ (p.focal.isSet = false ∧ SizeKnown p ∧ guessedFocal t p ≤ 0)

/-- The kinds of parameters that can be chosen for optimisation. -/
inductive Kind where
  | focal
  | aspect
  | skew
  | principal
  | radial
  | tangential
  deriving DecidableEq

/-- The bit that chooses a kind. -/
def Kind.bit : Kind → Nat
  | .focal => 0
  | .aspect => 1
  | .skew => 2
  | .principal => 3
  | .radial => 4
  | .tangential => 5

/-- The kinds of the parameters of a model, in order of storage. -/
def kinds : ModelType → List Kind
  | .pinhole => [.focal, .aspect, .skew, .principal, .principal, .radial, .radial]
  | .pinholeRadialTangential =>
    [.focal, .aspect, .skew, .principal, .principal, .radial, .radial, .radial, .tangential, .tangential]
  | .fisheye => [.focal, .aspect, .skew, .principal, .principal, .radial, .radial, .radial, .radial]
  | .fov => [.focal, .aspect, .principal, .principal, .radial]
  | .division => [.focal, .aspect, .principal, .principal, .radial]
  | .invalid => []

end Spec
end Theia

namespace Theia
namespace Spec

open CameraPriors

variable {K : Type}

/-- The tokens of a prior of one number. -/
def tokPrior (p : Prior K) : List (Tok K) := [.bool p.isSet, .dbl p.value]

/-- The tokens of a prior of two numbers. -/
def tokPrior2 (p : Prior (K × K)) : List (Tok K) := [.bool p.isSet, .dbl p.value.1, .dbl p.value.2]

/-- The tokens of a prior of three numbers. -/
def tokPrior3 (p : Prior (K × K × K)) : List (Tok K) :=
  [.bool p.isSet, .dbl p.value.1, .dbl p.value.2.1, .dbl p.value.2.2]

/-- The tokens of a prior of four numbers. -/
def tokPrior4 (p : Prior (K × K × K × K)) : List (Tok K) :=
  [.bool p.isSet, .dbl p.value.1, .dbl p.value.2.1, .dbl p.value.2.2.1, .dbl p.value.2.2.2]

/-- The position, orientation and location of a prior, as all versions from 2 on store them. -/
def tokPose (p : IntrinsicsPrior K) : List (Tok K) :=
  tokPrior3 p.position ++ tokPrior3 p.orientation ++ tokPrior p.latitude ++ tokPrior p.longitude ++ tokPrior p.altitude

/-- What an archive of version 4 holds. -/
def archive4 (p : IntrinsicsPrior K) : List (Tok K) :=
  [.int p.width, .int p.height, .str p.modelType] ++ tokPrior p.focal ++ tokPrior2 p.principal ++ tokPrior p.aspect ++
    tokPrior p.skew ++ tokPrior4 p.radial ++ tokPrior2 p.tangential ++ tokPose p

/-- What an archive of version 3 holds. -/
def archive3 (p : IntrinsicsPrior K) : List (Tok K) :=
  [.int p.width, .int p.height, .str p.modelType] ++ tokPrior p.focal ++ tokPrior p.aspect ++ tokPrior p.skew ++
    tokPrior4 p.radial ++ tokPrior2 p.tangential ++ tokPose p

/-- What an archive of version 2 holds. -/
def archive2 (p : IntrinsicsPrior K) : List (Tok K) :=
  [.int p.width, .int p.height] ++ tokPrior p.focal ++ tokPrior p.aspect ++ tokPrior p.skew ++
    tokPrior2 ⟨p.radial.isSet, (p.radial.value.1, p.radial.value.2.1)⟩ ++ tokPrior2 p.tangential ++ tokPose p

/-- What an archive of version 0 holds: the two coordinates of the principal point and the two distortion parameters are
separate priors. -/
def archive0 (p : IntrinsicsPrior K) : List (Tok K) :=
  tokPrior p.focal ++ tokPrior ⟨p.principal.isSet, p.principal.value.1⟩ ++
    tokPrior ⟨p.principal.isSet, p.principal.value.2⟩ ++ tokPrior p.aspect ++ tokPrior p.skew ++
    tokPrior ⟨p.radial.isSet, p.radial.value.1⟩ ++ tokPrior ⟨p.radial.isSet, p.radial.value.2.1⟩

/-- What an archive of version 1 holds. -/
def archive1 (p : IntrinsicsPrior K) : List (Tok K) := [.int p.width, .int p.height] ++ archive0 p

end Spec
end Theia
