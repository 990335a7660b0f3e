import Verif.Model.Colorize

/-! # The colours a reconstruction should get -/

namespace Theia.Spec

open Theia.Colorize

/-- Every view has an image with three channels in the directory, no larger than an `int` can say,
which contains all features of the view. -/
def HasImages {P : Type} (files : String → Option Image) (directory : String)
    (r : Reconstruction (ℚ × ℚ) P) : Prop :=
  ∀ v V, r.view v = some V → ∃ image, files (directory ++ V.name) = some image ∧
    image.channels = 3 ∧ image.width < 2 ^ 31 ∧ image.height < 2 ^ 31 ∧
    ∀ t f, V.getFeature t = some f → 0 ≤ f.1 ∧ f.1 < image.width ∧ 0 ≤ f.2 ∧ f.2 < image.height

/-- The colours, times 255, of the pixels in which the views `vs` see a track. -/
def SeenColors {P : Type} (files : String → Option Image) (directory : String)
    (r : Reconstruction (ℚ × ℚ) P) (t : TrackId) (vs : List ViewId) (cs : List (Rgb ℚ)) : Prop :=
  List.Forall₂ (fun v c => ∃ V f image, r.view v = some V ∧ V.getFeature t = some f ∧
    files (directory ++ V.name) = some image ∧
    ∀ i, c i = 255 * image.pixel ⌊f.1⌋₊ ⌊f.2⌋₊ i) vs cs

/-- The bytes of those pixels in images of 8 bits per channel.  `bytes` says what the images
contain. -/
def SeenBytes {P : Type} (bytes : String → Nat → Nat → Rgb Byte)
    (r : Reconstruction (ℚ × ℚ) P) (t : TrackId) (vs : List ViewId) (cs : List (Rgb Nat)) : Prop :=
  List.Forall₂ (fun v c => ∃ V f, r.view v = some V ∧ V.getFeature t = some f ∧
    ∀ i, c i = (bytes V.name ⌊f.1⌋₊ ⌊f.2⌋₊ i).val) vs cs

/-- The value of a pixel is the float nearest to its byte over 255. -/
def EightBit (files : String → Option Image) (directory : String)
    (bytes : String → Nat → Nat → Rgb Byte) : Prop :=
  ∀ name image, files (directory ++ name) = some image → ∀ x y i,
    image.pixel x y i = roundFloat (((bytes name x y i).val : ℚ) / 255)

/-- A schedule of the threads that extract the colours. -/
def IsSchedule {P : Type} (m : Machine) (files : String → Option Image) (directory : String)
    (r : Reconstruction (ℚ × ℚ) P) (schedule : List Nat) : Prop :=
  ∃ pending, tasks m files directory r r.viewIds = .ok pending ∧
    (interleave schedule pending).isSome

end Theia.Spec
