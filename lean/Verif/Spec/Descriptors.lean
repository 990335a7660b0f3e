import Verif.Model.Descriptors

/-!
# What the descriptor extractors should return

Written over VLFeat's functions on one image: nothing here has a state that survives an image.
-/

namespace Theia
namespace Spec
namespace Descr

open Theia.Desc

variable {P G D : Type}

/-- The size, levels and first octave used for an image. -/
def siftGeo (p : Params) (img : Img P) : Geo :=
  ⟨img.width, img.height, p.numLevels, validFirstOctave p.firstOctave img.height img.width⟩

/-- The number of octaves used for an image: the one asked for, or as many as fit. -/
def siftOctaves (p : Params) (img : Img P) : Int :=
  if 0 ≤ p.numOctaves then p.numOctaves
  else if img.width = 0 ∨ img.height = 0 then 1
  else max ((Nat.log2 (min img.width img.height) : Int) - (siftGeo p img).oMin - 3) 1

/-- The extremum passes the thresholds. -/
def Accepted (edge peak : ℚ) (c : Cand) : Prop :=
  4 / 5 * peak ≤ c.extremum ∧ peak < c.value ∧ (edge ≠ 0 → c.score < (edge + 1) ^ 2 / edge) ∧ 0 ≤ c.score ∧
    c.other = true

instance (edge peak : ℚ) (c : Cand) : Decidable (Accepted edge peak c) := by
  unfold Accepted; exact inferInstance

/-- The keypoints of an octave of an image, under the parameters of the extractor. -/
def found (vl : VL P G D) (p : Params) (img : Img P) (o : Int) : List VK :=
  ((vl.candidates (siftGeo p img) img.pixels o).filter (fun c => decide (Accepted p.edge p.peak c))).map
    (fun c => ⟨o, c.x, c.y, c.sigma⟩)

/-- Some keypoint of the octave is far enough from the border for an orientation. -/
def Active (vl : VL P G D) (p : Params) (img : Img P) (o : Int) : Prop :=
  ∃ k ∈ found vl p img o, vl.orientable (siftGeo p img) k = true

/-- The octaves `o`, `o + 1`, ..., `n` of them. -/
def octavesFrom (o : Int) : Nat → List Int
  | 0 => []
  | n + 1 => o :: octavesFrom (o + 1) n

/-- The keypoint and descriptor for an angle; no descriptor can be computed in the last row, which leaves
zeros. -/
def feature (vl : VL P G D) (zero : D) (p : Params) (img : Img P) (k : VK) (a : ℚ) : Kp × D :=
  (⟨k.x, k.y, some k.sigma, some a⟩,
   if vl.describable (siftGeo p img) k = true then
     vl.describe (siftGeo p img) (vl.gradOf (siftGeo p img) img.pixels k.o) k a
   else zero)

/-- The features of one octave: for every keypoint that has orientations, one feature per angle, or only the
first if the parameters ask for upright features. -/
def featuresOf (vl : VL P G D) (zero : D) (p : Params) (img : Img P) (o : Int) : List (Kp × D) :=
  ((found vl p img o).filter (fun k => vl.orientable (siftGeo p img) k)).flatMap (fun k =>
    ((vl.orient (siftGeo p img) (vl.gradOf (siftGeo p img) img.pixels o) k).take (if p.upright then 1 else 4)).map
      (feature vl zero p img k))

/-- The features of an image. -/
def features (vl : VL P G D) (zero : D) (p : Params) (img : Img P) : List (Kp × D) :=
  (octavesFrom (siftGeo p img).oMin (siftOctaves p img).toNat).flatMap (featuresOf vl zero p img)

/-- What the caller gets if all goes well: the features after what was in the vectors, and if the parameters
ask for it all descriptors converted; a descriptor that is not a number then ends the program. -/
def extracted (root : D → D) (hasNaN : D → Bool) (p : Params) (out : Out D) (fs : List (Kp × D)) : Outcome (Out D) :=
  if p.rootSift = true then
    (if ∃ d ∈ out.descriptors ++ fs.map (·.2), hasNaN (root d) = true then .abort
     else .ok ⟨out.keypoints ++ fs.map (·.1), (out.descriptors ++ fs.map (·.2)).map root⟩)
  else .ok ⟨out.keypoints ++ fs.map (·.1), out.descriptors ++ fs.map (·.2)⟩

/-- The first octave with a keypoint among those from `lo` up to before `hi`. -/
def FirstActive (act : Int → Prop) (lo hi o : Int) : Prop :=
  act o ∧ lo ≤ o ∧ o < hi ∧ ∀ o', lo ≤ o' → o' < o → ¬ act o'

/-- The last one. -/
def LastActive (act : Int → Prop) (lo hi o : Int) : Prop :=
  act o ∧ lo ≤ o ∧ o < hi ∧ ∀ o', o < o' → o' < hi → ¬ act o'

/-- The first octave of the image that has a keypoint. -/
def FirstOctave (vl : VL P G D) (p : Params) (img : Img P) (o : Int) : Prop :=
  FirstActive (Active vl p img) (siftGeo p img).oMin ((siftGeo p img).oMin + siftOctaves p img) o

/-- The last octave of the image that has a keypoint. -/
def LastOctave (vl : VL P G D) (p : Params) (img : Img P) (o : Int) : Prop :=
  LastActive (Active vl p img) (siftGeo p img).oMin ((siftGeo p img).oMin + siftOctaves p img) o

/-- The extractor is in state `st` after extracting the features of the images in order, with any vectors given
to the calls. -/
inductive Extracted (vl : VL P G D) (root : D → D) (hasNaN : D → Bool) (zero : D) (p : Params) :
    List (Img P) → Option (Filt P G) → Prop
  | new : Extracted vl root hasNaN zero p [] none
  | call {imgs st img out r st'} : Extracted vl root hasNaN zero p imgs st →
      detectAndExtract vl root hasNaN zero p st img out = .ok (r, st') →
      Extracted vl root hasNaN zero p (imgs ++ [img]) st'

/-- The octave of a keypoint given by the caller: that of its scale, moved into the range of octaves. -/
def octaveFor (vl : VL P G D) (p : Params) (img : Img P) (s : ℚ) : Int :=
  max (min (vl.octave (siftGeo p img) s) ((siftGeo p img).oMin + siftOctaves p img - 1)) (siftGeo p img).oMin

/-- The descriptor of a keypoint given by the caller, if its position allows one. -/
def descriptorFor (vl : VL P G D) (p : Params) (img : Img P) (x y s a : ℚ) : Option D :=
  let k : VK := ⟨octaveFor vl p img s, x, y, s⟩
  if vl.describable (siftGeo p img) k = true then
    some (vl.describe (siftGeo p img) (vl.gradOf (siftGeo p img) img.pixels k.o) k a)
  else none

/-- A descriptor as it is returned: converted to RootSIFT if the parameters ask for that. -/
def converted (root : D → D) (p : Params) (d : D) : D := if p.rootSift = true then root d else d

end Descr
end Spec
end Theia
