import Verif.Model.ImageCache
import Verif.Spec.LRUCache

/-!
# What a cache of images should do

In terms of the names used so far, oldest first, with the images they had.
-/

namespace Theia
namespace Spec.Images

open ImageCache

variable {I : Type}

/-- A name among the `m` names used last gives the image it gave the last time, without reading a file. Any other name
gives the image that is now in its file, and reads this file once; without the file the program ends (`none`). -/
def served (m : Nat) (directory : List Char) : List (List Char × I) → List (Disk I × List Char) →
    Option (List (I × List (List Char)))
  | _, [] => some []
  | uses, (disk, name) :: calls =>
    if name ∈ recent m uses then
      match lastValue uses name with
      | none => none
      | some image => (served m directory (uses ++ [(name, image)]) calls).map ((image, []) :: ·)
    else
      match disk (directory ++ name) with
      | none => none
      | some image => (served m directory (uses ++ [(name, image)]) calls).map ((image, [directory ++ name]) :: ·)

/-- The directory with a slash at its end. -/
def slashed (directory : List Char) : List Char := if directory.getLast? = some '/' then directory else directory ++ ['/']

end Spec.Images
end Theia
