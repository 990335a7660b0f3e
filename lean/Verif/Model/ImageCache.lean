import Verif.Model.LRUCache

/-!
# The cache of images

Models `src/theia/image/image_cache.cc` on top of the cache of `Verif.Model.LRUCache`. The disk can be another one at
every call. What reading an existing file gives is an arbitrary value: an empty image, if the file is not an image. The
mutex of the cache makes a call one step.
-/

namespace Theia
namespace ImageCache

/-- The files at the time of a call, with what reading them gives (image_cache.cc:70-74). -/
abbrev Disk (I : Type) := List Char → Option I

/-- The members (image_cache.h:78-82). -/
structure State (I : Type) where
  directory : List Char
  images : LRU (List Char) I

variable {I : Type}

/-- `AppendTrailingSlashIfNeeded` (util/string.h:42-46): an empty string has no last character. -/
def appendSlash (directory : List Char) : Outcome (List Char) :=
  match directory.getLast? with
  | none => .ub
  | some c => .ok (if c = '/' then directory else directory ++ ['/'])

/-- The constructor (image_cache.cc:47-58). -/
def create (directory : List Char) (max : Nat) : Outcome (State I) := do
  let directory ← appendSlash directory
  let images ← LRU.create max
  .ok ⟨directory, images⟩

/-- `FetchImage` with `FetchImagesFromDisk` (image_cache.cc:62-75): the image, the files read, and the new cache. The
function that reads is called only for a name that is not in the cache. -/
def fetchImage (disk : Disk I) (c : State I) (name : List Char) : Outcome (I × List (List Char) × State I) :=
  match c.images.map.get name with
  | some image => do
    let r ← c.images.fetch (fun _ => image) name
    .ok (r.1, r.2.1.map (c.directory ++ ·), { c with images := r.2.2 })
  | none =>
    match disk (c.directory ++ name) with
    | none => .abort
    | some image => do
      let r ← c.images.fetch (fun _ => image) name
      .ok (r.1, r.2.1.map (c.directory ++ ·), { c with images := r.2.2 })

/-- Calls one after the other, each with the disk at its time (image_cache.cc:62-75). -/
def run : List (Disk I × List Char) → State I → Outcome (List (I × List (List Char)) × State I)
  | [], c => .ok ([], c)
  | (disk, name) :: calls, c => do
    let r ← fetchImage disk c name
    let rs ← run calls r.2.2
    .ok ((r.1, r.2.1) :: rs.1, rs.2)

end ImageCache
end Theia
