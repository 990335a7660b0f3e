import Verif.Model.OneDSfM
import Verif.Spec.ViewGraph

/-!
# What a 1DSfM dataset says
-/

namespace Theia.Spec
namespace OneD

open OneDSfM

/-- The image at position `v` of the list belongs to the component: cc.txt lists it, or the value left in the unassigned
variable happens to be `v`. -/
def InComponent (d : Files) (v : Nat) : Prop :=
  (∃ indices, d.cc = some indices ∧ (v : Int) ∈ indices) ∨ d.staleIndex = some (v : Int)

/-- The keys listed for a view. -/
def keysOf (blocks : List Block) (v : Nat) : List Key := (blocks.filter fun b => b.index = v).flatMap (·.keys)

/-- How many tracks are listed with both views. -/
def sharedTracks (tracks : List (List (ViewId × Nat))) (a b : Nat) : Nat :=
  ((List.range tracks.length).filter fun i =>
    ∃ t ∈ tracks[i]?, (∃ k ∈ t, k.1 = a) ∧ (∃ k ∈ t, k.1 = b)).length

/-- A point in the camera frame of Bundler (y up, looking along -z) in the camera frame of Theia (y down, looking along
z). -/
def toTheia (p : V3 ℝ) : V3 ℝ := ⟨p.x, -p.y, -p.z⟩

/-- A record says that a point `p2` of the second Bundler camera is the point `R p2 + t` of the first. A pair of Theia says
that a point `x1` of the first camera is `rotation (x1 - position)` in the second. They describe the same two cameras. -/
def SameCameras (R : M3 ℝ) (t : V3 ℝ) (rotation : M3 ℝ) (position : V3 ℝ) : Prop :=
  ∀ p1 p2 : V3 ℝ, p1 = (R.mulVec p2).add t ↔ toTheia p2 = rotation.mulVec ((toTheia p1).sub position)

/-- The focal length a view is given: from the list unless it is 0, otherwise 1.2 times the principal point of the last
block of the view, otherwise 0. -/
noncomputable def focalFor (e : Entry) (blocks : List Block) (v : Nat) : ℝ :=
  if e.focal ≠ 0 then e.focal
  else match (blocks.filter fun b => b.index = v).getLast? with
    | some b => 1.2 * b.px
    | none => 0

/-- A dataset that can be read. -/
structure WellFormed (base : String → Option String) (d : Files) (entries : List Entry) (blocks : List Block)
    (tracks : List (List (ViewId × Nat))) (records : List Record) : Prop where
  ccFile : ∃ indices, d.cc = some indices
  listFile : d.list = some entries
  coordsFile : d.coords = some blocks
  tracksFile : d.tracks = some tracks
  egsFile : d.egs = some records
  /-- Every path has a file name. -/
  named : ∀ e ∈ entries, ∃ n, base e.path = some n ∧ n ≠ ""
  /-- No image has the file name of an earlier image of the component. -/
  distinct : ∀ i j a b, i < j → InComponent d i → entries[i]? = some a → entries[j]? = some b → base a.path ≠ base b.path
  /-- Tracks have two or more views, all different. -/
  two : ∀ t ∈ tracks, 2 ≤ t.length ∧ (t.map (·.1)).Nodup
  /-- Tracks refer to listed keys of images of the component. -/
  refers : ∀ t ∈ tracks, ∀ o ∈ t, o.1 < entries.length ∧ InComponent d o.1 ∧ o.2 < (keysOf blocks o.1).length
  /-- Pairs, including what is left in the unassigned variables, refer to images of the component. -/
  pairs : ∀ r ∈ records ++ d.staleRecord.toList, (r.view1 < entries.length ∧ InComponent d r.view1) ∧
    (r.view2 < entries.length ∧ InComponent d r.view2)

end OneD
end Theia.Spec
