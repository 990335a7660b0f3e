import Mathlib.Algebra.Order.Floor.Ring
import Verif.Base.RotationMatrix
import Verif.Model.Reconstruction
import Verif.Model.TwoViewInfo
import Verif.Model.LinearPosition

/-!
# Reading a 1DSfM dataset

Models src/theia/io/read_1dsfm.cc over the reals. A file is given by the values in it; `none` is a file that cannot be
opened. Not modelled: how characters become numbers (a file whose text does not have the expected shape), the overflow of
`int` and `uint32_t`, the rounding of `float` and `double`, and a last line of coords.txt that lacks its newline, which the
code drops (lines 214-216). `GetFilenameFromFilepath` (util/filesystem.cc) is the parameter `base`, with `none` for failure;
`ceres::RotationMatrixToAngleAxis` is the parameter `ofM`.

The loops over cc.txt and EGs.txt run while the end of the file has not been met. If the file ends in a newline they run
once more than there are records, and that last round uses variables that were never assigned. What these happen to hold is
the component `stale`; it is `none` if the file does not end in white space.
-/

namespace Theia
namespace OneDSfM

/-- The red, green and blue bytes of a colour. -/
abbrev Colour := Nat × Nat × Nat

/-- A line of list.txt: a path and the focal length, 0 if it is not given (lines 120-136). -/
structure Entry where
  path : String
  focal : ℝ

/-- A line of a key in coords.txt (lines 237-246). -/
structure Key where
  point : ℝ × ℝ
  colour : Colour

/-- A header line of coords.txt (lines 172-181) and the keys that follow it. The name and the focal length of the header
are not used. -/
structure Block where
  index : ViewId
  px : ℝ
  py : ℝ
  keys : List Key

/-- A record of EGs.txt (lines 320-346). -/
structure Record where
  view1 : ViewId
  view2 : ViewId
  rotation : M3 ℝ
  position : V3 ℝ

/-- The files of a dataset. A track is a list of views and positions in their lists of keys. -/
structure Files where
  cc : Option (List Int)
  staleIndex : Option Int
  list : Option (List Entry)
  coords : Option (List Block)
  tracks : Option (List (List (ViewId × Nat)))
  egs : Option (List Record)
  staleRecord : Option Record

/-- The parts of `CameraIntrinsicsPrior` that are set here (camera_intrinsics_prior.h:47-100): the image size, the focal
length and the principal point; `none` is a prior that is not set. -/
structure Prior where
  width : Int
  height : Int
  focal : Option ℝ
  principal : Option (ℝ × ℝ)

/-- The default constructor. -/
def Prior.unset : Prior := ⟨0, 0, none, none⟩

/-- The reconstruction, the priors of its views and the view graph. The payload of a track is its colour. -/
structure State where
  recon : Reconstruction (ℝ × ℝ) Colour
  priors : AMap ViewId Prior
  graph : ViewGraph TwoView.Info

/-- The prior of a view. -/
def State.prior (s : State) (v : ViewId) : Prior := (s.priors.get v).getD .unset

/-- An empty reconstruction and an empty graph. -/
def start : State := ⟨.empty, .empty, .empty⟩

/-- The conversion to `int`, which truncates towards zero. -/
noncomputable def trunc (x : ℝ) : Int := if 0 ≤ x then ⌊x⌋ else ⌈x⌉

/-- `ReadCC` (lines 95-111). -/
def readCC (indices : List Int) (stale : Option Int) : List Int := indices ++ stale.toList

open Classical in
/-- `ReadListsFile` (lines 115-165). -/
noncomputable def readLists (base : String → Option String) (valid : List Int) : List Entry → State → Outcome State
  | [], s => .ok s
  | e :: es, s =>
    match base e.path with
    | none => .abort
    | some name => do
      let added ← s.recon.addView name
      match added.1 with
      | none => .abort
      | some v =>
        if (v : Int) ∈ valid then
          readLists base valid es
            { s with
              recon := added.2
              priors := s.priors.insert v (if e.focal ≠ 0 then { Prior.unset with focal := some e.focal } else .unset) }
        else do
          let removed ← added.2.removeView v
          readLists base valid es { s with recon := removed.2 }

/-- `ReadCoordsHeaderLine` (lines 167-198) for a view that exists. -/
noncomputable def header (b : Block) (p : Prior) : Prior :=
  { p with
    width := trunc (b.px * 2)
    height := trunc (b.py * 2)
    principal := some (b.px, b.py) }

/-- `ReadCoords` (lines 202-251); `keys` stands for `feature_coordinates_` and `feature_colors_`. -/
noncomputable def readCoords : List Block → State → AMap ViewId (List Key) → State × AMap ViewId (List Key)
  | [], s, keys => (s, keys)
  | b :: bs, s, keys =>
    if s.recon.views.contains b.index then
      readCoords bs { s with priors := s.priors.insert b.index (header b (s.prior b.index)) }
        (keys.insert b.index ((keys.get b.index).getD [] ++ b.keys))
    else readCoords bs s keys

/-- The loop over the features of a track (lines 276-289): `FindOrDie` for the view, `operator[]` for the key. -/
def observe (keys : AMap ViewId (List Key)) : List (ViewId × Nat) → Outcome (List (ViewId × Key))
  | [] => .ok []
  | (v, k) :: rest =>
    match keys.get v with
    | none => .abort
    | some l =>
      match l[k]? with
      | none => .ub
      | some key => do
        let others ← observe keys rest
        .ok ((v, key) :: others)

/-- The mean of bytes, truncated (lines 288 and 295-297). -/
def mean (bytes : List Nat) : Nat := bytes.sum / bytes.length

/-- The colour of a track (lines 275, 288, 295-297). -/
def meanColour (cs : List Colour) : Colour := (mean (cs.map (·.1)), mean (cs.map (·.2.1)), mean (cs.map (·.2.2)))

/-- `ReadTracks` (lines 253-301). The colour, which the code sets after the track has been added, is passed along. -/
def readTracks (keys : AMap ViewId (List Key)) : List (List (ViewId × Nat)) → State → Outcome State
  | [], s => .ok s
  | t :: ts, s => do
    let obs ← observe keys t
    let added ← s.recon.addTrack (meanColour (obs.map (·.2.colour))) (obs.map fun o => (o.1, o.2.point))
    match added.1 with
    | none => .abort
    | some _ => readTracks keys ts { s with recon := added.2 }

/-- `bundler_to_theia` (lines 313-314). -/
def flip : M3 ℝ := ⟨⟨1, 0, 0⟩, ⟨0, -1, 0⟩, ⟨0, 0, -1⟩⟩

/-- The focal length of a view (lines 357-367). The value of a principal point that is not set is 0. -/
noncomputable def focalOf (p : Prior) : ℝ :=
  match p.focal with
  | some f => f
  | none => 1.2 * (match p.principal with | some c => c.1 | none => 0)

/-- `FindCommonTracksInViews` for two views that exist (find_common_tracks_in_views.cc:58-86). -/
def commonTracks (V1 V2 : View (ℝ × ℝ)) : List TrackId :=
  CommonTracks.setIntersection (V1.trackIds.insertionSort (· ≤ ·)) (V2.trackIds.insertionSort (· ≤ ·))

/-- The geometry of a pair (lines 316-378). `num_homography_inliers` keeps its initial value (twoview_info.h:57-63). -/
noncomputable def infoOf (ofM : M3 ℝ → V3 ℝ) (s : State) (r : Record) (V1 V2 : View (ℝ × ℝ)) : TwoView.Info where
  focal1 := focalOf (s.prior r.view1)
  focal2 := focalOf (s.prior r.view2)
  position := flip.mulVec r.position
  rotation := ofM ((flip.mul r.rotation.transpose).mul flip)
  verified := (commonTracks V1 V2).length
  homography := 0
  visibility := (commonTracks V1 V2).length

/-- `ReadEGs` (lines 304-388). The views are dereferenced (lines 353-356) before they are compared to null (lines
381-382). -/
noncomputable def readEGs (ofM : M3 ℝ → V3 ℝ) : List Record → State → Outcome State
  | [], s => .ok s
  | r :: rs, s =>
    match s.recon.view r.view1, s.recon.view r.view2 with
    | some V1, some V2 => readEGs ofM rs { s with graph := s.graph.addEdge r.view1 r.view2 (infoOf ofM s r V1 V2) }
    | _, _ => .ub

/-- `Read1DSFM` (lines 390-430). -/
noncomputable def read (base : String → Option String) (ofM : M3 ℝ → V3 ℝ) (d : Files) (s : State) :
    Outcome (Bool × State) :=
  match d.cc with
  | none => .ok (false, s)
  | some indices =>
    match d.list with
    | none => .ok (false, s)
    | some entries => do
      let s ← readLists base (readCC indices d.staleIndex) entries s
      match d.coords with
      | none => .ok (false, s)
      | some blocks =>
        let c := readCoords blocks s .empty
        match d.tracks with
        | none => .ok (false, c.1)
        | some tracks => do
          let s ← readTracks c.2 tracks c.1
          match d.egs with
          | none => .ok (false, s)
          | some records => do
            let s ← readEGs ofM (records ++ d.staleRecord.toList) s
            .ok (true, s)

end OneDSfM
end Theia
