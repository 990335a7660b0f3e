import Mathlib.Data.List.Sort
import Mathlib.Algebra.Field.Rat
import Mathlib.Algebra.Order.Ring.Rat
import Verif.Model.Reconstruction

/-!
# Model of `SelectGoodTracksForBundleAdjustment`

`/repo/src/theia/sfm/select_good_tracks_for_bundle_adjustment.cc`. Two things are oracles: the squared
reprojection error of a track in a view (`err`), and the grid cell of a feature (`cell`, line 171; note
that the cell size on line 157 is a function-local `static`, so it is the one of the first call in the
process). Doubles are rational numbers. A mean over zero views (0/0) is `Outcome.ub`, because the
comparisons of the later `min_element` and `partial_sort` need numbers.
-/

namespace Theia
namespace SelectTracks

variable {F P C : Type}

/-- `TrackStatistics` (line 55): track length and mean squared error. -/
abbrev Stats := Nat × ℚ

/-- `GridCellElement` (line 56). -/
abbrev Element := TrackId × Stats

/-- `operator<` of `std::pair<int, double>`. -/
def statsLT (a b : Stats) : Bool := decide (a.1 < b.1) || (!decide (b.1 < a.1) && decide (a.2 < b.2))

/-- `CompareGridCellElements` (lines 62-66). -/
def compareElements (a b : Element) : Bool := statsLT a.2 b.2

/-- The default `operator<` of `std::pair<TrackId, TrackStatistics>`, used on line 240: the track id is
compared first. -/
def elementLT (a b : Element) : Bool := decide (a.1 < b.1) || (!decide (b.1 < a.1) && statsLT a.2 b.2)

/-- The loop of `ComputeStatisticsForTrack` (lines 92-100): error sum and number of views. -/
def sumErrors (r : Reconstruction F P) (err : ViewId → TrackId → ℚ) (t : TrackId) :
    List ViewId → ℚ × Nat → Outcome (ℚ × Nat)
  | [], acc => .ok acc
  | v :: vs, acc =>
    match r.view v with
    | none => sumErrors r err t vs acc
    | some V =>
      if V.estimated then
        match V.getFeature t with
        | none => .ub
        | some _ => sumErrors r err t vs (acc.1 + err v t, acc.2 + 1)
      else sumErrors r err t vs acc

/-- `ComputeStatisticsForTrack` (lines 79-108). -/
def statisticsForTrack (r : Reconstruction F P) (err : ViewId → TrackId → ℚ) (longTrack : Nat)
    (t : TrackId) : Outcome Stats :=
  match r.track t with
  | none => .ub
  | some T =>
    match sumErrors r err t T.views (0, 0) with
    | .abort => .abort
    | .ub => .ub
    | .ok (sum, n) => if n = 0 then .ub else .ok (min n longTrack, sum / n)

/-- The inner loop of `ComputeTrackStatistics` (lines 128-143). -/
def statisticsInView (r : Reconstruction F P) (err : ViewId → TrackId → ℚ) (longTrack : Nat) :
    List TrackId → AMap TrackId Stats → Outcome (AMap TrackId Stats)
  | [], m => .ok m
  | t :: ts, m =>
    if m.contains t then statisticsInView r err longTrack ts m
    else
      match r.track t with
      | none => statisticsInView r err longTrack ts m
      | some T =>
        if T.estimated then
          match statisticsForTrack r err longTrack t with
          | .abort => .abort
          | .ub => .ub
          | .ok s => statisticsInView r err longTrack ts (m.emplace t s)
        else statisticsInView r err longTrack ts m

/-- `ComputeTrackStatistics` (lines 116-145). A null view is dereferenced. -/
def trackStatistics (r : Reconstruction F P) (err : ViewId → TrackId → ℚ) (longTrack : Nat) :
    List ViewId → AMap TrackId Stats → Outcome (AMap TrackId Stats)
  | [], m => .ok m
  | v :: vs, m =>
    match r.view v with
    | none => .ub
    | some V =>
      match statisticsInView r err longTrack V.trackIds m with
      | .abort => .abort
      | .ub => .ub
      | .ok m => trackStatistics r err longTrack vs m

/-- `set.emplace`. -/
def setInsert (s : List TrackId) (t : TrackId) : List TrackId := if t ∈ s then s else s ++ [t]

/-- Filling the image grid (lines 162-175). -/
def fillGrid [DecidableEq C] (r : Reconstruction F P) (V : View F) (cell : F → C)
    (stats : AMap TrackId Stats) : List TrackId → AMap C (List Element) → Outcome (AMap C (List Element))
  | [], g => .ok g
  | t :: ts, g =>
    match r.track t with
    | none => fillGrid r V cell stats ts g
    | some T =>
      if T.estimated then
        match V.getFeature t with
        | none => .ub
        | some f =>
          match stats.get t with
          | none => .abort
          | some s => fillGrid r V cell stats ts (g.insert (cell f) ((g.get (cell f)).getD [] ++ [(t, s)]))
      else fillGrid r V cell stats ts g

/-- `std::min_element` with `CompareGridCellElements`: the first smallest element. -/
def minElement : Element → List Element → Element
  | best, [] => best
  | best, e :: es => minElement (if compareElements e best then e else best) es

/-- Picking from each cell (lines 179-189). A cell exists only with an element in it. -/
def pickCells : List (C × List Element) → List TrackId → Outcome (List TrackId)
  | [], sel => .ok sel
  | (_, []) :: _, _ => .ub
  | (_, e :: es) :: cells, sel => pickCells cells (setInsert sel (minElement e es).1)

/-- `SelectBestTracksFromEachImageGridCell` (lines 151-190). -/
def bestInCells [DecidableEq C] (r : Reconstruction F P) (V : View F) (cell : F → C)
    (stats : AMap TrackId Stats) (sel : List TrackId) : Outcome (List TrackId) :=
  match fillGrid r V cell stats V.trackIds .empty with
  | .abort => .abort
  | .ub => .ub
  | .ok g => pickCells g.entries sel

/-- What the loop of `SelectTopRankedTracksInView` ends with. -/
inductive Scan where
  | enough
  | more (optimized estimated : Nat) (candidates : List Element)

/-- The loop of `SelectTopRankedTracksInView` (lines 205-229). -/
def scan (r : Reconstruction F P) (stats : AMap TrackId Stats) (minTracks : Int) (sel : List TrackId) :
    List TrackId → Nat → Nat → List Element → Outcome Scan
  | [], o, e, cs => .ok (.more o e cs)
  | t :: ts, o, e, cs =>
    match r.track t with
    | none => scan r stats minTracks sel ts o e cs
    | some T =>
      if T.estimated then
        if t ∈ sel then
          if ((o + 1 : Nat) : Int) ≥ minTracks then .ok .enough
          else scan r stats minTracks sel ts (o + 1) (e + 1) cs
        else
          match stats.get t with
          | none => .abort
          | some s => scan r stats minTracks sel ts o (e + 1) (cs ++ [(t, s)])
      else scan r stats minTracks sel ts o e cs

/-- Lines 245-247. -/
def addFirst : Nat → List Element → List TrackId → Outcome (List TrackId)
  | 0, _, sel => .ok sel
  | _ + 1, [], _ => .ub
  | n + 1, e :: es, sel => addFirst n es (setInsert sel e.1)

/-- `std::partial_sort` puts the smallest elements first, in order; only those are read, so sorting the
whole vector has the same effect. -/
def partialSort (cs : List Element) : List Element := cs.insertionSort fun a b => !elementLT b a

/-- `SelectTopRankedTracksInView` (lines 194-249). A negative number of tracks needed makes
`partial_sort` get an iterator before the start of the vector. -/
def topRanked (r : Reconstruction F P) (stats : AMap TrackId Stats) (V : View F) (minTracks : Int)
    (sel : List TrackId) : Outcome (List TrackId) :=
  match scan r stats minTracks sel V.trackIds 0 0 [] with
  | .abort => .abort
  | .ub => .ub
  | .ok .enough => .ok sel
  | .ok (.more o e cs) =>
    if o ≠ e then
      let needed := min (minTracks - o) ((e : Int) - o)
      if needed < 0 then .ub else addFirst needed.toNat (partialSort cs) sel
    else .ok sel

/-- A loop over the views (lines 297-307 and 313-323). -/
def forViews (r : Reconstruction F P) (f : View F → List TrackId → Outcome (List TrackId)) :
    List ViewId → List TrackId → Outcome (List TrackId)
  | [], sel => .ok sel
  | v :: vs, sel =>
    match r.view v with
    | none => .ub
    | some V =>
      match f V sel with
      | .abort => .abort
      | .ub => .ub
      | .ok sel => forViews r f vs sel

/-- `SelectGoodTracksForBundleAdjustment` for given views (lines 280-326); `sel` is the content of
`*tracks_to_optimize` on entry. It always returns true. -/
def selectForViews [DecidableEq C] (r : Reconstruction F P) (err : ViewId → TrackId → ℚ) (cell : F → C)
    (longTrack : Nat) (minTracks : Int) (views : List ViewId) (sel : List TrackId) :
    Outcome (List TrackId) :=
  match trackStatistics r err longTrack views .empty with
  | .abort => .abort
  | .ub => .ub
  | .ok stats =>
    match forViews r (fun V sel => bestInCells r V cell stats sel) views sel with
    | .abort => .abort
    | .ub => .ub
    | .ok sel => forViews r (fun V sel => topRanked r stats V minTracks sel) views sel

/-- `GetEstimatedViewsFromReconstruction` (reconstruction_estimator_utils.cc:220-229). -/
def estimatedViews (r : Reconstruction F P) : List ViewId :=
  r.viewIds.filter fun v => match r.view v with
    | some V => V.estimated
    | none => false

/-- `SelectGoodTracksForBundleAdjustment` for all estimated views (lines 264-278). -/
def select [DecidableEq C] (r : Reconstruction F P) (err : ViewId → TrackId → ℚ) (cell : F → C)
    (longTrack : Nat) (minTracks : Int) (sel : List TrackId) : Outcome (List TrackId) :=
  selectForViews r err cell longTrack minTracks (estimatedViews r) sel

end SelectTracks
end Theia
