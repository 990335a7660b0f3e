import Verif.Base.Outcome
import Verif.Base.FloatRounding
import Verif.Model.Reconstruction
import Mathlib.Data.Fin.VecNotation

/-!
# Colouring a reconstruction

`sfm/colorize_reconstruction.cc`.  Features are pairs of rationals.  What a track carries is its colour
and the rest.  A machine says what an operation on floats returns and whether the checks of debug
builds are on.
-/

namespace Theia.Colorize

/-- Red, green and blue. -/
abbrev Rgb (α : Type) := Fin 3 → α

/-- A byte. -/
abbrev Byte := Fin 256

/-- The result of an operation on floats, from the exact result, and whether `DCHECK` is on. -/
structure Machine where
  fl : ℚ → ℚ
  debug : Bool

/-- `image/image.h`: an image of floats. -/
structure Image where
  width : Nat
  height : Nat
  channels : Nat
  pixel : Nat → Nat → Rgb ℚ

/-- `sfm/colorize_reconstruction.cc:67-68,75-76`: a coordinate as an `int`: its fraction is dropped.
Coordinates that do not fit are undefined. -/
def truncate (q : ℚ) : Outcome Int :=
  if -2147483649 < q ∧ q < 2147483648 then .ok (if 0 ≤ q then q.floor else q.ceil) else .ub

/-- `image/image.cc:130-138` (`FloatImage::GetXY`): the colour of a pixel.  Outside of the image the
library returns black.  An image with fewer than three channels sets only that many of the three
entries, and the others are used uninitialised. -/
def getXY (m : Machine) (image : Image) (x y : Int) : Outcome (Rgb ℚ) :=
  if 0 ≤ x ∧ x < image.width ∧ 0 ≤ y ∧ y < image.height then
    if image.channels < 3 then .ub else .ok (image.pixel x.toNat y.toNat)
  else if m.debug then .abort
  else if image.channels < 3 then .ub else .ok fun _ => 0

/-- `sfm/colorize_reconstruction.cc:66-70,74-78`: what is added for one feature. -/
def featureColor (m : Machine) (image : Image) (f : ℚ × ℚ) : Outcome (Rgb ℚ) := do
  let x ← truncate f.1
  let y ← truncate f.2
  let p ← getXY m image x y
  pure fun i => m.fl (255 * p i)

/-- `sfm/colorize_reconstruction.cc:65-71,73-79`: the loop over the tracks of a view: what is to be added
to which track. -/
def viewColors (m : Machine) (image : Image) (V : View (ℚ × ℚ)) :
    List TrackId → Outcome (List (TrackId × Rgb ℚ))
  | [] => .ok []
  | t :: ts =>
    match V.getFeature t with
    | none => .ub
    | some f => do
      let c ← featureColor m image f
      let cs ← viewColors m image V ts
      pure ((t, c) :: cs)

/-- `sfm/colorize_reconstruction.cc:55-85` (`ExtractColorsFromImage`): the additions of one image, in
the order in which its thread makes them. -/
def extractColors (m : Machine) (image : Image) (V : View (ℚ × ℚ)) :
    Outcome (List (TrackId × Rgb ℚ)) :=
  if image.channels = 3 ∨ image.channels = 1 then viewColors m image V V.trackIds else .abort

/-- `sfm/colorize_reconstruction.cc:108-119`: the loop over the views.  `files` gives the images that
exist.  The name of the view is put right behind the name of the directory. -/
def tasks {P : Type} (m : Machine) (files : String → Option Image) (directory : String)
    (r : Reconstruction (ℚ × ℚ) P) : List ViewId → Outcome (List (List (TrackId × Rgb ℚ)))
  | [] => .ok []
  | v :: vs =>
    match r.view v with
    | none => .ub
    | some V =>
      match files (directory ++ V.name) with
      | none => .abort
      | some image => do
        let a ← extractColors m image V
        let as ← tasks m files directory r vs
        pure (a :: as)

/-- The additions in the order in which the lock lets them happen: at each step the schedule says
whose turn it is.  `none` if a thread without anything left is chosen, or something is left at the
end. -/
def interleave {α : Type} : List Nat → List (List α) → Option (List α)
  | [], pending => if pending.all List.isEmpty then some [] else none
  | i :: schedule, pending =>
    match pending[i]? with
    | some (a :: as) => (interleave schedule (pending.set i as)).map (a :: ·)
    | _ => none

/-- `sfm/colorize_reconstruction.cc:69-70,77-78`: the additions to the map of colours.  A track that is not
in the map would get an uninitialised colour. -/
def accumulate (m : Machine) :
    List (TrackId × Rgb ℚ) → AMap TrackId (Rgb ℚ) → Outcome (AMap TrackId (Rgb ℚ))
  | [], colors => .ok colors
  | (t, c) :: rest, colors =>
    match colors.get t with
    | none => .ub
    | some old => accumulate m rest (colors.insert t fun i => m.fl (old i + c i))

/-- `sfm/colorize_reconstruction.cc:97-102`: the map at the start. -/
def zeros : List TrackId → AMap TrackId (Rgb ℚ)
  | [] => AMap.empty
  | t :: ts => (zeros ts).insert t fun _ => 0

/-- `sfm/colorize_reconstruction.cc:130`: a number as a byte; its fraction is dropped.  A number that
does not fit is undefined. -/
def toByte (y : ℚ) : Outcome Byte :=
  if -1 < y ∧ y < 256 then .ok (Fin.ofNat 256 y.floor.toNat) else .ub

/-- `sfm/colorize_reconstruction.cc:129-130`: the sum over the number of views, as bytes.  Zero over
zero is not a number, which does not fit in a byte. -/
def meanColor (m : Machine) (sum : Rgb ℚ) (n : Nat) : Outcome (Rgb Byte) :=
  if n = 0 then .ub
  else do
    let red ← toByte (m.fl (sum 0 / n))
    let green ← toByte (m.fl (sum 1 / n))
    let blue ← toByte (m.fl (sum 2 / n))
    pure ![red, green, blue]

/-- `sfm/colorize_reconstruction.cc:125-131`: the loop over the tracks. -/
def paint {Q : Type} (m : Machine) (colors : AMap TrackId (Rgb ℚ)) :
    List TrackId → Reconstruction (ℚ × ℚ) (Rgb Byte × Q) →
      Outcome (Reconstruction (ℚ × ℚ) (Rgb Byte × Q))
  | [], r => .ok r
  | t :: ts, r =>
    match colors.get t, r.track t with
    | none, _ => .abort
    | some _, none => .ub
    | some sum, some T => do
      let c ← meanColor m sum T.views.length
      paint m colors ts
        { r with tracks := r.tracks.insert t { T with payload := (c, T.payload.2) } }

/-- `sfm/colorize_reconstruction.cc:89-132` (`ColorizeReconstruction`), for a schedule of the threads
of the pool.  A schedule that is not one of the additions to be made is `ub`. -/
def colorize {Q : Type} (m : Machine) (directoryExists : Bool) (files : String → Option Image)
    (directory : String) (numThreads : Int) (schedule : List Nat)
    (r : Reconstruction (ℚ × ℚ) (Rgb Byte × Q)) :
    Outcome (Reconstruction (ℚ × ℚ) (Rgb Byte × Q)) := do
  Outcome.check directoryExists
  Outcome.check (decide (0 < numThreads))
  let pending ← tasks m files directory r r.viewIds
  match interleave schedule pending with
  | none => .ub
  | some additions => do
    let colors ← accumulate m additions (zeros r.trackIds)
    paint m colors r.trackIds r

end Theia.Colorize
