import Verif.Model.CameraPriors
import Verif.Base.AMap
import Verif.Base.Outcome

/-!
# Model of the EXIF reader (src/theia/sfm/exif_reader.cc)

Floats are elements of an ordered field, so rounding is not modelled; a quotient with a zero divisor is not finite and is
`none`. Strings are lists of characters. OpenImageIO is the record `Image` of the attributes that it returns; a GPS
coordinate has its three numbers. `stod` is an argument that is `none` where the library throws.
-/

namespace Theia
namespace Exif

open CameraPriors

/-- What OpenImageIO returns for an image: `ImageSpec::width`, `height` and the attributes that the reader asks for
(exif_reader.cc:126-197, 208-215, 247-248, 269-274). `altitudeRef` is the attribute `GPS:AltitudeRef`, which the
reader does not ask for. -/
structure Image (K : Type) where
  width : Int
  height : Int
  focal : Option K
  xRes : Option K
  yRes : Option K
  unit : Option Int
  pixelX : Option Int
  pixelY : Option Int
  make : List Char
  model : List Char
  latitude : Option (K × K × K)
  latitudeRef : String
  longitude : Option (K × K × K)
  longitudeRef : String
  altitude : Option K
  altitudeRef : Int

/-- `ImageBuf::spec()` of a file that cannot be read (exif_reader.cc:126-127): the default `ImageSpec`, without
attributes. -/
def Image.unreadable (K : Type) : Image K :=
  ⟨0, 0, none, none, none, none, none, none, [], [], none, "", none, "", none, 0⟩

/-- The blanks of `RemoveLeadingTrailingSpaces` (exif_reader.cc:58-65). -/
def isBlank (c : Char) : Bool := c = ' ' || c = '\t'

/-- `RemoveLeadingTrailingSpaces` (exif_reader.cc:58-65). If there are only blanks then `find_first_not_of` is `npos` and
everything is erased. -/
def trim (s : List Char) : List Char := ((s.dropWhile isBlank).reverse.dropWhile isBlank).reverse

/-- `ToLowercase` (exif_reader.cc:67-76): one carriage return or null character at the end is erased. -/
def lower (s : List Char) : List Char :=
  let t := (trim s).map Char.toLower
  match t.reverse with
  | [] => t
  | c :: rest => if c = '\r' || c = Char.ofNat 0 then rest.reverse else t

/-- The loop of `SplitString` (exif_reader.cc:84-92) with the characters of the current token, last first: `getline` gives no
token when nothing is left. -/
def splitAux (delim : Char) : List Char → List Char → List (List Char)
  | cur, [] => if cur.length = 0 then [] else [cur.reverse]
  | cur, c :: rest => if c = delim then cur.reverse :: splitAux delim [] rest else splitAux delim (c :: cur) rest

/-- `SplitString` (exif_reader.cc:84-92). -/
def split (delim : Char) (s : List Char) : List (List Char) := splitAux delim [] s

variable {K : Type}

/-- One line of the database (exif_reader.cc:109-117), with `CHECK_EQ` and `InsertOrDie`. -/
def loadLine (stod : List Char → Option K) (line : List Char) (db : AMap (List Char) K) : Outcome (AMap (List Char) K) :=
  match split ';' line with
  | [_, model, width] =>
    match stod width with
    | none => .abort
    | some w => if db.contains (lower model) then .abort else .ok (db.insert (lower model) w)
  | _ => .abort

/-- `LoadSensorWidthDatabase` (exif_reader.cc:98-119): the loop ends at an empty line. -/
def load (stod : List Char → Option K) : List (List Char) → AMap (List Char) K → Outcome (AMap (List Char) K)
  | [], db => .ok db
  | line :: lines, db =>
    if line.length = 0 then .ok db
    else do
      let db' ← loadLine stod line db
      load stod lines db'

section
variable [Field K] [LinearOrder K]

/-- A quotient of doubles; `none` is an infinity or not a number. -/
def div (a b : K) : Option K := if b = 0 then none else some (a / b)

/-- `IsValidFocalLength` (exif_reader.cc:78-80). -/
def isValid : Option K → Bool
  | none => false
  | some f => decide (0 < f)

/-- The value of `ccd_resolution_units` (exif_reader.cc:224-244); `none` for the default case. -/
def resolutionUnits (unit : Int) : Option K :=
  if unit = 2 then some (254 / 10)
  else if unit = 3 then some 10
  else if unit = 4 then some 1
  else if unit = 5 then some (1 / 1000)
  else none

/-- The focal length in pixels (exif_reader.cc:246-261). -/
def planeFocal (im : Image K) (f xRes yRes u : K) : Option K := do
  let ccdWidth ← div (((im.pixelX.getD 0 : Int) : K)) (xRes / u)
  let ccdHeight ← div (((im.pixelY.getD 0 : Int) : K)) (yRes / u)
  let fx ← div (f * (im.width : K)) ccdWidth
  let fy ← div (f * (im.height : K)) ccdHeight
  some ((fx + fy) / 2)

/-- `SetFocalLengthFromExif` (exif_reader.cc:203-264): the result and the prior's new value of the focal length. `junk` is
the infinity or not-a-number that is written when the quotient is not finite. -/
def fromExif (junk : K) (im : Image K) (old : K) : Bool × K :=
  let f := im.focal.getD (1 / 100)
  let xRes := im.xRes.getD 0
  let yRes := im.yRes.getD 0
  if f ≤ 1 / 100 ∨ xRes ≤ 0 ∨ yRes ≤ 0 then (false, old)
  else
    match resolutionUnits (im.unit.getD 0) with
    | none => (false, old)
    | some u => (isValid (planeFocal im f xRes yRes u), (planeFocal im f xRes yRes u).getD junk)

/-- The lookup of the sensor width (exif_reader.cc:275-283). -/
def sensorWidth (db : AMap (List Char) K) (im : Image K) : K :=
  match db.get im.model with
  | some w => w
  | none =>
    match db.get (lower im.make ++ ' ' :: lower im.model) with
    | some w => w
    | none => 0

/-- `SetFocalLengthFromSensorDatabase` (exif_reader.cc:266-293). -/
def fromDatabase (db : AMap (List Char) K) (im : Image K) (old : K) : Bool × K :=
  let w := sensorWidth db im
  if w = 0 then (false, old)
  else
    let focal := ((max im.width im.height : Int) : K) * im.focal.getD 0 / w
    (isValid (some focal), focal)

/-- Degrees, minutes and seconds to degrees (exif_reader.cc:157-160, 176-179). -/
def degrees (c : K × K × K) : K := c.1 + c.2.1 / 60 + c.2.2 / 3600

/-- The latitude (exif_reader.cc:152-169): the sign of the *longitude* is changed. -/
def setLatitude (im : Image K) (p : IntrinsicsPrior K) : IntrinsicsPrior K :=
  match im.latitude with
  | none => p
  | some c =>
    let p := { p with latitude := ⟨true, degrees c⟩ }
    if im.latitudeRef = "S" then { p with longitude := ⟨p.longitude.isSet, p.longitude.value * -1⟩ } else p

/-- The longitude (exif_reader.cc:171-188). -/
def setLongitude (im : Image K) (p : IntrinsicsPrior K) : IntrinsicsPrior K :=
  match im.longitude with
  | none => p
  | some c =>
    let p := { p with longitude := ⟨true, degrees c⟩ }
    if im.longitudeRef = "W" then { p with longitude := ⟨p.longitude.isSet, p.longitude.value * -1⟩ } else p

/-- The altitude (exif_reader.cc:191-198). -/
def setAltitude (im : Image K) (p : IntrinsicsPrior K) : IntrinsicsPrior K :=
  match im.altitude with
  | none => p
  | some a => { p with altitude := ⟨true, a⟩ }

/-- `ExtractEXIFMetadata` (exif_reader.cc:121-201): the returned value and the prior. -/
def extract (junk : K) (db : AMap (List Char) K) (im : Image K) (p : IntrinsicsPrior K) : Bool × IntrinsicsPrior K :=
  let p := { p with width := im.width, height := im.height, principal := ⟨true, ((im.width : K) / 2, (im.height : K) / 2)⟩ }
  let exif := fromExif junk im p.focal.value
  let p := { p with focal := ⟨p.focal.isSet, exif.2⟩ }
  if exif.1 then
    (true, setAltitude im (setLongitude im (setLatitude im { p with focal := ⟨true, p.focal.value⟩ })))
  else
    let base := fromDatabase db im p.focal.value
    let p := { p with focal := ⟨p.focal.isSet, base.2⟩ }
    if base.1 then
      (true, setAltitude im (setLongitude im (setLatitude im { p with focal := ⟨true, p.focal.value⟩ })))
    else (true, p)

end

end Exif
end Theia
