import Verif.Model.Exif

/-!
# What the EXIF data says
-/

namespace Theia.Spec

open CameraPriors

variable {K : Type} [Field K] [LinearOrder K]

/-- The length in millimetres of the resolution units of EXIF: 2 is an inch, 3 a centimetre, 4 a millimetre, 5 a micrometre. -/
inductive ExifUnit : Int → K → Prop where
  | inch : ExifUnit 2 (254 / 10)
  | centimetre : ExifUnit 3 10
  | millimetre : ExifUnit 4 1
  | micrometre : ExifUnit 5 (1 / 1000)

/-- The focal length `f` in pixels that follows from the resolution of the sensor: the sides `sw` and `sh` of the sensor in
millimetres are the pixels divided by the pixels per unit, and the focal length in pixels is the focal length in millimetres
scaled by the pixels of this image per millimetre of the sensor, averaged over both sides. -/
def PlaneFocal (im : Exif.Image K) (f : K) : Prop :=
  ∃ mm xr yr u sw sh : K, ∃ unit px py : Int,
    im.focal = some mm ∧ 1 / 100 < mm ∧ im.xRes = some xr ∧ 0 < xr ∧ im.yRes = some yr ∧ 0 < yr ∧
    im.unit = some unit ∧ ExifUnit unit u ∧ im.pixelX = some px ∧ im.pixelY = some py ∧
    sw * xr = px * u ∧ sh * yr = py * u ∧ sw ≠ 0 ∧ sh ≠ 0 ∧
    2 * f = mm * im.width / sw + mm * im.height / sh ∧ 0 < f

/-- The focal length in pixels for a sensor whose longer side has `w` millimetres. -/
def SensorFocal (im : Exif.Image K) (w f : K) : Prop :=
  ∃ mm : K, im.focal = some mm ∧ w ≠ 0 ∧ f * w = max (im.width : K) im.height * mm ∧ 0 < f

/-- A name without blanks around it and without a carriage return or null character at its end. -/
def PlainName (s : List Char) : Prop :=
  (∀ c, s.head? = some c → c ≠ ' ' ∧ c ≠ '\t') ∧
  ∀ c, s.getLast? = some c → c ≠ ' ' ∧ c ≠ '\t' ∧ c ≠ '\r' ∧ c ≠ Char.ofNat 0

/-- The name in small letters. -/
def smallLetters (s : List Char) : List Char := s.map Char.toLower

/-- An entry of the sensor database: maker, name of the camera, and sensor width as text and as a number. -/
structure SensorEntry (K : Type) where
  make : List Char
  name : List Char
  text : List Char
  width : K

/-- The line of an entry. -/
def SensorEntry.line (e : SensorEntry K) : List Char := e.make ++ ';' :: (e.name ++ ';' :: e.text)

/-- A database that can be loaded: no semicolons in the fields, plain names that differ ignoring case. -/
structure GoodDatabase (stod : List Char → Option K) (es : List (SensorEntry K)) : Prop where
  fields : ∀ e ∈ es, ';' ∉ e.make ∧ ';' ∉ e.name ∧ ';' ∉ e.text ∧ e.text ≠ []
  number : ∀ e ∈ es, stod e.text = some e.width
  plain : ∀ e ∈ es, PlainName e.name
  distinct : (es.map fun e => smallLetters e.name).Nodup

/-- The angle of degrees, minutes and seconds, negative on the side `neg`. -/
def gpsAngle (neg ref : String) (c : K × K × K) : K :=
  if ref = neg then -(c.1 + c.2.1 / 60 + c.2.2 / 3600) else c.1 + c.2.1 / 60 + c.2.2 / 3600

/-- A prior has a value exactly if the image has an attribute, and it is the one that the attribute means. -/
def GpsPriorIs {α : Type} (p : Prior K) (attr : Option α) (meaning : α → K) : Prop :=
  (p.isSet = true ↔ attr.isSome) ∧ ∀ a, attr = some a → p.value = meaning a

/-- The height above the sea level: the reference 1 stands for heights below. -/
def gpsHeight (ref : Int) (a : K) : K := if ref = 1 then -a else a

end Theia.Spec
