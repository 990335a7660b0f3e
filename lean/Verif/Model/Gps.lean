import Verif.Base.Outcome
import Verif.Base.Geometry
import Mathlib.Analysis.SpecialFunctions.Complex.Arg
import Mathlib.Analysis.SpecialFunctions.Trigonometric.Inverse

/-!
# Model of `GPSConverter`

`/repo/src/theia/sfm/gps_converter.{h,cc}`.  Line numbers without a file are those of gps_converter.cc.  Doubles are
exact reals: the constants are the decimal numbers of the source, `M_PI` is π.  Values that are not finite are `ub`.
-/

namespace Theia
namespace Gps

/-- Lines 46-61: the constants. -/
noncomputable def a : ℝ := 6378137
noncomputable def e2 : ℝ := 6.6943799901377997e-3
noncomputable def a1 : ℝ := 4.2697672707157535e+4
noncomputable def a2 : ℝ := 1.8230912546075455e+9
noncomputable def a3 : ℝ := 1.4291722289812413e+2
noncomputable def a4 : ℝ := 4.5577281365188637e+9
noncomputable def a5 : ℝ := 4.2840589930055659e+4
noncomputable def a6 : ℝ := 9.9330562000986220e-1

/-- math/util.h:47,50-52. -/
noncomputable def radToDeg (x : ℝ) : ℝ := x * (180 / Real.pi)

/-- math/util.h:48,54-56. -/
noncomputable def degToRad (x : ℝ) : ℝ := x * (Real.pi / 180)

/-- `std::atan2`. -/
noncomputable def atan2 (y x : ℝ) : ℝ := Complex.arg ⟨x, y⟩

/-- A latitude, its sine, its cosine, and the square of the sine. -/
structure Guess where
  lat : ℝ
  s : ℝ
  c : ℝ
  ss : ℝ

/-- Lines 80-94: the first latitude, by the sine away from the poles and by the cosine near them. -/
noncomputable def firstGuess (zp w r s2 c2 u v : ℝ) : Outcome Guess :=
  if c2 > 0.3 then
    let s := (zp / r) * (1 + c2 * (a1 + u + s2 * v) / r)
    if -1 ≤ s ∧ s ≤ 1 then .ok ⟨Real.arcsin s, s, Real.sqrt (1 - s * s), s * s⟩ else .ub
  else
    let c := (w / r) * (1 - s2 * (a5 - u - c2 * v) / r)
    if -1 ≤ c ∧ c ≤ 1 then .ok ⟨Real.arccos c, Real.sqrt (1 - c * c), c, 1 - c * c⟩ else .ub

/-- Lines 96-105: the correction of the latitude, and the altitude. -/
noncomputable def refine (zp w : ℝ) (k : Guess) : Outcome (ℝ × ℝ) :=
  let g := 1 - e2 * k.ss
  let rg := a / Real.sqrt g
  let rf := a6 * rg
  let u := w - rg * k.c
  let v := zp - rf * k.s
  let f := k.c * u + k.s * v
  let m := k.c * v - k.s * u
  if rf / g + f = 0 then .ub
  else
    let p := m / (rf / g + f)
    .ok (k.lat + p, f + m * p / 2)

/-- `GPSConverter::ECEFToLLA` (lines 65-111). -/
noncomputable def ecefToLLA (ecef : V3 ℝ) : Outcome (V3 ℝ) :=
  let zp := |ecef.z|
  let w2 := ecef.x * ecef.x + ecef.y * ecef.y
  let w := Real.sqrt w2
  let r2 := w2 + ecef.z * ecef.z
  let r := Real.sqrt r2
  let lon := atan2 ecef.y ecef.x
  if r2 = 0 then .ub
  else do
    let k ← firstGuess zp w r (ecef.z * ecef.z / r2) (w2 / r2) (a2 / r) (a3 - a4 / r)
    let q ← refine zp w k
    let lat := if ecef.z < 0 then q.1 * -1 else q.1
    .ok ⟨radToDeg lat, radToDeg lon, q.2⟩

/-- Line 119: the distance from the surface to the axis along the normal, for a latitude in radians. -/
noncomputable def normalRadius (lat : ℝ) : ℝ := a / Real.sqrt (1 - e2 * Real.sin lat * Real.sin lat)

/-- `GPSConverter::LLAToECEF` (lines 114-127). -/
noncomputable def llaToECEF (lla : V3 ℝ) : V3 ℝ :=
  let lat := degToRad lla.x
  let lon := degToRad lla.y
  let alt := lla.z
  let n := normalRadius lat
  ⟨(n + alt) * Real.cos lat * Real.cos lon, (n + alt) * Real.cos lat * Real.sin lon,
    (n * (1 - e2) + alt) * Real.sin lat⟩

end Gps
end Theia
