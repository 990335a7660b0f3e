import Mathlib.Algebra.Order.Floor.Ring
import Mathlib.Data.Rat.Floor
import Mathlib.Tactic.Linarith
import Mathlib.Tactic.NormNum
import Mathlib.Algebra.Order.Field.Power
import Verif.Base.Outcome

/-!
# Descriptor extractors

Models `src/theia/image/descriptor/{descriptor_extractor,sift_descriptor,akaze_descriptor,
create_descriptor_extractor}.cc` and the parts of `libraries/vlfeat/vl/sift.c` that decide which octave and
which buffer is used. What VLFeat computes from the pixels (scale space, extrema, gradients, orientations,
the histogram) is a parameter `VL` of arbitrary functions. The scale space of an octave is a function of the
image, the size, the number of levels and the first octave, so the octave buffer is represented by the image it
was computed from. Numbers are rationals, which contain all finite doubles. Images are gray: width, height
and pixels of any type. Not modelled: memory limits, sizes over the range of `int`.
-/

namespace Theia

namespace Desc

/-- A gray `FloatImage`: `Cols()`, `Rows()` and the pixels. -/
structure Img (P : Type) where
  width : Nat
  height : Nat
  pixels : P

/-- `SiftParameters` (sift_parameters.h:58-72). -/
structure Params where
  numOctaves : Int
  numLevels : Int
  firstOctave : Int
  edge : ℚ
  peak : ℚ
  rootSift : Bool
  upright : Bool
  deriving DecidableEq

/-- `SiftParameters()` (sift_parameters.h:58-72). -/
def Params.default : Params := ⟨-1, 3, -1, 10 / 255, (12 / 10) / 255, true, true⟩

/-- `Keypoint` (keypoint.h:95-100); an optional member is `none` while it has the invalid value. -/
structure Kp where
  x : ℚ
  y : ℚ
  scale : Option ℚ
  orientation : Option ℚ
  deriving DecidableEq

/-- The members of `VlSiftFilt` that stay fixed (sift.c:889-893). -/
structure Geo where
  width : Nat
  height : Nat
  levels : Int
  oMin : Int
  deriving DecidableEq

/-- `VlSiftKeypoint` (sift.h:48-60); the discrete coordinates follow from these. -/
structure VK where
  o : Int
  x : ℚ
  y : ℚ
  sigma : ℚ
  deriving DecidableEq

/-- A local extremum of the difference of Gaussians after refinement (sift.c:1200-1398): position and scale,
the absolute value at the extremum, the absolute interpolated value, the edge score and whether the other
tests hold (sift.c:1403-1413). -/
structure Cand where
  x : ℚ
  y : ℚ
  sigma : ℚ
  extremum : ℚ
  value : ℚ
  score : ℚ
  other : Bool

/-- What VLFeat computes: refined extrema of an octave, the gradient of an octave (sift.c:1460-1528), the
orientations at a keypoint (sift.c:1605-1690), the descriptor (sift.c:1989-2145), the bounds checks of the
last two (sift.c:1592-1600, 1976-1983) and the octave of a scale before clipping (sift.c:2172-2173). -/
structure VL (P G D : Type) where
  candidates : Geo → P → Int → List Cand
  gradOf : Geo → P → Int → G
  orient : Geo → G → VK → List ℚ
  describe : Geo → G → VK → ℚ → D
  orientable : Geo → VK → Bool
  describable : Geo → VK → Bool
  octave : Geo → ℚ → Int

/-- `VlSiftFilt` (sift.h:62-105): `im` is the image whose scale space is in the octave buffer, `grad` the
gradient buffer (`none` until written). -/
structure Filt (P G : Type) where
  geo : Geo
  O : Int
  oCur : Int
  edge : ℚ
  peak : ℚ
  im : Option P
  gradO : Int
  grad : Option G

variable {P G D : Type}

/-- `vl_sift_new` (sift.c:874-934). The logarithm of a zero size is minus infinity. -/
def Filt.new (w h : Nat) (noctaves levels oMin : Int) : Filt P G :=
  { geo := ⟨w, h, levels, oMin⟩
    O := if noctaves < 0 then
        (if min w h = 0 then 1 else max ((Nat.log2 (min w h) : Int) - oMin - 3) 1)
      else noctaves
    oCur := oMin
    edge := 10
    peak := 0
    im := none
    gradO := oMin - 1
    grad := none }

/-- `vl_sift_process_first_octave` (sift.c:977-1064); false is `VL_ERR_EOF`. The gradient is not reset. -/
def Filt.processFirst (f : Filt P G) (p : P) : Bool × Filt P G :=
  if f.O = 0 then (false, { f with oCur := f.geo.oMin })
  else (true, { f with oCur := f.geo.oMin, im := some p })

/-- `vl_sift_process_next_octave` (sift.c:1083-1139). -/
def Filt.processNext (f : Filt P G) : Bool × Filt P G :=
  if f.oCur = f.geo.oMin + f.O - 1 then (false, f) else (true, { f with oCur := f.oCur + 1 })

/-- The tests of an extremum against the thresholds (sift.c:1213-1240, 1400-1413). Dividing by an edge
threshold of zero gives infinity. -/
def passes (edge peak : ℚ) (c : Cand) : Bool :=
  decide (c.extremum ≥ 8 / 10 * peak) && decide (c.value > peak) &&
    (decide (edge = 0) || decide (c.score < (edge + 1) * (edge + 1) / edge)) && decide (c.score ≥ 0) && c.other

/-- `vl_sift_detect` and `vl_sift_get_keypoints` (sift.c:1153-1430). -/
def Filt.detect (vl : VL P G D) (f : Filt P G) : Outcome (List VK) :=
  match f.im with
  | none => .ub
  | some p => .ok (((vl.candidates f.geo p f.oCur).filter (passes f.edge f.peak)).map
      (fun c => ⟨f.oCur, c.x, c.y, c.sigma⟩))

/-- `update_gradient` (sift.c:1447-1531). -/
def Filt.updateGradient (vl : VL P G D) (f : Filt P G) : Outcome (Filt P G) :=
  if f.gradO = f.oCur then .ok f
  else match f.im with
    | none => .ub
    | some p => .ok { f with gradO := f.oCur, grad := some (vl.gradOf f.geo p f.oCur) }

/-- `vl_sift_calc_keypoint_orientations` (sift.c:1559-1695): at most four angles. -/
def Filt.orientations (vl : VL P G D) (f : Filt P G) (k : VK) : Outcome (List ℚ × Filt P G) :=
  if k.o ≠ f.oCur ∨ vl.orientable f.geo k = false then .ok ([], f)
  else do
    let f ← f.updateGradient vl
    match f.grad with
    | none => .ub
    | some g => .ok ((vl.orient f.geo g k).take 4, f)

/-- `vl_sift_calc_keypoint_descriptor` (sift.c:1923-2147); `none` means that nothing is written. -/
def Filt.descriptor (vl : VL P G D) (f : Filt P G) (k : VK) (a : ℚ) : Outcome (Option D × Filt P G) :=
  if k.o ≠ f.oCur ∨ vl.describable f.geo k = false then .ok (none, f)
  else do
    let f ← f.updateGradient vl
    match f.grad with
    | none => .ub
    | some g => .ok (some (vl.describe f.geo g k a), f)

/-- `vl_sift_keypoint_init` (sift.c:2163-2197). -/
def Filt.keypointInit (vl : VL P G D) (f : Filt P G) (x y sigma : ℚ) : VK :=
  ⟨max (min (vl.octave f.geo sigma) (f.geo.oMin + f.O - 1)) f.geo.oMin, x, y, sigma⟩

theorem floor_half_lt {x : ℚ} (h : 3600 ≤ x) : ⌊x / 2⌋.toNat < ⌊x⌋.toNat := by
  have h1 : (⌊x / 2⌋ : ℚ) ≤ x / 2 := Int.floor_le _
  have h2 : x < ⌊x⌋ + 1 := Int.lt_floor_add_one x
  have h3 : (⌊x / 2⌋ : ℚ) < ⌊x⌋ := by linarith
  have h4 : ⌊x / 2⌋ < ⌊x⌋ := by exact_mod_cast h3
  have h5 : (0 : Int) ≤ ⌊x / 2⌋ := Int.floor_nonneg.2 (by linarith)
  omega

/-- The loop of `GetValidFirstOctave` (sift_descriptor.cc:63-66); `x` is `max_dim * scale_factor`. -/
def validLoop (x : ℚ) (o : Int) : Int :=
  if _h : 3600 ≤ x then validLoop (x / 2) (o + 1) else o
termination_by ⌊x⌋.toNat
decreasing_by exact floor_half_lt _h

/-- `GetValidFirstOctave` (sift_descriptor.cc:57-68). -/
def validFirstOctave (o : Int) (w h : Nat) : Int := validLoop ((max w h : Nat) * (2 : ℚ) ^ (-1 * o)) o

/-- The new filter of an extractor; the thresholds are set in `DetectAndExtractDescriptors` only
(sift_descriptor.cc:104-110, 160-166, 226-234). -/
def newFilter (p : Params) (thresholds : Bool) (img : Img P) : Filt P G :=
  let f : Filt P G := Filt.new img.width img.height p.numOctaves p.numLevels
    (validFirstOctave p.firstOctave img.height img.width)
  if thresholds then { f with edge := p.edge, peak := p.peak } else f

/-- The filter used for an image: the old one if the size is the same (sift_descriptor.cc:102-110, 158-166,
224-234). -/
def filterFor (p : Params) (thresholds : Bool) (st : Option (Filt P G)) (img : Img P) : Filt P G :=
  match st with
  | none => newFilter p thresholds img
  | some f =>
    if f.geo.width ≠ img.width ∨ f.geo.height ≠ img.height then newFilter p thresholds img else f

/-- The loop `while (sift_keypoint.o != sift_filter_->o_cur)` (sift_descriptor.cc:129-131). The octave grows by
at most one per step, so if the distance does not suffice the loop never ends (`ub`). -/
def advance (o : Int) : Nat → Filt P G → Outcome (Filt P G)
  | 0, f => if f.oCur = o then .ok f else .ub
  | n + 1, f => if f.oCur = o then .ok f else advance o n f.processNext.2

/-- `ConvertToRootSift` on one descriptor if the parameter asks for it. -/
def toRoot (root : D → D) (p : Params) (d : D) : D := if p.rootSift then root d else d

/-- `SiftDescriptorExtractor::ComputeDescriptor` (sift_descriptor.cc:91-148). `junk` is what the 128
uninitialised numbers of the resized vector hold. -/
def computeDescriptor (vl : VL P G D) (root : D → D) (p : Params) (st : Option (Filt P G)) (img : Img P) (k : Kp)
    (junk : D) : Outcome (D × Option (Filt P G)) :=
  match k.scale, k.orientation with
  | some s, some a => do
    let f := filterFor p false st img
    let vk := f.keypointInit vl k.x k.y s
    let first := f.processFirst img.pixels
    let f ← advance vk.o (vk.o - first.2.oCur).toNat first.2
    if first.1 = false then .abort
    else do
      let r ← f.descriptor vl vk a
      match r.1 with
      | none => .ok (toRoot root p junk, some r.2)
      | some d => .ok (toRoot root p d, some r.2)
  | _, _ => .abort

/-- The keypoints handed to VLFeat (sift_descriptor.cc:170-180). -/
def initAll (vl : VL P G D) (f : Filt P G) : List Kp → Outcome (List (VK × ℚ))
  | [] => .ok []
  | k :: ks =>
    match k.scale, k.orientation with
    | some s, some a => do
      let r ← initAll vl f ks
      .ok ((f.keypointInit vl k.x k.y s, a) :: r)
    | _, _ => .abort

/-- The loop over the keypoints in one octave (sift_descriptor.cc:196-204): each keypoint of this octave
overwrites its own entry. -/
def describeAll (vl : VL P G D) : List (VK × ℚ) → List D → Filt P G → Outcome (List D × Filt P G)
  | [], ds, f => .ok (ds, f)
  | _ :: _, [], _ => .ub
  | (k, a) :: ks, d :: ds, f =>
    if k.o ≠ f.oCur then do
      let r ← describeAll vl ks ds f
      .ok (d :: r.1, r.2)
    else do
      let e ← f.descriptor vl k a
      let r ← describeAll vl ks ds e.2
      match e.1 with
      | none => .ok (d :: r.1, r.2)
      | some d' => .ok (d' :: r.1, r.2)

/-- The loop over the octaves (sift_descriptor.cc:194-206). -/
def describeOctaves (vl : VL P G D) (ks : List (VK × ℚ)) : Nat → List D → Filt P G → Outcome (List D × Filt P G)
  | 0, _, _ => .ub
  | n + 1, ds, f => do
    let r ← describeAll vl ks ds f
    if r.2.processNext.1 = true then describeOctaves vl ks n r.1 r.2.processNext.2
    else .ok (r.1, r.2.processNext.2)

/-- `descriptors->resize(n, VectorXf(128))` (sift_descriptor.cc:193). -/
def resize (n : Nat) (junk : D) (ds : List D) : List D := ds.take n ++ List.replicate (n - ds.length) junk

/-- `SiftDescriptorExtractor::ComputeDescriptors` (sift_descriptor.cc:150-214); the keypoints are not changed.
The result is the descriptors. -/
def computeDescriptors (vl : VL P G D) (root : D → D) (p : Params) (st : Option (Filt P G)) (img : Img P)
    (ks : List Kp) (ds : List D) (junk : D) : Outcome (List D × Option (Filt P G)) := do
  let f := filterFor p false st img
  let vks ← initAll vl f ks
  let first := f.processFirst img.pixels
  if first.1 = false then .ok ((resize ks.length junk ds).map (toRoot root p), some first.2)
  else do
    let r ← describeOctaves vl vks first.2.O.toNat (resize ks.length junk ds) first.2
    .ok (r.1.map (toRoot root p), some r.2)

/-- The two output vectors of `DetectAndExtractDescriptors`. -/
structure Out (D : Type) where
  keypoints : List Kp
  descriptors : List D

/-- The loop over the angles of a keypoint (sift_descriptor.cc:266-277); `zero` is the descriptor after
`setZero`. -/
def anglesLoop (vl : VL P G D) (zero : D) (k : VK) : List ℚ → Out D → Filt P G → Outcome (Out D × Filt P G)
  | [], out, f => .ok (out, f)
  | a :: as, out, f => do
    let r ← f.descriptor vl k a
    let d := match r.1 with
      | none => zero
      | some d => d
    anglesLoop vl zero k as ⟨out.keypoints ++ [⟨k.x, k.y, some k.sigma, some a⟩], out.descriptors ++ [d]⟩ r.2

/-- The loop over the keypoints of an octave (sift_descriptor.cc:255-278). -/
def keysLoop (vl : VL P G D) (zero : D) (upright : Bool) : List VK → Out D → Filt P G → Outcome (Out D × Filt P G)
  | [], out, f => .ok (out, f)
  | k :: ks, out, f => do
    let r ← f.orientations vl k
    let as := if upright = true ∧ r.1.length > 1 then r.1.take 1 else r.1
    let s ← anglesLoop vl zero k as out r.2
    keysLoop vl zero upright ks s.1 s.2

/-- The loop over the octaves (sift_descriptor.cc:246-281). -/
def detectOctaves (vl : VL P G D) (zero : D) (upright : Bool) : Nat → Out D → Filt P G → Outcome (Out D × Filt P G)
  | 0, _, _ => .ub
  | n + 1, out, f => do
    let ks ← f.detect vl
    let r ← keysLoop vl zero upright ks out f
    if r.2.processNext.1 = true then detectOctaves vl zero upright n r.1 r.2.processNext.2
    else .ok (r.1, r.2.processNext.2)

/-- The conversion at the end (sift_descriptor.cc:283-288), of all descriptors in the vector. -/
def rootAll (root : D → D) (hasNaN : D → Bool) (p : Params) (ds : List D) : Outcome (List D) :=
  if p.rootSift = true then
    (if (ds.map root).any hasNaN = true then .abort else .ok (ds.map root))
  else .ok ds

/-- `SiftDescriptorExtractor::DetectAndExtractDescriptors` (sift_descriptor.cc:216-291). -/
def detectAndExtract (vl : VL P G D) (root : D → D) (hasNaN : D → Bool) (zero : D) (p : Params)
    (st : Option (Filt P G)) (img : Img P) (out : Out D) : Outcome (Out D × Option (Filt P G)) := do
  let f := filterFor p true st img
  let first := f.processFirst img.pixels
  let r ← if first.1 = true then detectOctaves vl zero p.upright first.2.O.toNat out first.2
    else .ok (out, first.2)
  let ds ← rootAll root hasNaN p r.1.descriptors
  .ok (⟨r.1.keypoints, ds⟩, some r.2)

/-- `DescriptorExtractor::ComputeDescriptors` (descriptor_extractor.cc:45-64) for a `ComputeDescriptor` that
answers the same each time: after a success the iterator is not advanced, so the loop never ends. -/
def baseComputeDescriptors (compute : Kp → Outcome (Option D)) : List Kp → List D → Outcome (List Kp × List D)
  | [], ds => .ok ([], ds)
  | k :: ks, ds => do
    let r ← compute k
    match r with
    | none => baseComputeDescriptors compute ks ds
    | some _ => .ub

/-- `AkazeDescriptorExtractor::ComputeDescriptor` (akaze_descriptor.cc:48-56). -/
def akazeComputeDescriptor (_ : Kp) : Outcome (Option D) := .abort

/-- `FeatureDensity` (create_descriptor_extractor.h:57-61); `invalid` is any other value of the type. -/
inductive Density where
  | sparse | normal | dense | invalid
  deriving DecidableEq

/-- `FeatureDensityToSiftParameters` (create_descriptor_extractor.cc:47-64). -/
def densityToSift (d : Density) : Outcome Params :=
  let p := Params.default
  match d with
  | .dense => .ok { p with edge := p.edge * 2, peak := p.peak / 3 }
  | .sparse => .ok { p with edge := p.edge / 2, peak := p.peak * 3 }
  | .normal => .ok p
  | .invalid => .abort

/-- `FeatureDensityToAkazeParameters` (create_descriptor_extractor.cc:66-81): the Hessian threshold. -/
def densityToAkaze (d : Density) : Outcome ℚ :=
  match d with
  | .dense => .ok ((1 / 1000) / 10)
  | .sparse => .ok ((1 / 1000) * 10)
  | .normal => .ok (1 / 1000)
  | .invalid => .abort

/-- `DescriptorExtractorType` (create_descriptor_extractor.h:47-50). -/
inductive Kind where
  | sift | akaze | invalid
  deriving DecidableEq

/-- The extractor that `CreateDescriptorExtractor` returns. -/
inductive Extractor where
  | sift (p : Params)
  | akaze (threshold : ℚ)

/-- `CreateDescriptorExtractor` (create_descriptor_extractor.cc:85-104): for an unknown type the null pointer is
used after the error has been logged. -/
def create (k : Kind) (d : Density) : Outcome Extractor :=
  match k with
  | .sift => do let p ← densityToSift d; .ok (.sift p)
  | .akaze => do let t ← densityToAkaze d; .ok (.akaze t)
  | .invalid => .ub

end Desc
end Theia
