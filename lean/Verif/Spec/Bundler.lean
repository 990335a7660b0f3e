import Verif.Model.Bundler

/-!
# Specification of the Bundler files

The formats are the ones described in bundler_file_reader.cc:201-239 and 273-294.
-/

namespace Theia
namespace Spec

open Bundler

variable {K : Type} [Field K] [LinearOrder K]

/-- `n` is `x` rounded towards zero. -/
def IsTrunc (x : K) (n : Int) : Prop := |(n : K)| ≤ |x| ∧ |x| < |(n : K)| + 1 ∧ 0 ≤ (n : K) * x

/-- The `i`-th camera of the file is used: its focal length is positive. -/
def CameraUsed (cams : List (BCam K)) (i : Nat) : Prop := ∃ b, cams[i]? = some b ∧ 0 < b.focal

/-- The point is observed at `(x, y)` by camera `i`, which is used. -/
def ObservedAt (cams : List (BCam K)) (p : BPoint K) (i : Nat) (x y : Int) : Prop :=
  CameraUsed cams i ∧ ∃ e ∈ p.views, e.cam = (i : Int) ∧ e.x = x ∧ e.y = y

/-- The point is used: it is not the origin and seen by two or more of the cameras that are used. -/
def PointUsed (cams : List (BCam K)) (p : BPoint K) : Prop :=
  ¬ (p.pos.x = 0 ∧ p.pos.y = 0 ∧ p.pos.z = 0) ∧
    ∃ i j, i ≠ j ∧ (∃ x y, ObservedAt cams p i x y) ∧ ∃ x y, ObservedAt cams p j x y

/-- The files describe a scene: as many names as cameras, distinct non-empty base names, points whose observations are in distinct
cameras of the file, colours between 0 and 255. -/
structure WellFormed (base : String → String) (lists : List (Entry K)) (cams : List (BCam K)) (points : List (BPoint K)) : Prop where
  names : (lists.map fun e => base e.name).Nodup
  nonempty : ∀ e ∈ lists, base e.name ≠ ""
  some : lists ≠ []
  count : cams.length = lists.length
  indices : ∀ p ∈ points, ∀ e ∈ p.views, 0 ≤ e.cam ∧ e.cam < cams.length
  distinct : ∀ p ∈ points, (p.views.map (·.cam)).Nodup
  colors : ∀ p ∈ points, ∀ c ∈ [p.color.x, p.color.y, p.color.z], 0 ≤ c ∧ c < 256

open Classical in
/-- The points that are used, in the order of the file. -/
noncomputable def usedPoints (cams : List (BCam K)) (points : List (BPoint K)) : List (BPoint K) :=
  points.filter fun p => decide (PointUsed cams p)

/-- The scene `s` is the one in the files. -/
structure IsLoaded (base : String → String) (lists : List (Entry K)) (cams : List (BCam K)) (points : List (BPoint K))
    (s : Loaded K) : Prop where
  views : ∀ i, (∃ V, s.recon.view i = some V) ↔ CameraUsed cams i
  view : ∀ i e V, lists[i]? = some e → s.recon.view i = some V → V.name = base e.name ∧ V.estimated = true
  prior : ∀ (i : Nat) e V, lists[i]? = some e → s.recon.view i = some V → ∀ f, s.priors.get i = some f ↔ e.focal = some f ∧ 0 < f
  camera : ∀ i b V, cams[i]? = some b → s.recon.view i = some V → ∃ c, s.cams.get i = some c ∧ c.pinhole = true ∧
    c.focal = b.focal ∧ c.k1 = b.k1 ∧ c.k2 = b.k2 ∧ c.px = 0 ∧ c.py = 0 ∧
    (b.rot.IsRotation → c.rot.IsRotation ∧ ∀ X, c.rot.mulVec (X.sub c.pos) =
      ⟨((b.rot.mulVec X).add b.trans).x, -((b.rot.mulVec X).add b.trans).y, -((b.rot.mulVec X).add b.trans).z⟩)
  tracks : ∀ t, (∃ T, s.recon.track t = some T) ↔ t < (usedPoints cams points).length
  track : ∀ t p T, (usedPoints cams points)[t]? = some p → s.recon.track t = some T → T.estimated = true ∧
    T.payload.point = p.pos ∧ T.payload.w = 1 ∧ IsTrunc p.color.x T.payload.color.1 ∧ IsTrunc p.color.y T.payload.color.2.1 ∧
    IsTrunc p.color.z T.payload.color.2.2 ∧ T.views.Nodup ∧ ∀ i, i ∈ T.views ↔ ∃ x y, ObservedAt cams p i x y
  feature : ∀ (i : ViewId) V (t : TrackId) f, s.recon.view i = some V → (V.getFeature t = some f ↔
    ∃ p, (usedPoints cams points)[t]? = some p ∧ ∃ x y, ObservedAt cams p i x y ∧ f = ((x : K), -(y : K)))

/-- The track is at the origin. -/
def AtOrigin (T : Track (Point K)) : Prop := T.payload.point.x = 0 ∧ T.payload.point.y = 0 ∧ T.payload.point.z = 0

/-- The loaded scene `s` is a copy of the reconstruction `r` with the given cameras and focal length priors, with the views numbered
by `num` and the tracks by `tnum`. The features are relative to the principal point and rounded towards zero, and the
tracks at the origin are missing. -/
structure IsBundlerCopy (base : String → String) (r : Reconstruction (K × K) (Point K)) (cam : ViewId → Cam K)
    (prior : ViewId → Option K) (s : Loaded K) (num : ViewId → ViewId) (tnum : TrackId → TrackId) : Prop where
  viewInj : ∀ v w, r.view v ≠ none → r.view w ≠ none → num v = num w → v = w
  views : ∀ w, (∃ W, s.recon.view w = some W) ↔ ∃ v, r.view v ≠ none ∧ num v = w
  view : ∀ v V, r.view v = some V → ∃ V' c, s.recon.view (num v) = some V' ∧ V'.name = base V.name ∧ V'.estimated = true ∧
    s.cams.get (num v) = some c ∧ c = { cam v with px := 0, py := 0 } ∧
    ∀ f, s.priors.get (num v) = some f ↔ prior v = some f ∧ 0 < f
  trackInj : ∀ t u T U, r.track t = some T → r.track u = some U → ¬ AtOrigin T → ¬ AtOrigin U → tnum t = tnum u → t = u
  tracks : ∀ u, (∃ U, s.recon.track u = some U) ↔ ∃ t T, r.track t = some T ∧ ¬ AtOrigin T ∧ tnum t = u
  track : ∀ t T, r.track t = some T → ¬ AtOrigin T → ∃ T', s.recon.track (tnum t) = some T' ∧ T'.estimated = true ∧
    T'.payload.w = 1 ∧ T'.payload.point.smul T.payload.w = T.payload.point ∧ T'.payload.color = T.payload.color ∧
    ∀ w, w ∈ T'.views ↔ ∃ v, v ∈ T.views ∧ num v = w
  feature : ∀ v V V' t T, r.view v = some V → r.track t = some T → ¬ AtOrigin T → s.recon.view (num v) = some V' →
    ((∃ f', V'.getFeature (tnum t) = some f') ↔ ∃ f, V.getFeature t = some f) ∧
    ∀ f f', V.getFeature t = some f → V'.getFeature (tnum t) = some f' → ∃ x y : Int, f' = ((x : K), (y : K)) ∧
      IsTrunc (f.1 - (cam v).px) x ∧ IsTrunc (f.2 - (cam v).py) y

/-- The projection of a point in a Bundler camera (http://www.cs.cornell.edu/~snavely/bundler/bundler-v0.4-manual.html):
`P = R X + t`, `p = -P / P.z`, `p' = f r(p) p` with `r(p) = 1 + k1 |p|^2 + k2 |p|^4`. -/
def bundlerProject (b : BCam K) (X : V3 K) : K × K :=
  let P := (b.rot.mulVec X).add b.trans
  let p := (-P.x / P.z, -P.y / P.z)
  let n := p.1 * p.1 + p.2 * p.2
  (b.focal * (1 + b.k1 * n + b.k2 * n ^ 2) * p.1, b.focal * (1 + b.k1 * n + b.k2 * n ^ 2) * p.2)

end Spec
end Theia
