import Verif.Model.Export
import Verif.Spec.EstimatedPart

/-!
# Specification of the NVM, COLMAP and PLY files
-/

namespace Theia
namespace Spec

open Export Bundler

variable {K : Type} [Field K]

/-- The unit quaternion `q` is the rotation `m`. -/
def QuatOf (m : M3 K) (q : Quat K) : Prop :=
  q.w ^ 2 + q.x ^ 2 + q.y ^ 2 + q.z ^ 2 = 1 ∧
    m = ⟨⟨1 - 2 * (q.y ^ 2 + q.z ^ 2), 2 * (q.x * q.y - q.w * q.z), 2 * (q.x * q.z + q.w * q.y)⟩,
         ⟨2 * (q.x * q.y + q.w * q.z), 1 - 2 * (q.x ^ 2 + q.z ^ 2), 2 * (q.y * q.z - q.w * q.x)⟩,
         ⟨2 * (q.x * q.z - q.w * q.y), 2 * (q.y * q.z + q.w * q.x), 1 - 2 * (q.x ^ 2 + q.y ^ 2)⟩⟩

/-- The list contains each view of the reconstruction once. -/
def ListsViews {F P : Type} (r : Reconstruction F P) (ids : List ViewId) : Prop :=
  ids.Nodup ∧ ∀ v, v ∈ ids ↔ ∃ V, r.view v = some V

/-- The list contains each track of the reconstruction once. -/
def ListsTracks {F P : Type} (r : Reconstruction F P) (ids : List TrackId) : Prop :=
  ids.Nodup ∧ ∀ t, t ∈ ids ↔ ∃ T, r.track t = some T

/-- The NVM file describes the scene, with the views and tracks in the given orders. -/
structure IsNvmOf (s : Scene K) (ids : List ViewId) (tids : List TrackId) (f : NvmFile K) : Prop where
  views : ListsViews s.recon ids
  tracks : ListsTracks s.recon tids
  numCams : f.numCams = ids.length ∧ f.cams.length = ids.length
  numPoints : f.numPoints = tids.length ∧ f.points.length = tids.length
  camera : ∀ (i : Nat) v V (c : NvmCam K), ids[i]? = some v → s.recon.view v = some V → f.cams[i]? = some c →
    c.name = V.name ∧ c.focal = (s.cam v).focal ∧ QuatOf (s.cam v).rot c.quat ∧ c.pos = (s.cam v).pos ∧ c.k1 = (s.cam v).k1
  point : ∀ (j : Nat) t T (p : NvmPoint K), tids[j]? = some t → s.recon.track t = some T → f.points[j]? = some p →
    p.pos.smul T.payload.w = T.payload.point ∧ p.color = T.payload.color ∧ p.count = T.views.length ∧
    p.obs.length = T.views.length ∧ ∀ v ∈ T.views, ∃ V g, s.recon.view v = some V ∧ V.getFeature t = some g ∧
      ∃ m ∈ p.obs, ids[m.view]? = some v ∧ m.x = g.1 - (s.cam v).px ∧ m.y = g.2 - (s.cam v).py ∧ m.feature < V.trackIds.length
  distinct : ∀ (j k : Nat) (p q : NvmPoint K) m n, f.points[j]? = some p → f.points[k]? = some q → m ∈ p.obs → n ∈ q.obs →
    m.view = n.view → m.feature = n.feature → j = k ∧ m = n

/-- The imported scene is a copy of the scene with the views numbered by `num` and the tracks by `tnum`. The features are relative to
the principal point. Every view and every track is estimated, and the distortion and the principal point are those of a new camera. -/
structure IsNvmCopy (base : String → String) (default : Cam K) (s : Scene K) (s' : Loaded K) (num : ViewId → ViewId)
    (tnum : TrackId → TrackId) : Prop where
  viewInj : ∀ v w, s.recon.view v ≠ none → s.recon.view w ≠ none → num v = num w → v = w
  views : ∀ w, (∃ W, s'.recon.view w = some W) ↔ ∃ v, s.recon.view v ≠ none ∧ num v = w
  view : ∀ v V, s.recon.view v = some V → ∃ V', s'.recon.view (num v) = some V' ∧ V'.name = base V.name ∧ V'.estimated = true ∧
    s'.cams.get (num v) = some { s.cam v with k1 := default.k1, k2 := default.k2, px := default.px, py := default.py } ∧
    ∀ t T, s.recon.track t = some T → ∀ f', V'.getFeature (tnum t) = some f' ↔
      ∃ f, V.getFeature t = some f ∧ f' = (f.1 - (s.cam v).px, f.2 - (s.cam v).py)
  trackInj : ∀ t u, s.recon.track t ≠ none → s.recon.track u ≠ none → tnum t = tnum u → t = u
  tracks : ∀ u, (∃ U, s'.recon.track u = some U) ↔ ∃ t, s.recon.track t ≠ none ∧ tnum t = u
  track : ∀ t T, s.recon.track t = some T → ∃ T', s'.recon.track (tnum t) = some T' ∧ T'.estimated = true ∧
    T'.payload.w = 1 ∧ T'.payload.point.smul T.payload.w = T.payload.point ∧ T'.payload.color = T.payload.color ∧
    ∀ w, w ∈ T'.views ↔ ∃ v, v ∈ T.views ∧ num v = w

/-- The COLMAP files describe the reconstruction `r` with the given cameras and image sizes, except for the last coefficient of
the distortion. -/
structure IsColmapOf (r : Reconstruction (K × K) (Point K)) (cam : ViewId → Cam K) (size : ViewId → Nat × Nat)
    (f : ColmapFiles K) : Prop where
  cameras : (f.cameras.map (·.id)).Nodup ∧ ∀ g, g ∈ f.cameras.map (·.id) ↔ ∃ v V, r.view v = some V ∧ r.groupOf v = some g
  camera : ∀ c ∈ f.cameras, ∃ v V, r.view v = some V ∧ r.groupOf v = some c.id ∧ (c.width, c.height) = size v ∧
    c.focal = (cam v).focal ∧ c.px = (cam v).px ∧ c.py = (cam v).py ∧ c.k1 = (cam v).k1
  images : ListsViews r (f.images.map (·.id))
  image : ∀ i ∈ f.images, ∀ V, r.view i.id = some V → i.name = V.name ∧ r.groupOf i.id = some i.camera ∧
    QuatOf (cam i.id).rot i.quat ∧
    (∀ X, ((cam i.id).rot.mulVec X).add i.trans = (cam i.id).rot.mulVec (X.sub (cam i.id).pos)) ∧
    (i.points.map (·.2.2)).Nodup ∧ ∀ x y t, (x, y, t) ∈ i.points ↔ V.getFeature t = some (x, y)
  points : ListsTracks r (f.points.map (·.id))
  point : ∀ p ∈ f.points, ∀ T, r.track p.id = some T → p.pos.smul T.payload.w = T.payload.point ∧ p.color = T.payload.color ∧
    (p.track.map (·.1)).Nodup ∧ (∀ v, v ∈ p.track.map (·.1) ↔ v ∈ T.views) ∧
    ∀ m ∈ p.track, ∃ i ∈ f.images, i.id = m.1 ∧ ∃ x y, i.points[m.2]? = some (x, y, p.id)

/-- The PLY file has the points of the listed tracks and then the positions of the listed views. -/
structure IsPlyOf (s : Scene K) (min : Int) (tids : List TrackId) (ids : List ViewId) (f : PlyFile K) : Prop where
  tracks : tids.Nodup ∧ ∀ t, t ∈ tids ↔ ∃ T, s.recon.track t = some T ∧ T.estimated = true ∧ min ≤ T.views.length
  views : ids.Nodup ∧ ∀ v, v ∈ ids ↔ ∃ V, s.recon.view v = some V ∧ V.estimated = true
  count : f.count = f.vertices.length ∧ f.vertices.length = tids.length + ids.length
  point : ∀ (j : Nat) t T (x : V3 K × (Nat × Nat × Nat)), tids[j]? = some t → s.recon.track t = some T → f.vertices[j]? = some x →
    x.1.smul T.payload.w = T.payload.point ∧ x.2 = T.payload.color
  camera : ∀ (j : Nat) v (x : V3 K × (Nat × Nat × Nat)), ids[j]? = some v → f.vertices[tids.length + j]? = some x → x = ((s.cam v).pos, (0, 255, 0))

end Spec
end Theia
