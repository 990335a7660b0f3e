import Verif.Base.Outcome
import Verif.Base.RealVectors
import Verif.Model.Transform

/-!
# Alignment of point clouds and of reconstructions

Models src/theia/sfm/transformation/align_point_clouds.cc, src/theia/sfm/find_common_views_by_name.cc and
`AlignReconstructions` (src/theia/sfm/transformation/align_reconstructions.cc) over the reals. `svd` is `Eigen::JacobiSVD`:
the matrices `U` and `V` and the singular values.
-/

namespace Theia
namespace AlignPoints

/-- The sum of vectors. -/
noncomputable def sumV : List (V3 ℝ) → V3 ℝ
  | [] => V3.zero
  | v :: vs => v.add (sumV vs)

/-- The sum of matrices. -/
noncomputable def addM (a b : M3 ℝ) : M3 ℝ := ⟨a.r1.add b.r1, a.r2.add b.r2, a.r3.add b.r3⟩

/-- The sum of matrices. -/
noncomputable def sumM : List (M3 ℝ) → M3 ℝ
  | [] => ⟨V3.zero, V3.zero, V3.zero⟩
  | m :: ms => addM m (sumM ms)

/-- The product of a column and a row. -/
noncomputable def outer (a b : V3 ℝ) : M3 ℝ := ⟨b.smul a.x, b.smul a.y, b.smul a.z⟩

/-- A multiple of a matrix. -/
noncomputable def scaleM (s : ℝ) (m : M3 ℝ) : M3 ℝ := ⟨m.r1.smul s, m.r2.smul s, m.r3.smul s⟩

/-- A weight with the left and the right point. -/
structure Match where
  weight : ℝ
  left : V3 ℝ
  right : V3 ℝ

/-- The weights with the points, when the sizes agree. -/
def zipMatches (left right : List (V3 ℝ)) (weights : List ℝ) : List Match :=
  (List.zip weights (List.zip left right)).map (fun p => ⟨p.1, p.2.1, p.2.2⟩)

/-- `weights_sum` (align_point_clouds.cc:79-83). -/
noncomputable def weightSum (ms : List Match) : ℝ := (ms.map (·.weight)).sum

/-- `left_centroid` (lines 84, 90). -/
noncomputable def leftCentroid (ms : List Match) : V3 ℝ :=
  (sumV (ms.map (fun m => m.left.smul m.weight))).smul (weightSum ms)⁻¹

/-- `right_centroid` (lines 85, 91). -/
noncomputable def rightCentroid (ms : List Match) : V3 ℝ :=
  (sumV (ms.map (fun m => m.right.smul m.weight))).smul (weightSum ms)⁻¹

/-- `sigma` (lines 93-97). -/
noncomputable def sigma (ms : List Match) : ℝ :=
  (ms.map (fun m => (m.left.sub (leftCentroid ms)).dot (m.left.sub (leftCentroid ms)) * m.weight)).sum / weightSum ms

/-- `cross_correlation` (lines 101-106). -/
noncomputable def crossCorrelation (ms : List Match) : M3 ℝ :=
  scaleM (weightSum ms)⁻¹ (sumM (ms.map (fun m =>
    scaleM m.weight (outer (m.left.sub (leftCentroid ms)) (m.right.sub (rightCentroid ms))))))

/-- The rotation, the translation and the scale. -/
structure Similarity where
  rotation : M3 ℝ
  translation : V3 ℝ
  scale : ℝ

/-- The result from the decomposition (lines 109-124). -/
noncomputable def fromSvd (ms : List Match) (d : M3 ℝ × M3 ℝ × V3 ℝ) : Similarity :=
  let e : ℝ := if 0 < d.1.det * d.2.1.transpose.det then 1 else -1
  let scale := (d.2.2.x + d.2.2.y + e * d.2.2.z) / sigma ms
  let rotation := (d.1.mul ⟨⟨1, 0, 0⟩, ⟨0, 1, 0⟩, ⟨0, 0, e⟩⟩).mul d.2.1.transpose
  ⟨rotation, (rightCentroid ms).sub ((rotation.mulVec (leftCentroid ms)).smul scale), scale⟩

open Classical in
/-- `AlignPointCloudsUmeyamaWithWeights` (lines 52-125). `left[0]` of an empty vector is undefined; so is the result of the
division by `sigma` when it is zero. -/
noncomputable def alignWeighted (svd : M3 ℝ → M3 ℝ × M3 ℝ × V3 ℝ) (left right : List (V3 ℝ)) (weights : List ℝ) :
    Outcome Similarity :=
  if left.length ≠ right.length then .abort
  else if left.length ≠ weights.length then .abort
  else if left.length = 0 then .ub
  else if ∃ w ∈ weights, w < 0 then .abort
  else if weightSum (zipMatches left right weights) ≤ 0 then .abort
  else if sigma (zipMatches left right weights) = 0 then .ub
  else .ok (fromSvd (zipMatches left right weights)
    (svd (crossCorrelation (zipMatches left right weights)).transpose))

/-- `AlignPointCloudsUmeyama` (lines 42-50). -/
noncomputable def align (svd : M3 ℝ → M3 ℝ × M3 ℝ × V3 ℝ) (left right : List (V3 ℝ)) : Outcome Similarity :=
  alignWeighted svd left right (List.replicate left.length 1)

end AlignPoints

namespace AlignReconstructions

open Transform AlignPoints

/-- A reconstruction: its views and tracks, and the name of each view (`view_name_to_id_` and `View::Name`). -/
structure Named (A I : Type) where
  scene : Scene A I ℝ
  ids : AMap String Nat
  names : AMap Nat String

variable {A I : Type}

/-- The loop of `FindCommonViewsByName` (find_common_views_by_name.cc:54-62); a missing view is a null pointer. -/
def commonNames (r1 r2 : Named A I) : List Nat → Outcome (List String)
  | [] => .ok []
  | v :: vs =>
    match r1.names.get v with
    | none => .ub
    | some name =>
      match commonNames r1 r2 vs with
      | .abort => .abort
      | .ub => .ub
      | .ok names => .ok (if r2.ids.contains name then name :: names else names)

/-- The position of the view with the given name (align_reconstructions.cc:108-115); a missing view is a null pointer. -/
def positionByName (r : Named A I) (name : String) : Outcome (V3 ℝ) :=
  match r.ids.get name with
  | none => .ub
  | some v =>
    match r.scene.views.get v with
    | none => .ub
    | some view => .ok view.position

/-- The positions of the common views (lines 104-116): those of the second reconstruction and those of the first. -/
def positions (r1 r2 : Named A I) : List String → Outcome (List (V3 ℝ) × List (V3 ℝ))
  | [] => .ok ([], [])
  | name :: names =>
    match positionByName r1 name, positionByName r2 name, positions r1 r2 names with
    | .ok p1, .ok p2, .ok ps => .ok (p2 :: ps.1, p1 :: ps.2)
    | _, _, _ => .ub

/-- `AlignReconstructions` (lines 97-130). `order` is the order of the view ids. -/
noncomputable def alignReconstructions (rep : Rep ℝ) (svd : M3 ℝ → M3 ℝ × M3 ℝ × V3 ℝ) (order : List Nat → List Nat)
    (r1 r2 : Named rep.A I) : Outcome (Named rep.A I) :=
  match commonNames r1 r2 (order r1.scene.views.keys) with
  | .abort => .abort
  | .ub => .ub
  | .ok names =>
    match positions r1 r2 names with
    | .abort => .abort
    | .ub => .ub
    | .ok ps =>
      match align svd ps.1 ps.2 with
      | .abort => .abort
      | .ub => .ub
      | .ok sim =>
        match transform rep sim.rotation sim.translation sim.scale r2.scene with
        | .abort => .abort
        | .ub => .ub
        | .ok sc => .ok { r2 with scene := sc }

end AlignReconstructions
end Theia
