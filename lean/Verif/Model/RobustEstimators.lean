import Verif.Model.LinearSolvers
import Verif.Model.RansacVariants
import Verif.Model.Triangulation

/-!
# Model of the robust estimators of planes and of relations between two images

Models estimate_dominant_plane_from_points.cc, estimate_homography.cc, estimate_fundamental_matrix.cc,
estimate_essential_matrix.cc and estimate_relative_pose_with_known_orientation.cc of src/theia/sfm/estimators, over the reals.
The samplers return as many indices as asked for (C22), so the functions on samples look at lists of one length only.
A matrix that is not a number is `none`, and so are its residuals `⊤`. `Estimate` only ever returns true; what is
returned here is the model and the summary. -/

namespace Theia
namespace RobustEstimators

open Triangulation LinearSolvers RansacVariants

/-- A correspondence of two features. -/
abbrev Match := V2 × V2

/-- `Plane` (estimate_dominant_plane_from_points.h:48-51). -/
structure Plane where
  point : V3 ℝ
  normal : V3 ℝ

/-- `DominantPlaneEstimator::EstimateModel` (estimate_dominant_plane_from_points.cc:63-82). -/
noncomputable def planeModels : List (V3 ℝ) → Option (List Plane)
  | [p0, p1, p2] =>
    let a := p1.sub p0
    let b := p2.sub p0
    let cross := a.cross b
    if cross.dot cross < 1 / 1000000 then none else some [⟨p0, normalize cross⟩]
  | _ => none

/-- `DominantPlaneEstimator::Error` (estimate_dominant_plane_from_points.cc:85-87). -/
noncomputable def planeError (p : V3 ℝ) (m : Plane) : WithTop ℝ := ((|m.normal.dot (p.sub m.point)| : ℝ) : WithTop ℝ)

/-- `EstimateDominantPlaneFromPoints` (estimate_dominant_plane_from_points.cc:95-109). -/
noncomputable def estimatePlane (t : RansacType) (s : Settings) (lmed : List (WithTop ℝ) → WithTop ℝ × List Nat)
    (sample : Nat → Option (List Nat)) (points : List (V3 ℝ)) (initial : Plane) : Outcome (Plane × Ransac.Summary) :=
  consensus t s lmed points sample planeModels 3 planeError initial

/-- `HomographyEstimator::EstimateModel` (estimate_homography.cc:69-87). -/
noncomputable def homographyModels (last : List (Fin 9 → ℝ) → Fin 9 → ℝ) (cs : List Match) : Option (List (Option (M3 ℝ))) :=
  match homography last ((cs.map Prod.fst).take 4) ((cs.map Prod.snd).take 4) with
  | .ok H => some [some H]
  | _ => some [none]

/-- The squared distance of a point from the image of another under a homography (estimate_homography.cc:90-97). Without a
finite image the residual is infinite or not a number. -/
noncomputable def homographyError (c : Match) : Option (M3 ℝ) → WithTop ℝ
  | none => ⊤
  | some H =>
    let r := H.mulVec (homog c.1)
    if r.z = 0 then ⊤ else ((sq2 (c.2.1 - r.x / r.z, c.2.2 - r.y / r.z) : ℝ) : WithTop ℝ)

/-- `EstimateHomography` (estimate_homography.cc:104-119). -/
noncomputable def estimateHomography (last : List (Fin 9 → ℝ) → Fin 9 → ℝ) (t : RansacType) (s : Settings)
    (lmed : List (WithTop ℝ) → WithTop ℝ × List Nat) (sample : Nat → Option (List Nat)) (cs : List Match)
    (initial : Option (M3 ℝ)) : Outcome (Option (M3 ℝ) × Ransac.Summary) :=
  consensus t s lmed cs sample (homographyModels last) 4 homographyError initial

/-- `Error` of the estimators of fundamental and essential matrices (estimate_fundamental_matrix.cc:80-85,
estimate_essential_matrix.cc:79-84): `SquaredSampsonDistance`; without a denominator it is infinite or not a number. -/
noncomputable def matrixError (c : Match) : Option (M3 ℝ) → WithTop ℝ
  | none => ⊤
  | some F =>
    match PoseUtil.sampson F c.1 c.2 with
    | .ok d => (d : WithTop ℝ)
    | _ => ⊤

/-- `FundamentalMatrixEstimator::EstimateModel` (estimate_fundamental_matrix.cc:60-76). -/
noncomputable def fundamentalModels (kernel : Kernel 9) (last : List (Fin 9 → ℝ) → Fin 9 → ℝ)
    (svd : M3 ℝ → M3 ℝ × V3 ℝ × M3 ℝ) (cs : List Match) : Option (List (Option (M3 ℝ))) :=
  match eightPoint kernel last svd ((cs.map Prod.fst).take 8) ((cs.map Prod.snd).take 8) with
  | .ok (some F) => some [some F]
  | .ok none => none
  | _ => some [none]

/-- `EstimateFundamentalMatrix` (estimate_fundamental_matrix.cc:93-110). -/
noncomputable def estimateFundamental (kernel : Kernel 9) (last : List (Fin 9 → ℝ) → Fin 9 → ℝ)
    (svd : M3 ℝ → M3 ℝ × V3 ℝ × M3 ℝ) (t : RansacType) (s : Settings)
    (lmed : List (WithTop ℝ) → WithTop ℝ × List Nat) (sample : Nat → Option (List Nat)) (cs : List Match)
    (initial : Option (M3 ℝ)) : Outcome (Option (M3 ℝ) × Ransac.Summary) :=
  consensus t s lmed cs sample (fundamentalModels kernel last svd) 8 matrixError initial

/-- `EssentialMatrixEstimator::EstimateModel` (estimate_essential_matrix.cc:62-75). `fivePoint` is `FivePointRelativePose`. -/
def essentialModels (fivePoint : List V2 → List V2 → Option (List (M3 ℝ))) (cs : List Match) :
    Option (List (Option (M3 ℝ))) :=
  (fivePoint (cs.map Prod.fst) (cs.map Prod.snd)).map fun Es => Es.map some

/-- `EstimateEssentialMatrix` (estimate_essential_matrix.cc:92-108). -/
noncomputable def estimateEssential (fivePoint : List V2 → List V2 → Option (List (M3 ℝ))) (t : RansacType) (s : Settings)
    (lmed : List (WithTop ℝ) → WithTop ℝ × List Nat) (sample : Nat → Option (List Nat)) (cs : List Match)
    (initial : Option (M3 ℝ)) : Outcome (Option (M3 ℝ) × Ransac.Summary) :=
  consensus t s lmed cs sample (essentialModels fivePoint) 5 matrixError initial

/-- `RelativePoseWithKnownOrientationEstimator::EstimateModel` (estimate_relative_pose_with_known_orientation.cc:34-48). -/
noncomputable def positionModels (kernel : Kernel 3) : List Match → Option (List (V3 ℝ))
  | [c0, c1] => (relativePosition kernel ![c0.1, c1.1] ![c0.2, c1.2]).map fun p => [p]
  | _ => none

/-- `RelativePoseWithKnownOrientationEstimator::Error` (estimate_relative_pose_with_known_orientation.cc:52-58). -/
noncomputable def positionError (c : Match) (p : V3 ℝ) : WithTop ℝ := matrixError c (some (crossMatrix p.neg))

/-- `EstimateRelativePoseWithKnownOrientation` (estimate_relative_pose_with_known_orientation.cc:66-83). -/
noncomputable def estimatePosition (kernel : Kernel 3) (t : RansacType) (s : Settings)
    (lmed : List (WithTop ℝ) → WithTop ℝ × List Nat) (sample : Nat → Option (List Nat)) (cs : List Match)
    (initial : V3 ℝ) : Outcome (V3 ℝ × Ransac.Summary) :=
  consensus t s lmed cs sample (positionModels kernel) 2 positionError initial

end RobustEstimators
end Theia
