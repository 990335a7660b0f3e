import Mathlib.Analysis.Real.Sqrt
import Verif.Model.Hybrid
import Verif.Spec.Incremental

/-!
# What hybrid reconstruction needs and gives
-/

namespace Theia.Spec

variable {F P M O X L N W D C : Type}

/-- As for incremental reconstruction, and every angle between two principal rays is a number. -/
structure HybridWellBehaved (num : Hybrid.Numerics F P M O X L N W D C) : Prop where
  common : WellBehaved num.common
  angle : ∀ p k q l, ∃ a, num.angle p k q l = some a ∧ 0 ≤ a

/-- Every two views with more than a hundred matches have a track in common. -/
def ShareTracks (g : ViewGraph (Incremental.TwoView O X L)) (r : Reconstruction F P) : Prop :=
  ∀ a b info, a < b → g.getEdge a b = some info → (100 : Int) < info.verifiedMatches →
    ∃ A B t, r.view a = some A ∧ r.view b = some B ∧ t ∈ A.trackIds ∧ t ∈ B.trackIds

/-- The orientation of a view after the first step: the estimated one if there is one. -/
def startOrientation (orientations : AMap ViewId O) (scene : Localize.Scene F P M O X) (v : ViewId) : O :=
  match orientations.get v, scene.recon.view v with
  | some q, some _ => q
  | _, _ => scene.orientation v

/-- Some orientation a pose solver has returned. -/
def FromSolver (num : Incremental.Numerics F P M O X L N W D C) (q : O) : Prop :=
  ∃ k ms, (∃ x, ((num.localization k).solvePose ms).result = some (q, x)) ∨
    ∃ x l, ((num.localization k).solvePoseFocal ms).result = some (q, x, l)

/-- The angle between two cameras in degrees, zero unless both orientations are known. -/
def startAngle (num : Hybrid.Numerics F P M O X L N W D C) (orientations : AMap ViewId O) (scene : Localize.Scene F P M O X)
    (a b : ViewId) : ℚ :=
  match orientations.get a, orientations.get b, scene.recon.view a, scene.recon.view b with
  | some _, some _, some A, some B =>
    (num.angle (scene.orientation a) (scene.heap A.intrinsics) (scene.orientation b) (scene.heap B.intrinsics)).getD 0
  | _, _, _, _ => 0

/-- Twice the square root of the angle, at most 45 degrees, to the nearest integer. -/
noncomputable def angleClass (a : ℚ) : Int := round (2 * Real.sqrt (min (a : ℝ) 45))

/-- Pairs are tried by decreasing class of angle, then by decreasing number of matches. -/
def BetterStart (num : Hybrid.Numerics F P M O X L N W D C) (orientations : AMap ViewId O) (scene : Localize.Scene F P M O X)
    (a b : ViewId) (i : Incremental.TwoView O X L) (c d : ViewId) (j : Incremental.TwoView O X L) : Prop :=
  angleClass (startAngle num orientations scene c d) < angleClass (startAngle num orientations scene a b) ∨
    (angleClass (startAngle num orientations scene c d) = angleClass (startAngle num orientations scene a b) ∧
      j.verifiedMatches ≤ i.verifiedMatches)

/-- Attempts to localize the view, with the known orientation if there is one and without, failed on scenes with the same
features and the same estimated tracks. -/
def HybridLocalizationFails (num : Incremental.Numerics F P M O X L N W D C) (minInliers : Int) (known : Bool)
    (r : Reconstruction F P) (v : ViewId) : Prop :=
  ∀ b : Bool, (b = true → known = true) → ∃ k scene scene' inl, SameStructure scene.recon r ∧
    (∀ t, scene.recon.track t = r.track t) ∧
    Localize.localize (num.order k) (num.localization k) ⟨b, false, minInliers⟩ v scene [] = .ok (false, scene', inl)

end Theia.Spec
