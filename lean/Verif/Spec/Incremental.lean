import Verif.Model.Incremental
import Verif.Spec.EstimatorUtils

/-!
# What incremental reconstruction needs and gives
-/

namespace Theia.Spec

open Incremental

variable {F P M O X L N W D C : Type}

/-- The iteration orders and schedules are orders of what they are given, setting intrinsics does not end the program, and
whether two rays are far enough apart does not depend on their order. -/
structure WellBehaved (num : Numerics F P M O X L N W D C) : Prop where
  order : ∀ k l, (num.order k l).Perm l
  schedule : ∀ k l, (num.schedule k l).Perm l
  calibrate : ∀ s, ∃ h, num.calibrate s = .ok h
  focal : ∀ k l m, ∃ m', (num.localization k).setFocal l m = .ok m'
  wide : ∀ s a b, (num.outliers s).wide a b = (num.outliers s).wide b a

/-- Options the constructor accepts, with at least one thread. -/
structure ValidOptions (o : Incremental.Options) : Prop where
  ratio : 0 ≤ o.localizationRatio ∧ o.localizationRatio ≤ 1
  growth : 0 ≤ o.growthPercent
  views : 0 ≤ o.partialViews
  threads : 1 ≤ o.numThreads

/-- The views of the view graph are views of the reconstruction. -/
def GraphViews {I : Type} (g : ViewGraph I) (r : Reconstruction F P) : Prop := ∀ v ∈ g.viewIds, ∃ V, r.view v = some V

/-- Nothing is estimated yet. -/
def NothingEstimated (r : Reconstruction F P) : Prop :=
  (∀ v V, r.view v = some V → V.estimated = false) ∧ ∀ t T, r.track t = some T → T.estimated = false

/-- Views are tried as initial pair by increasing number of homography inliers, then by decreasing number of matches. -/
def BetterSeed (a b : TwoView O X L) : Prop :=
  a.homographyInliers < b.homographyInliers ∨
    (a.homographyInliers = b.homographyInliers ∧ b.verifiedMatches ≤ a.verifiedMatches)

/-- The features of the estimated tracks a view observes. -/
def estimatedFeatures (r : Reconstruction F P) (V : View F) : List F := (estimatedTracksIn r V).filterMap V.getFeature

/-- The geometry of the outlier test depends on the cameras, not on what is estimated. -/
def CamerasOnly (num : Numerics F P M O X L N W D C) : Prop :=
  ∀ scene r, num.outliers { scene with recon := r } = num.outliers scene

/-- No estimated track is an outlier. -/
def NoOutliers (num : Numerics F P M O X L N W D C) (maxError : ℚ) (scene : Localize.Scene F P M O X) : Prop :=
  ∀ t T, scene.recon.track t = some T → T.estimated = true → ¬ IsOutlier (num.outliers scene) maxError scene.recon t T

/-- Some bundle adjustment does not succeed. -/
def AdjustFails (num : Numerics F P M O X L N W D C) : Prop :=
  ∃ k scene views tracks, (num.adjust k scene views tracks).success = false

/-- An attempt to localize the view failed on a scene with the same features and the same estimated tracks. -/
def LocalizationFails (num : Numerics F P M O X L N W D C) (o : Incremental.Options) (r : Reconstruction F P) (v : ViewId) :
    Prop :=
  ∃ k scene scene' inl, SameStructure scene.recon r ∧ (∀ t, scene.recon.track t = r.track t) ∧
    Localize.localize (num.order k) (num.localization k) ⟨false, true, o.minInliers⟩ v scene [] = .ok (false, scene', inl)

end Theia.Spec
