import Verif.Model.Localize

/-!
# Specification of localising a view
-/

namespace Theia
namespace Spec

open Localize

variable {F P M O X L N W : Type}

/-- The 2D-3D pairs of a view, for tracks listed in some order: the estimated tracks with their feature and point. -/
def pointPairs (r : Reconstruction F P) (V : View F) (f : F → N) (world : P → W) (ts : List TrackId) : List (N × W) :=
  ts.filterMap fun t =>
    match r.track t, V.getFeature t with
    | some T, some x => if T.estimated then some (f x, world T.payload) else none
    | _, _ => none

/-- As documented: the focal length has a prior or an estimated other view shares the intrinsics. -/
def KnownIntrinsics (prior : ViewId → Bool) (r : Reconstruction F P) (v : ViewId) : Prop :=
  prior v = true ∨ ∃ w W, w ≠ v ∧ r.groupOf w = r.groupOf v ∧ r.view w = some W ∧ W.estimated = true

/-- As coded: the focal length has a prior, or the view itself is already estimated and shares its intrinsics. -/
def CodedKnown (prior : ViewId → Bool) (r : Reconstruction F P) (v : ViewId) : Prop :=
  prior v = true ∨ (∃ V, r.view v = some V ∧ V.estimated = true) ∧ ∃ w, w ≠ v ∧ ∃ g, r.groupOf w = some g ∧ r.groupOf v = some g

/-- The pose solver for the case accepted the pairs, with inliers `inl`, and gave this pose and intrinsics. -/
inductive Solved (n : Numerics F P M O X L N W) (o : Options) (s : Scene F P M O X) (v : ViewId) (V : View F)
    (ts : List TrackId) (known : Bool) (inl : List Nat) : O → X → M → Prop
  /-- The orientation is taken as known: only the position is solved for; more than the minimum of inliers is needed. -/
  | position (x : X) : o.knownOrientation = true →
      n.solvePosition (s.orientation v) (pointPairs s.recon V (n.normalize (s.heap V.intrinsics)) n.world ts) = ⟨some x, inl⟩ →
      o.minInliers < inl.length → Solved n o s v V ts known inl (s.orientation v) x (s.heap V.intrinsics)
  /-- The intrinsics are known. -/
  | pose (q : O) (x : X) : o.knownOrientation = false → known = true →
      n.solvePose (pointPairs s.recon V (n.normalize (s.heap V.intrinsics)) n.world ts) = ⟨some (q, x), inl⟩ →
      Solved n o s v V ts known inl q x (s.heap V.intrinsics)
  /-- The focal length is solved for. -/
  | focal (q : O) (x : X) (l : L) (m : M) : o.knownOrientation = false → known = false →
      n.solvePoseFocal (pointPairs s.recon V (n.shift (s.heap V.intrinsics)) n.world ts) = ⟨some (q, x, l), inl⟩ →
      n.setFocal l (s.heap V.intrinsics) = .ok m → Solved n o s v V ts known inl q x m

/-- The record of the view after localisation. -/
def markEstimated (r : Reconstruction F P) (v : ViewId) (V : View F) : Reconstruction F P :=
  { r with views := r.views.insert v { V with estimated := true } }

end Spec
end Theia
