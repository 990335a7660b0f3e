import Verif.Model.FeatureFiles

/-! # What the files of features must keep -/

namespace Theia.Spec

open Theia.FeatureFile

/-- A feature as it comes back from a SIFT key file: the position, scale and orientation to the
precision of floats, the kind SIFT, no strength, and each entry of the descriptor at most one step
of 1/255 below what it was, up to the precision of floats. -/
structure SiftKept {D : Type} (c : Doubles D) (k : Keypoint D) (v : List ℚ) (k' : Keypoint D)
    (v' : List ℚ) : Prop where
  x : k'.x = c.toDouble (c.toFloat k.x)
  y : k'.y = c.toDouble (c.toFloat k.y)
  scale : k'.scale = c.toDouble (c.toFloat k.scale)
  orientation : k'.orientation = c.toDouble (c.toFloat k.orientation)
  kind : k'.kind = sift
  strength : k'.strength = c.invalid
  entries : List.Forall₂ (fun a b => a - 1 / 255 - 1 / 2 ^ 22 < b ∧ b ≤ a + 1 / 2 ^ 22) v v'

/-- The features of two lists of keypoints and two lists of descriptors, one after the other. -/
def SiftAllKept {D : Type} (c : Doubles D) (ks : List (Keypoint D)) (vs : List (List ℚ))
    (ks' : List (Keypoint D)) (vs' : List (List ℚ)) : Prop :=
  ks'.length = ks.length ∧ vs'.length = vs.length ∧
    ∀ (i : Nat) k v, ks[i]? = some k → vs[i]? = some v →
      ∃ k' v', ks'[i]? = some k' ∧ vs'[i]? = some v' ∧ SiftKept c k v k' v'

/-- A descriptor that the format is made for: 128 entries between zero and one. -/
def SiftDescriptor (v : List ℚ) : Prop := v.length = 128 ∧ ∀ a ∈ v, 0 ≤ a ∧ a ≤ 1

end Theia.Spec
