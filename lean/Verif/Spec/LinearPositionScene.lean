import Verif.Model.LinearPosition
import Verif.Spec.LinearPosition

/-!
# Exact input for the linear estimation of global positions
-/

namespace Theia
namespace Spec

open AngleAxis

/-- Three views see the track. -/
def SeenBy (views : AMap Nat (AMap Nat (ℝ × ℝ))) (t : Nat × Nat × Nat) (k : Nat) : Prop :=
  ∃ m1 m2 m3, views.get t.1 = some m1 ∧ views.get t.2.1 = some m2 ∧ views.get t.2.2 = some m3 ∧
    k ∈ m1.keys ∧ k ∈ m2.keys ∧ k ∈ m3.keys

/-- The input is exact: cameras with rotations `G` and positions `c` see points `X`.

* `poses`: every relative pose is the true one, with a translation of length one;
* `oriented`: the first view of every pair has its true orientation, and it is not the identity;
* `features`: every image point is the true one;
* `useful`: every triangle of the graph has a common track that helps;
* `spread`: the three positions of a triangle are not on a line. -/
structure ExactScene (G : Nat → M3 ℝ) (c X : Nat → V3 ℝ) (views : AMap Nat (AMap Nat (ℝ × ℝ)))
    (pairs : AMap (Nat × Nat) BaselineRatios.Info) (orientations : AMap Nat (V3 ℝ)) : Prop where
  rotations : ∀ v, (G v).IsRotation
  wf : pairs.WF
  ordered : ∀ e ∈ pairs.keys, e.1 < e.2
  poses : ∀ e info, pairs.get e = some info → ExactPose G c e.1 e.2 info.rotation info.position
  oriented : ∀ e ∈ pairs.keys, ∃ o, orientations.get e.1 = some o ∧ o ≠ V3.zero ∧ toM o = G e.1
  features : ∀ v m k p, views.get v = some m → m.get k = some p → ExactFeature G c v (X k) p
  useful : ∀ t, IsTriangle pairs.keys t → ∃ k, SeenBy views t k ∧ Useful c t (X k)
  spread : ∀ t, IsTriangle pairs.keys t → Nondegenerate c t
  triangle : ∃ t, IsTriangle pairs.keys t

end Spec
end Theia
