import Verif.Model.NonlinearPosition

/-!
# What the non-linear estimation of positions is about
-/

namespace Theia.Spec

open NonlinearPosition

variable {F P M O D X : Type}

/-- Orders of iteration are permutations, and `std::partial_sort` puts the largest first, in descending order. -/
structure ValidOrders (ord : Orders) : Prop where
  positions : ∀ l, (ord.positions l).Perm l
  features : ∀ l, (ord.features l).Perm l
  observers : ∀ l, (ord.observers l).Perm l
  chosen : ∀ l, (ord.chosen l).Perm l
  perm : ∀ k c, k ≤ c.length → (ord.partialSort k c).Perm c
  sorted : ∀ k c, k ≤ c.length → ((ord.partialSort k c).take k).Pairwise fun a b => b.2 ≤ a.2
  largest : ∀ k c, k ≤ c.length → ∀ a ∈ (ord.partialSort k c).take k, ∀ b ∈ (ord.partialSort k c).drop k, b.2 ≤ a.2

/-- The view has an orientation and is in a pair. -/
def GetsPosition (pairs : List ((ViewId × ViewId) × D)) (orientations : AMap ViewId O) (v : ViewId) : Prop :=
  (∃ q, orientations.get v = some q) ∧ ∃ p ∈ pairs, p.1.1 = v ∨ p.1.2 = v

/-- One constraint of weight one for each pair of views with orientations, on the direction in the world. -/
def cameraConstraints (g : Geometry F M O D X) (pairs : List ((ViewId × ViewId) × D)) (orientations : AMap ViewId O) :
    List (Block D) :=
  pairs.filterMap fun p =>
    match orientations.get p.1.1, orientations.get p.1.2 with
    | some q, some _ => some (.camera p.1.1 p.1.2 (g.rotate q p.2) 1)
    | _, _ => none

/-- The constraint is on a point. -/
def onPoint : Block D → Bool
  | .camera _ _ _ _ => false
  | .point _ _ _ _ => true

/-- The weight of a constraint. -/
def blockWeight : Block D → ℚ
  | .camera _ _ _ w => w
  | .point _ _ _ w => w

/-- The constraints on points are those of the observations of `chosen` tracks in views that get a position. -/
structure PointConstraints (g : Geometry F M O D X) (r : Reconstruction F P) (camera : ViewId → O × M)
    (pairs : List ((ViewId × ViewId) × D)) (orientations : AMap ViewId O) (chosen : List TrackId) (w : ℚ)
    (blocks : List (Block D)) : Prop where
  tracks : ∀ t ∈ chosen, ∃ T, r.track t = some T ∧ ∃ v ∈ T.views, GetsPosition pairs orientations v
  mem : ∀ b, b ∈ blocks ↔ ∃ t ∈ chosen, ∃ v V f, GetsPosition pairs orientations v ∧ r.view v = some V ∧
    V.getFeature t = some f ∧ b = .point v t (g.ray (camera v).1 (camera v).2 f) w
  once : blocks.Nodup

end Theia.Spec
