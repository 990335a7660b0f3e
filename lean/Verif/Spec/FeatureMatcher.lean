import Verif.Model.FeatureMatcher

/-!
# What feature matching should do
-/

namespace Theia.Spec

open Matcher

variable {F I M K D : Type}

/-- The match of an ordered pair of images that have features: what the pair matcher makes of the stored
features and priors. -/
def pairResult (pm : PairMatcher F I M) (imageName : F → ImageName) (d : MatchDB.Mem F I M)
    (a b : ImageName) : Option M :=
  match d.features.get a, d.features.get b with
  | some f1, some f2 => pm f1 f2 (d.priors.get (imageName f1)) (d.priors.get (imageName f2))
  | _, _ => none

variable [Field K] [LinearOrder K]

/-- `std::partial_sort` with the middle at the second position, by distance: a permutation whose first two
elements are in order and not above any of the rest. -/
def IsPartialSort (ps : List (FMatch K) → List (FMatch K)) : Prop :=
  ∀ l, 2 ≤ l.length → ∃ a b rest, ps l = a :: b :: rest ∧ (a :: b :: rest).Perm l ∧
    a.distance ≤ b.distance ∧ ∀ x ∈ rest, b.distance ≤ x.distance

/-- Among the descriptors `ys`, number `j` is nearest to `x`. -/
def Nearest (dist : D → D → K) (x : D) (ys : List D) (j : Nat) : Prop :=
  ∃ y, ys[j]? = some y ∧ ∀ y' ∈ ys, dist x y ≤ dist x y'

/-- Number `j` beats every other one by the squared ratio. -/
def BeatsAll (o : Options K) (dist : D → D → K) (x : D) (ys : List D) (j : Nat) : Prop :=
  ∃ y, ys[j]? = some y ∧
    ∀ (j' : Nat) y', ys[j']? = some y' → j' ≠ j → dist x y < o.lowesRatio * o.lowesRatio * dist x y'

end Theia.Spec
