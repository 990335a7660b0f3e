import Mathlib.Algebra.BigOperators.Group.List.Basic
import Verif.Model.CascadeHasher

/-!
# What cascade hashing should do
-/

namespace Theia.Spec

open Cascade

variable {D K : Type}

/-- The binary number whose digits, most significant first, are the first `n` of `bit`. -/
def binary (bit : Nat → Bool) : Nat → Nat
  | 0 => 0
  | n + 1 => 2 * binary bit n + (if bit n then 1 else 0)

/-- Descriptor `x` of one image and `y` of another fall into the same bucket of group `g`: their ten sign
bits agree. -/
def SameBucket (s1 s2 : Signs D) (x y : D) (g : Nat) : Prop :=
  ∀ k < 10, s1.secondary x g k = s2.secondary y g k

instance (s1 s2 : Signs D) (x y : D) (g : Nat) : Decidable (SameBucket s1 s2 x y g) :=
  inferInstanceAs (Decidable (∀ k < 10, _))

/-- In how many of the six groups they share the bucket. -/
def sharedGroups (s1 s2 : Signs D) (x y : D) : Nat :=
  ((List.range 6).filter (fun g => decide (SameBucket s1 s2 x y g))).length

/-- How many candidates the descriptors `ys` are for `x`, each counted once per shared bucket. -/
def candidateCount (s1 s2 : Signs D) (x : D) (ys : List D) : Nat :=
  (ys.map (sharedGroups s1 s2 x)).sum

/-- The number of primary sign bits in which the two differ. -/
def codeDistance (s1 s2 : Signs D) (x y : D) : Nat :=
  ((List.range 128).filter (fun j => s1.primary x j != s2.primary y j)).length

/-- `T` lists, without repetition, at most eleven of the descriptors that share a bucket with `x`; all of
them if there are no more than eleven, and otherwise eleven with the least code distance. -/
structure TopEleven (s1 s2 : Signs D) (x : D) (ys : List D) (T : List Nat) : Prop where
  nodup : T.Nodup
  shares : ∀ c ∈ T, ∃ y, ys[c]? = some y ∧ 0 < sharedGroups s1 s2 x y
  few : T.length ≤ 11
  all : T.length < 11 → ∀ (c : Nat) y, ys[c]? = some y → 0 < sharedGroups s1 s2 x y → c ∈ T
  least : ∀ t ∈ T, ∀ yt, ys[t]? = some yt → ∀ (c : Nat) y, ys[c]? = some y → 0 < sharedGroups s1 s2 x y →
    c ∉ T → codeDistance s1 s2 x yt ≤ codeDistance s1 s2 x y

variable [Field K] [LinearOrder K]

/-- The order of `std::pair<float, int>`. -/
def PairLe (a b : K × Nat) : Prop := a.1 < b.1 ∨ (a.1 = b.1 ∧ a.2 ≤ b.2)

/-- `std::partial_sort` with the middle at the second position. -/
def IsPairPartialSort (ps : List (K × Nat) → List (K × Nat)) : Prop :=
  ∀ l, 2 ≤ l.length → ∃ a b rest, ps l = a :: b :: rest ∧ (a :: b :: rest).Perm l ∧
    PairLe a b ∧ ∀ x ∈ rest, PairLe b x

/-- Candidate `j` of `T` is the nearest to `x` in descriptor distance, the smaller index first, and its
distance is at most the squared ratio times the distance of every other candidate. -/
def Accepts (dist : D → D → K) (ratio : K) (x : D) (ys : List D) (T : List Nat) (j : Nat) : Prop :=
  j ∈ T ∧ ∃ y, ys[j]? = some y ∧ ∀ t ∈ T, t ≠ j → ∀ yt, ys[t]? = some yt →
    (dist y x < dist yt x ∨ (dist y x = dist yt x ∧ j ≤ t)) ∧ dist y x ≤ dist yt x * (ratio * ratio)

end Theia.Spec
