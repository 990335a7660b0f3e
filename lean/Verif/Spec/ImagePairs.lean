import Verif.Model.ImagePairs

/-!
# What the selection of image pairs should do
-/

namespace Theia.Spec

open ImagePairs

variable {K : Type} [LinearOrder K]

/-- The score of two images in either order. -/
def scoreOf (score : Nat → Nat → K) (i j : Nat) : K := if i < j then score i j else score j i

/-- How many of `n` images are nearer to image `i` than image `j` is; of equally near ones the smaller index
counts as nearer. -/
def nearerCount (score : Nat → Nat → K) (n i j : Nat) : Nat :=
  ((List.range n).filter (fun l => decide (l ≠ i ∧
    (scoreOf score i l < scoreOf score i j ∨ (scoreOf score i l = scoreOf score i j ∧ l < j))))).length

/-- Image `j` is one of the `k` nearest of image `i`. -/
def KNearest (score : Nat → Nat → K) (n k i j : Nat) : Prop :=
  i < n ∧ j < n ∧ i ≠ j ∧ nearerCount score n i j < k

/-- Query expansion: later image `q` has a near image `s` that was linked to `p` before `q` was looked at. -/
def Expanded (score : Nat → Nat → K) (n k p q : Nat) : Prop :=
  ∃ s, KNearest score n k q s ∧
    ((p < q ∧ KNearest score n k p s) ∨ (s < q ∧ KNearest score n k s p))

/-- `std::partial_sort` with the middle at `k`: a permutation with none of the rest less than any
of the first `k` (whose order does not matter here). -/
def IsPartialSortAt (ps : Nat → List (K × Nat) → List (K × Nat)) : Prop :=
  ∀ k l, k ≤ l.length → (ps k l).Perm l ∧
    ∀ x ∈ (ps k l).take k, ∀ y ∈ (ps k l).drop k, x.1 < y.1 ∨ (x.1 = y.1 ∧ x.2 ≤ y.2)

end Theia.Spec
