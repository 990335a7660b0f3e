import Verif.Model.PriorityQueue

/-!
# What the standard promises about heap algorithms, and what a keyed priority queue should do
-/

namespace Theia.Spec

/-- A strict weak order on the members of a list, as `std` comparators must be. -/
structure StrictWeakOn {α : Type} (lt : α → α → Bool) (l : List α) : Prop where
  asymm : ∀ a ∈ l, ∀ b ∈ l, lt a b = true → lt b a = false
  negTrans : ∀ a ∈ l, ∀ b ∈ l, ∀ c ∈ l, lt a b = false → lt b c = false → lt a c = false

/-- A strict weak order. -/
structure StrictWeak {α : Type} (lt : α → α → Bool) : Prop where
  asymm : ∀ a b, lt a b = true → lt b a = false
  negTrans : ∀ a b c, lt a b = false → lt b c = false → lt a c = false

/-- The heap order of the standard: no entry is below its child. -/
def IsHeap {α : Type} (lt : α → α → Bool) (l : List α) : Prop :=
  ∀ (i : Nat) (p c : α), 0 < i → l[(i - 1) / 2]? = some p → l[i]? = some c → lt p c = false

/-- The promises of `std::make_heap`, `std::push_heap` and `std::pop_heap`. -/
structure HeapLaws (A : HeapAlgo) : Prop where
  make_perm : ∀ lt l, (A.make lt l).Perm l
  make_heap : ∀ lt l, StrictWeakOn lt l → IsHeap lt (A.make lt l)
  push_perm : ∀ lt l, (A.push lt l).Perm l
  push_heap : ∀ lt l x, StrictWeakOn lt (l ++ [x]) → IsHeap lt l → IsHeap lt (A.push lt (l ++ [x]))
  pop_perm : ∀ lt l, (A.pop lt l).Perm l
  pop_heap : ∀ lt x l, StrictWeakOn lt l → IsHeap lt (x :: l) → IsHeap lt (A.pop lt l)

end Theia.Spec
