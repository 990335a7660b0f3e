import Verif.Model.Hash

/-!
# C115: equal keys have equal hashes, and which keys never collide

The hash containers of the standard library need a hash function that gives equal keys equal values, where "equal" is
what the key's `==` says: for floating point numbers 0 and -0 are equal.
-/

namespace Theia
open Hash

private theorem hashCombine_inj (seed h h' : Word) (e : hashCombine h seed = hashCombine h' seed) : h = h' := by
  unfold hashCombine at e
  have e1 := (BitVec.xor_right_inj seed).mp e
  have e2 := (BitVec.add_left_inj _).mp e1
  have e3 := (BitVec.add_left_inj _).mp e2
  exact (BitVec.add_left_inj _).mp e3

/-- **C115.** If the hash functions of the components respect equality of the components, as those of the standard
library do, then equal pairs have equal hashes. -/
theorem C115_pair_contract {α β : Type*} (eq₁ : α → α → Prop) (eq₂ : β → β → Prop) (h₁ : α → Word) (h₂ : β → Word)
    (hh₁ : ∀ x y, eq₁ x y → h₁ x = h₁ y) (hh₂ : ∀ x y, eq₂ x y → h₂ x = h₂ y)
    (a b : α × β) (he : eq₁ a.1 b.1 ∧ eq₂ a.2 b.2) : pairHash h₁ h₂ a = pairHash h₁ h₂ b := by
  simp only [pairHash, hh₁ _ _ he.1, hh₂ _ _ he.2]

/-- **C115.** Likewise for matrices with equal entries, of any size. -/
theorem C115_matrix_contract {α : Type*} (eq : α → α → Prop) (h : α → Word) (hh : ∀ x y, eq x y → h x = h y)
    (a b : List α) (he : List.Forall₂ eq a b) : matrixHash h a = matrixHash h b := by
  unfold matrixHash
  generalize (0 : Word) = s
  induction he generalizing s with
  | nil => rfl
  | cons hxy _ ih => simp only [List.foldl_cons, hh _ _ hxy]; exact ih _

/-- **C115.** Two pairs with the same first component collide only if their second components do. So the edges from one
view to all others never collide, as the hash of an id is the id. (Missing: pairs with the same second component, see
`C115_second_shared`.) -/
theorem C115_first_shared_partial {α β : Type*} (h₁ : α → Word) (h₂ : β → Word) (a : α) (b b' : β) :
    pairHash h₁ h₂ (a, b) = pairHash h₁ h₂ (a, b') ↔ h₂ b = h₂ b' :=
  ⟨fun e => hashCombine_inj _ _ _ e, fun e => by simp only [pairHash, e]⟩

/-- **C115.** Two matrices that agree in all entries but the last collide only if the last entries do. -/
theorem C115_matrix_last_partial {α : Type*} (h : α → Word) (l : List α) (x y : α) :
    matrixHash h (l ++ [x]) = matrixHash h (l ++ [y]) ↔ h x = h y := by
  unfold matrixHash
  simp only [List.foldl_append, List.foldl_cons, List.foldl_nil]
  exact ⟨fun e => hashCombine_inj _ _ _ e, fun e => by rw [e]⟩

/-- **C115, finding.** Pairs of ids with the same second id do collide, also for ids of ordinary size: the pairs
(1391, 1) and (2137, 1) have the same hash. -/
theorem C115_second_shared :
    ∃ a a' b : BitVec 32, a ≠ a' ∧ a.toNat < 3000 ∧ a'.toNat < 3000 ∧ b.toNat < 3000 ∧
      pairHash (BitVec.setWidth 64) (BitVec.setWidth 64) (a, b) =
        pairHash (BitVec.setWidth 64) (BitVec.setWidth 64) (a', b) :=
  ⟨1391, 2137, 1, by decide, by decide, by decide, by decide, by decide⟩

/-- The hash of the pair (0, 1). The number was worked out from hash.h:48-64 with a separate script; the program itself
was not run. -/
example : pairHash (fun x : Word => x) (fun x : Word => x) (0#64, 1#64) = 0x28cd94bfd1#64 := by decide

/-- Zeros of different sign: equal keys whose representations differ. The key is a sign and a magnitude. -/
example :
    let eq := fun x y : Bool × Nat => x = y ∨ (x.2 = 0 ∧ y.2 = 0)
    let h := fun x : Bool × Nat => if x.2 = 0 then (0 : Word) else BitVec.ofNat 64 (2 * x.2 + x.1.toNat)
    (∀ x y, eq x y → h x = h y) ∧ List.Forall₂ eq [(true, 0), (false, 3)] [(false, 0), (false, 3)] := by
  refine ⟨?_, ?_⟩
  · rintro x y (rfl | ⟨hx, hy⟩)
    · rfl
    · simp only [hx, hy, if_true]
  · exact List.Forall₂.cons (Or.inr ⟨rfl, rfl⟩) (List.Forall₂.cons (Or.inl rfl) List.Forall₂.nil)

end Theia
