import Verif.Model.ViewGraph

/-!
# An undirected graph as users think of it: a set of views and a symmetric partial map of edges
-/

namespace Theia.Spec

/-- A set of views and a partial edge map. -/
structure EdgeMap (I : Type) where
  view : Nat → Prop
  edge : Nat → Nat → Option I

variable {I : Type}

/-- `{x, y} = {a, b}`. -/
def SamePair (x y a b : Nat) : Prop := (x = a ∧ y = b) ∨ (x = b ∧ y = a)

instance (x y a b : Nat) : Decidable (SamePair x y a b) := by unfold SamePair; infer_instance

/-- The intended effect of each call. -/
def EdgeMap.step (s : EdgeMap I) : ViewGraph.Op I → EdgeMap I
  | .addEdge a b i =>
    if a = b then s
    else ⟨fun v => v = a ∨ v = b ∨ s.view v, fun x y => if SamePair x y a b then some i else s.edge x y⟩
  | .removeEdge a b => ⟨s.view, fun x y => if SamePair x y a b then none else s.edge x y⟩
  | .removeView v =>
    ⟨fun w => w ≠ v ∧ s.view w, fun x y => if x = v ∨ y = v then none else s.edge x y⟩
  | .setEdge a b i =>
    ⟨s.view, fun x y => if SamePair x y a b then (s.edge x y).map (fun _ => i) else s.edge x y⟩

/-- The intended state after a history. -/
def EdgeMap.run (ops : List (ViewGraph.Op I)) : EdgeMap I :=
  ops.foldl EdgeMap.step ⟨fun _ => False, fun _ _ => none⟩

end Theia.Spec
