import Verif.Model.Ransac

/-!
# What sample consensus should return
-/

namespace Theia.Spec

variable {D M C : Type}

/-- The models the `i`-th sample yields: none if sampling or estimation fails. -/
def modelsOf (data : List D) (sample : Nat → Option (List Nat)) (estimate : List D → Option (List M))
    (i : Nat) : List M :=
  (((sample i).bind (fun idx => idx.mapM (fun j => data[j]?))).bind estimate).getD []

/-- All models of the first `n` samples, in order. -/
def modelsUpTo (data : List D) (sample : Nat → Option (List Nat))
    (estimate : List D → Option (List M)) (n : Nat) : List M :=
  (List.range n).flatMap (modelsOf data sample estimate)

/-- `m` is the first of the cheapest models of a list. -/
def FirstCheapest [LT C] (cost : M → C) (E : List M) (m : M) : Prop :=
  ∃ pre post, E = pre ++ m :: post ∧ (∀ x ∈ pre, cost m < cost x) ∧ (∀ x ∈ post, ¬ cost x < cost m)

end Theia.Spec
