import Verif.Model.Fisher

/-!
# What training a Fisher vector extractor means
-/

namespace Theia
namespace Spec.FisherV

open Fisher

/-- All features added, in order. -/
def added : List Op → List Feature
  | [] => []
  | .add fs :: os => fs ++ added os
  | .train :: os => added os

/-- The calls up to the last training. -/
def untilTraining : List Op → Option (List Op)
  | [] => none
  | o :: os =>
    match untilTraining os with
    | some p => some (o :: p)
    | none => match o with
      | .train => some []
      | .add _ => none

/-- A sample of at most `most` of the features: all of them, in order, if there are no more. -/
structure SampleOf (most : Nat) (fs sample : List Feature) : Prop where
  size : sample.length = min most fs.length
  sub : ∀ f ∈ sample, f ∈ fs
  all : fs.length ≤ most → sample = fs

/-- Numbers only, `d` of them. -/
def Clean (d : Nat) (f : Feature) : Prop := f.length = d ∧ ∀ x ∈ f, x ≠ none

end Spec.FisherV
end Theia
