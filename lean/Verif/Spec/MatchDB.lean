import Verif.Model.MatchDB

/-!
# What a database should return: the latest value
-/

namespace Theia.Spec

open MatchDB

variable {F I M : Type}

/-- In the history `h`, `f` is the latest value put for the features of `n`. -/
def LatestFeatures (h : List (Op F I M)) (n : ImageName) (f : F) : Prop :=
  ∃ before after, h = before ++ .putFeatures n f :: after ∧ ∀ f', .putFeatures n f' ∉ after

/-- In the history `h`, `p` is the latest prior put for `n`. -/
def LatestPrior (h : List (Op F I M)) (n : ImageName) (p : I) : Prop :=
  ∃ before after, h = before ++ .putPrior n p :: after ∧ ∀ p', .putPrior n p' ∉ after

/-- In the history `h`, `m` is the latest match put for the pair `(a, b)`, and the matches were not removed
since. -/
def LatestMatch (h : List (Op F I M)) (a b : ImageName) (m : M) : Prop :=
  ∃ before after, h = before ++ .putMatch a b m :: after ∧ (∀ m', .putMatch a b m' ∉ after) ∧
    .removeAllMatches ∉ after

/-- No first name of a pair in the history contains the separator. -/
def PlainNames (h : List (Op F I M)) : Prop :=
  ∀ a b m, .putMatch a b m ∈ h → '/' ∉ a

end Theia.Spec
