import Mathlib.Data.List.Forall2

/-!
# What a minimal sample is
-/

namespace Theia.Spec

/-- `s` consists of `m` different indices of a data set of size `n`. -/
def MinimalSample (m n : Nat) (s : List Nat) : Prop :=
  s.length = m ∧ s.Nodup ∧ ∀ x ∈ s, x < n

/-- The random numbers `d` a uniform sampler may draw for a sample: number `i` is in `[i, n - 1]`. -/
def DrawsInRange (m n : Nat) (d : List Nat) : Prop :=
  d.length = m ∧ ∀ (i r : Nat), d[i]? = some r → i ≤ r ∧ r < n

/-- All pairs `(i, j)` with `i < j < n`. -/
def IsPair (n : Nat) (p : Nat × Nat) : Prop := p.1 < p.2 ∧ p.2 < n

end Theia.Spec
