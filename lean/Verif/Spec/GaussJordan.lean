import Mathlib.Algebra.BigOperators.Ring.Finset
import Mathlib.Algebra.Field.Defs

/-!
# What Gauss-Jordan elimination should do
-/

namespace Theia.Spec

open Finset

variable {K : Type} [Field K]

/-- Row `i` of a matrix with `cols` columns times a vector. -/
def rowDot (cols : Nat) (m : Nat → Nat → K) (i : Nat) (x : Nat → K) : K := ∑ j ∈ range cols, m i j * x j

/-- Two matrices with the same solutions of the homogeneous linear equations of their rows. (For a system with
right-hand sides take these as further columns.) -/
def SameSolutions (rows cols : Nat) (a b : Nat → Nat → K) : Prop :=
  ∀ x : Nat → K, (∀ i < rows, rowDot cols a i x = 0) ↔ (∀ i < rows, rowDot cols b i x = 0)

end Theia.Spec
