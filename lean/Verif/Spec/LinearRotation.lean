import Mathlib.Algebra.BigOperators.Fin
import Mathlib.Logic.Relation
import Verif.Base.RotationMatrix
import Verif.Spec.ProjectionMatrix

/-!
# Specification of the linear estimation of global rotations

A constraint is a pair of views with the angle-axis vector of a relative rotation `R_12`, which should take the first
view's rotation to the second view's: `R_2 = R_12 R_1`.
-/

namespace Theia
namespace Spec

open AngleAxis

/-- The inner product of vectors with `n` entries. -/
noncomputable def vecInner (n : Nat) (v w : Nat → ℝ) : ℝ := ∑ r ∈ Finset.range n, v r * w r

/-- A square matrix with `n` rows times a vector. -/
noncomputable def applyMatrix (n : Nat) (m : Nat → Nat → ℝ) (v : Nat → ℝ) (r : Nat) : ℝ :=
  ∑ c ∈ Finset.range n, m r c * v c

/-- `u` are three orthonormal eigenvectors of `m`, and no vector orthogonal to them has a smaller Rayleigh quotient than
theirs: they belong to the three smallest eigenvalues. -/
def SmallestEigenvectors (n : Nat) (m : Nat → Nat → ℝ) (u : Fin 3 → Nat → ℝ) : Prop :=
  (∀ i j, vecInner n (u i) (u j) = if i = j then 1 else 0) ∧
  ∃ l : Fin 3 → ℝ, (∀ i r, r < n → applyMatrix n m (u i) r = l i * u i r) ∧
    ∀ v, (∀ i, vecInner n v (u i) = 0) → ∀ i, l i * vecInner n v v ≤ vecInner n v (applyMatrix n m v)

/-- An eigensolver that always gets its three eigenvectors. -/
def Eigensolver (eig : Nat → (Nat → Nat → ℝ) → Option (Fin 3 → Nat → ℝ)) : Prop :=
  ∀ n m, 3 ≤ n → (∀ r c, m r c = m c r) → ∃ u, eig n m = some u ∧ SmallestEigenvectors n m u

/-- The sum of `||X_2 - R_12 X_1||^2` over the constraints. -/
noncomputable def rotationCost (cs : List ((Nat × Nat) × V3 ℝ)) (X : Nat → M3 ℝ) : ℝ :=
  (cs.map (fun c => frobeniusSq (X c.1.2) ((toM c.2).mul (X c.1.1)))).sum

/-- The columns of the matrices stacked over the views are orthonormal. -/
def StackOrthonormal (views : List Nat) (X : Nat → M3 ℝ) : Prop :=
  ∀ p q : V3 ℝ, (views.map (fun v => ((X v).mulVec p).dot ((X v).mulVec q))).sum = p.dot q

/-- The views of the constraints, each once. -/
def ViewsOf (cs : List ((Nat × Nat) × V3 ℝ)) (views : List Nat) : Prop :=
  views.Nodup ∧ ∀ v, v ∈ views ↔ ∃ c ∈ cs, v = c.1.1 ∨ v = c.1.2

/-- Any two views are joined by constraints. -/
def ConnectedBy (cs : List ((Nat × Nat) × V3 ℝ)) (views : List Nat) : Prop :=
  ∀ v ∈ views, ∀ w ∈ views, Relation.EqvGen (fun a b => ∃ r, ((a, b), r) ∈ cs) v w

/-- The constraints agree with the rotations `G`. -/
def ConsistentWith (cs : List ((Nat × Nat) × V3 ℝ)) (G : Nat → M3 ℝ) : Prop :=
  (∀ v, (G v).IsRotation) ∧ ∀ c ∈ cs, G c.1.2 = (toM c.2).mul (G c.1.1)

end Spec
end Theia
