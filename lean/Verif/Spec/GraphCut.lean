import Mathlib.Algebra.Order.Field.Basic
import Mathlib.Algebra.BigOperators.Group.Finset.Basic

/-!
# Normalized cuts of a weighted graph (Shi and Malik, Normalized cuts and image segmentation)
-/

namespace Theia
namespace Spec

variable {K : Type} [Field K] [LinearOrder K]

/-- `v` is a node of the graph: an end of one of its edges. -/
def GraphNode (edges : List ((Nat × Nat) × K)) (v : Nat) : Prop := ∃ e ∈ edges, e.1.1 = v ∨ e.1.2 = v

/-- Total weight of the edges between `A` and `B`. -/
def cutBetween (edges : List ((Nat × Nat) × K)) (A B : List Nat) : K :=
  (edges.map fun e => if (e.1.1 ∈ A ∧ e.1.2 ∈ B) ∨ (e.1.1 ∈ B ∧ e.1.2 ∈ A) then e.2 else 0).sum

/-- Total weight of the ends of edges in `A`. -/
def volumeOf (edges : List ((Nat × Nat) × K)) (A : List Nat) : K :=
  (edges.map fun e => (if e.1.1 ∈ A then e.2 else 0) + (if e.1.2 ∈ A then e.2 else 0)).sum

/-- The normalized cut. -/
def normalizedCut (edges : List ((Nat × Nat) × K)) (A B : List Nat) : K :=
  cutBetween edges A B / volumeOf edges A + cutBetween edges A B / volumeOf edges B

/-- No weight is negative and each node has an edge with positive weight. -/
structure Weighted (edges : List ((Nat × Nat) × K)) : Prop where
  nonneg : ∀ e ∈ edges, 0 ≤ e.2
  positive : ∀ v, GraphNode edges v → ∃ e ∈ edges, (e.1.1 = v ∨ e.1.2 = v) ∧ 0 < e.2

/-- `A` and `B` divide the nodes of the graph. -/
structure DividesNodes (edges : List ((Nat × Nat) × K)) (A B : List Nat) : Prop where
  cover : ∀ v, GraphNode edges v ↔ v ∈ A ∨ v ∈ B
  disjoint : ∀ v, v ∈ A → v ∉ B

/-- What the edges at `v` do to the values `x` at the nodes: sum of `w (x v - x u)` over the edges with ends `v` and `u`. -/
def flowAt (edges : List ((Nat × Nat) × K)) (x : Nat → K) (v : Nat) : K :=
  (edges.map fun e => (if e.1.1 = v then e.2 * (x v - x e.1.2) else 0) + (if e.1.2 = v then e.2 * (x v - x e.1.1) else 0)).sum

/-- The eigensolver keeps its promise: `y` is an eigenvector, not zero, of the generalised problem `L y = ev D y` with `D` the diagonal
matrix of `d`, and `ev` is the second eigenvalue: the least quotient `zᵀ L z / zᵀ D z` over the vectors with `1ᵀ D z = 0`. -/
def SecondEigenvector (solver : Nat → (Nat → Nat → K) → (Nat → K) → Option (Nat → K)) : Prop :=
  ∀ n L d y, solver n L d = some y → ∃ ev : K,
    (∀ i < n, ∑ j ∈ Finset.range n, L i j * y j = ev * (d i * y i)) ∧ (∃ i < n, y i ≠ 0) ∧
    ∀ z : Nat → K, ∑ i ∈ Finset.range n, d i * z i = 0 →
      ev * ∑ i ∈ Finset.range n, d i * z i ^ 2 ≤ ∑ i ∈ Finset.range n, ∑ j ∈ Finset.range n, z i * L i j * z j

/-- `x` is the element of rank `k`, counted from zero, of `l`. -/
def RankIn (l : List K) (k : Nat) (x : K) : Prop :=
  x ∈ l ∧ k + 1 ≤ l.countP (fun y => decide (y ≤ x)) ∧ l.length - k ≤ l.countP (fun y => decide (x ≤ y))

/-- The `i`-th of ten evenly spaced values between the quartiles. -/
def testedCut (q1 q3 : K) (i : Nat) : K := q1 + (i : K) / 9 * (q3 - q1)

/-- `A` and `B` are cut from the graph by a threshold on the values `score` of its nodes: `A` is above and `B` is not. The normalized cut
of none of the ten thresholds between the quartiles with a node above it is below `cost`. Either the threshold is one of the ten, both
sides have a node and `cost` is their normalized cut, or the threshold is 0 and `cost` is `10 ^ 12`. -/
def SpectralCut (edges : List ((Nat × Nat) × K)) (score : Nat → K) (A B : List Nat) (cost : K) : Prop :=
  ∃ nodes : List Nat, nodes.Nodup ∧ (∀ v, v ∈ nodes ↔ GraphNode edges v) ∧
    ∃ q1 q3, RankIn (nodes.map score) (nodes.length / 4) q1 ∧ RankIn (nodes.map score) (3 * nodes.length / 4) q3 ∧
      ∃ cut, (∀ v ∈ A, cut < score v) ∧ (∀ v ∈ B, score v ≤ cut) ∧
        (∀ i < 10, ∀ A' B', DividesNodes edges A' B' → (∀ v ∈ A', testedCut q1 q3 i < score v) →
          (∀ v ∈ B', score v ≤ testedCut q1 q3 i) → (∃ v, v ∈ A') → cost ≤ normalizedCut edges A' B') ∧
        (((∃ i < 10, cut = testedCut q1 q3 i) ∧ (∃ v, v ∈ A) ∧ (∃ v, v ∈ B) ∧ cost = normalizedCut edges A B ∧ cost < 10 ^ 12) ∨
          (cut = 0 ∧ cost = 10 ^ 12))

end Spec
end Theia
