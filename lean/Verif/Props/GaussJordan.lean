import Verif.Proof.GaussJordan
import Mathlib.Data.Rat.Lemmas
import Mathlib.Algebra.Order.Field.Rat

/-!
# C38: Gauss-Jordan elimination
-/

namespace Theia

open GaussJordan Spec

variable {K : Type} [Field K] [LinearOrder K]

/-- C38. When the elimination ends without dividing by zero, the equations have the same solutions as before.
This needs nothing about the threshold or the matrix. -/
theorem C38_solutions (eps : K) (rows cols : Nat) (topLast bottomLast : Int) (m : Nat → Nat → K) (st : State K)
    (h : run eps rows cols topLast bottomLast m = .ok st) : SameSolutions rows cols m st.m := by
  unfold run at h
  split at h
  · cases h
  · cases h
  · rename_i n st1 h1
    unfold topDown at h1
    split at h1
    · cases h1
    split at h1
    · cases h1
    simp only at h1
    split at h1
    · cases h1
    · cases h1
    rename_i st2 h2
    simp only [Outcome.ok.injEq, Prod.mk.injEq] at h1
    obtain ⟨hn, rfl⟩ := h1
    have hle : n ≤ rows := by rw [← hn]; exact Nat.min_le_left ..
    rw [hn, List.range_eq_range'] at h2
    obtain ⟨a, _, _⟩ := topLoop_spec (rows := rows) (cols := cols) hle n 0 (by omega) h2
    unfold bottomUp at h
    split at h
    · cases h
    split at h
    · cases h
    split at h
    · cases h
    split at h
    · simp only [Outcome.ok.injEq] at h
      rw [← h]
      exact a
    · rename_i h3 h4 h5
      simp only [Outcome.ok.injEq] at h
      rw [← h]
      exact SameSolutions.trans a
        (bottomLoop_spec (eps := eps) (last := bottomLast.toNat) hle (n - bottomLast.toNat) (by omega)).1

/-- C38. If moreover no coefficient that is not zero was left in place for being below the threshold, the processed
block is the identity. -/
theorem C38_identity (eps : K) (rows cols : Nat) (topLast bottomLast : Int) (m : Nat → Nat → K) (st : State K)
    (h : run eps rows cols topLast bottomLast m = .ok st) (hs : st.skipped = false) (i j : Nat)
    (hi : i < rows) (hi2 : (i : Int) ≤ topLast) (hj : j < rows) (hj2 : (j : Int) ≤ topLast)
    (hb : bottomLast ≤ i) :
    st.m i j = if i = j then 1 else 0 := by
  unfold run at h
  split at h
  · cases h
  · cases h
  · rename_i n st1 h1
    unfold topDown at h1
    split at h1
    · cases h1
    split at h1
    · cases h1
    simp only at h1
    split at h1
    · cases h1
    · cases h1
    rename_i st2 h2
    simp only [Outcome.ok.injEq, Prod.mk.injEq] at h1
    obtain ⟨hn, rfl⟩ := h1
    have hle : n ≤ rows := by rw [← hn]; exact Nat.min_le_left ..
    have hin : i < n := by omega
    have hjn : j < n := by omega
    rw [hn, List.range_eq_range'] at h2
    obtain ⟨_, a2, a3⟩ := topLoop_spec (rows := rows) (cols := cols) hle n 0 (by omega) h2
    unfold bottomUp at h
    split at h
    · cases h
    split at h
    · cases h
    split at h
    · cases h
    split at h
    · omega
    · simp only [Outcome.ok.injEq] at h
      obtain ⟨_, b2, b3⟩ := bottomLoop_spec (eps := eps) (last := bottomLast.toNat) (cols := cols) hle
        (n - bottomLast.toNat) (st := st2) (by omega)
      rw [h] at b2 b3
      have hs2 : st2.skipped = false := by
        by_contra hc
        rw [Bool.not_eq_false] at hc
        rw [b2 hc] at hs
        cases hs
      have hlow := a3 hs2 (by intro c hc; omega)
      obtain ⟨c1, c2⟩ := b3 hs hlow (by intro c hc hcn; omega)
      rcases Nat.lt_trichotomy i j with hij | hij | hij
      · rw [if_neg (by omega)]
        exact c2 j (by omega) hjn i (by omega) hij
      · subst hij
        rw [if_pos rfl]
        exact (c1 i hin).1
      · rw [if_neg (by omega)]
        exact (c1 j hjn).2 i hij hin

/-- C38. So the last columns of a fully reduced system with one right-hand side give its only solution: the vector
whose entries are minus that column and whose last entry is one solves the equations, and no other vector with last
entry one does. -/
theorem C38_solve (eps : K) (rows : Nat) (m : Nat → Nat → K) (st : State K)
    (h : runFull eps rows (rows + 1) m = .ok st) (hs : st.skipped = false) (x : Nat → K) (hx : x rows = 1) :
    (∀ i < rows, rowDot (rows + 1) m i x = 0) ↔ ∀ i < rows, x i = - st.m i rows := by
  rw [C38_solutions eps rows (rows + 1) _ _ m st h x]
  have key : ∀ i < rows, rowDot (rows + 1) st.m i x = x i + st.m i rows := by
    intro i hi
    unfold rowDot
    rw [Finset.sum_range_succ, hx, mul_one]
    congr 1
    rw [Finset.sum_eq_single i]
    · rw [C38_identity eps rows (rows + 1) _ _ m st h hs i i hi (by omega) hi (by omega) (by omega), if_pos rfl,
        one_mul]
    · intro j hj hji
      rw [Finset.mem_range] at hj
      rw [C38_identity eps rows (rows + 1) _ _ m st h hs i j hi (by omega) hj (by omega) (by omega),
        if_neg (fun h => hji h.symm), zero_mul]
    · intro h
      exact absurd (Finset.mem_range.2 hi) h
  constructor
  · intro h i hi
    have := h i hi
    rw [key i hi] at this
    exact eq_neg_of_add_eq_zero_left this
  · intro h i hi
    rw [key i hi, h i hi]
    ring

/-- C38. The documented calling errors stop the program: fewer columns than rows, ... and also any matrix with a
single row, for which the row limit the function itself passes on is rejected. -/
theorem C38_aborts (eps : K) (rows cols : Nat) (m : Nat → Nat → K) (h : cols < rows ∨ rows ≤ 1) :
    runFull eps rows cols m = .abort := by
  unfold runFull run topDown
  by_cases h1 : (rows : Int) - 1 < 1
  · rw [if_pos h1]
  · rw [if_neg h1, if_pos (by omega)]

/-- A matrix from its entries. -/
def gjMatrix (l : List (List ℚ)) : Nat → Nat → ℚ := fun i j => (l.getD i []).getD j 0

/-- The outcome with the entries listed row by row. -/
def gjShow (rows cols : Nat) : Outcome (State ℚ) → Outcome (Bool × List (List ℚ))
  | .abort => .abort
  | .ub => .ub
  | .ok st => .ok (st.skipped, (List.range rows).map fun i => (List.range cols).map fun j => st.m i j)

/-- C38 does not hold for every invertible matrix: the search for the pivot never looks at the last row, so a
column whose only nonzero entry is there divides by zero. -/
theorem C38_pivot_counterexample :
    gjShow 2 3 (runFull (1 / 1000000000) 2 3 (gjMatrix [[0, 1, 5], [1, 0, 7]])) = .ub := by
  decide +kernel

/-- C38 does not hold without the condition on the coefficients below the threshold either: the block of the result
need not be near the identity, because the row keeping the small coefficient may still be divided by a smaller
number. -/
theorem C38_threshold_counterexample :
    gjShow 2 2 (runFull (1 / 1000000000) 2 2 (gjMatrix [[1, 0], [1 / 10000000000, 1 / 1000000000000]])) =
      .ok (true, [[1, 0], [100, 1]]) := by
  decide +kernel

/-- Three equations: nothing is skipped, and the last column gives the solution. -/
example : gjShow 3 4 (runFull (1 / 1000000000) 3 4 (gjMatrix [[2, 1, 1, -7], [4, -6, 0, 8], [-2, 7, 2, -18]])) =
    .ok (false, [[1, 0, 0, -1], [0, 1, 0, -2], [0, 0, 1, -3]]) := by
  decide +kernel

/-- Reducing only the first two of three rows, and only the second row upwards. -/
example : gjShow 3 4 (run (1 / 1000000000) 3 4 1 1 (gjMatrix [[2, 1, 1, -7], [4, -6, 0, 8], [-2, 7, 2, -18]])) =
    .ok (false, [[1, 1 / 2, 1 / 2, -7 / 2], [0, 1, 1 / 4, -11 / 4], [-2, 7, 2, -18]]) := by
  decide +kernel

end Theia
