import Mathlib.Data.Int.Log
import Mathlib.LinearAlgebra.Matrix.Defs
import Verif.Model.Polynomial
import Verif.Model.RootSolvers

/-!
# Roots of a polynomial of any degree

Models src/theia/math/find_polynomial_roots_companion_matrix.cc over the reals, without rounding, overflow and underflow.

* `eig` is `Eigen::EigenSolver`: the complex eigenvalues, or failure.
* `infExp` is the exponent that `frexp` stores for infinity, which C leaves unspecified; it is 0 in glibc.
* The vectors for the results are not null. They are written independently of each other; a null pointer only means that one
  of them is missing.
-/

namespace Theia
namespace CompanionRoots

open Classical

variable {n : Nat}

/-- The exponent stored by `frexp` for `x ≥ 0`: `x = m 2^k` with `0.5 ≤ m < 1`, and 0 for 0. -/
noncomputable def frexpExp (x : ℝ) : ℤ := if x = 0 then 0 else Int.log 2 x + 1

/-- `row_norm` (line 110). -/
noncomputable def rowNorm (A : Matrix (Fin n) (Fin n) ℝ) (i : Fin n) : ℝ := ((List.finRange n).map (fun j => |A i j|)).sum

/-- `col_norm` (line 111). -/
noncomputable def colNorm (A : Matrix (Fin n) (Fin n) ℝ) (i : Fin n) : ℝ := ((List.finRange n).map (fun j => |A j i|)).sum

/-- The exponent of the scaling (lines 116-118); the integer division is towards zero. The norms are never both zero, so that
dividing by zero gives infinity. -/
noncomputable def exponent (infExp : ℤ) (row col : ℝ) : ℤ :=
  (if col = 0 then infExp else frexpExp (row / col)).tdiv 2

/-- Scaling a row and the column of the same index (lines 128-129). -/
noncomputable def rescale (A : Matrix (Fin n) (Fin n) ℝ) (i : Fin n) (e : ℤ) : Matrix (Fin n) (Fin n) ℝ := fun j k =>
  (if j = i then (2 : ℝ) ^ (-e) else 1) * (if k = i then (2 : ℝ) ^ e else 1) * A j k

/-- One round of the loop over the indices (lines 110-131): the matrix if it was changed. -/
noncomputable def balanceAt (infExp : ℤ) (A : Matrix (Fin n) (Fin n) ℝ) (i : Fin n) : Option (Matrix (Fin n) (Fin n) ℝ) :=
  let row := rowNorm A i
  let col := colNorm A i
  let e := exponent infExp row col
  if e ≠ 0 then
    if col * 2 ^ e + row * 2 ^ (-e) < 0.9 * (col + row) then some (rescale A i e) else none
  else none

/-- The loop over the indices (lines 109-132), and whether something was changed. -/
noncomputable def balancePass (infExp : ℤ) : List (Fin n) → Matrix (Fin n) (Fin n) ℝ → Bool →
    Matrix (Fin n) (Fin n) ℝ × Bool
  | [], A, changed => (A, changed)
  | i :: is, A, changed =>
    match balanceAt infExp A i with
    | some B => balancePass infExp is B true
    | none => balancePass infExp is A changed

/-- The outer loop (lines 106-133). -/
noncomputable def balanceLoop (infExp : ℤ) : Nat → Matrix (Fin n) (Fin n) ℝ → Option (Matrix (Fin n) (Fin n) ℝ)
  | 0, _ => none
  | fuel + 1, A =>
    match balancePass infExp (List.finRange n) A false with
    | (B, true) => balanceLoop infExp fuel B
    | (B, false) => some B

/-- `BalanceCompanionMatrix` (lines 89-137): the diagonal is set to zero before the loop and restored after it. -/
noncomputable def balance (infExp : ℤ) (fuel : Nat) (A : Matrix (Fin n) (Fin n) ℝ) : Option (Matrix (Fin n) (Fin n) ℝ) :=
  match balanceLoop infExp fuel (fun i j => if i = j then 0 else A i j) with
  | none => none
  | some B => some (fun i j => if i = j then A i j else B i j)

/-- `BuildCompanionMatrix` (lines 139-150) for the coefficients `cs` below the leading one, the constant one first
(`polynomial.reverse().head(degree)`). -/
noncomputable def companion (cs : List ℝ) : Matrix (Fin cs.length) (Fin cs.length) ℝ := fun i j =>
  if (j : Nat) + 1 = cs.length then -cs[i] else if (i : Nat) = j + 1 then 1 else 0

/-- `FindPolynomialRootsCompanionMatrix` (lines 170-233): the returned flag and, if they are written, the real and imaginary
parts of the roots. The result is `none` if the balancing needs more than `fuel` rounds. -/
noncomputable def find (infExp : ℤ) (eig : (n : Nat) → Matrix (Fin n) (Fin n) ℝ → Option (List ℂ)) (fuel : Nat) (p : List ℝ) :
    Option (Outcome (Bool × Option (List ℝ × List ℝ))) :=
  match Poly.removeLeadingZeros p with
  | [] => some (.ok (false, none))
  | [_] => some (.ok (true, none))
  | [a, b] => some (match Roots.findLinear [a, b] with
    | .abort => .abort
    | .ub => .ub
    | .ok r => .ok (true, some r))
  | [a, b, c] => some (match Roots.findQuadratic [a, b, c] with
    | .abort => .abort
    | .ub => .ub
    | .ok r => .ok (true, some r))
  | lead :: rest =>
    let cs := (rest.map (fun c => c / lead)).reverse
    match balance infExp fuel (companion cs) with
    | none => none
    | some A =>
      match eig cs.length A with
      | none => some (.ok (false, none))
      | some zs => some (.ok (true, some (zs.map Complex.re, zs.map Complex.im)))

end CompanionRoots
end Theia
