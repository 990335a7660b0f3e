import Mathlib.Algebra.Polynomial.Basic
import Mathlib.Algebra.Polynomial.Eval.Defs
import Mathlib.Algebra.Polynomial.Derivative

/-!
# The polynomial of a vector of coefficients
-/

namespace Theia.Spec

open Polynomial

variable {K : Type} [Field K]

/-- The polynomial with the given coefficients, the one of the highest power first
(`sum_i polynomial(i) x^(N-i)`, polynomial.h:75-79). -/
noncomputable def poly : List K → K[X]
  | [] => 0
  | c :: cs => C c * X ^ cs.length + poly cs

end Theia.Spec
