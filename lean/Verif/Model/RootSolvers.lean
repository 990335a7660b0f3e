import Mathlib.Analysis.SpecialFunctions.Pow.Complex
import Mathlib.Analysis.SpecialFunctions.Pow.Real
import Mathlib.Analysis.SpecialFunctions.Sqrt
import Verif.Base.Outcome

/-!
# Closed-form root solvers

Models src/theia/math/closed_form_polynomial_solver.cc and the quadratic and linear solvers of
src/theia/math/polynomial.cc:175-230, over the real and complex numbers without rounding. A division by zero or
a fractional power of a negative real number, which give infinities or NaN in the code, are `ub`.
-/

namespace Theia
namespace Roots

/-- `FindLinearPolynomialRoots` (polynomial.cc:175-187): real and imaginary parts. -/
noncomputable def findLinear (p : List ℝ) : Outcome (List ℝ × List ℝ) :=
  match p with
  | [a, b] => if a = 0 then .ub else .ok ([-b / a], [0])
  | _ => .abort

/-- `FindQuadraticPolynomialRoots` (polynomial.cc:189-230): real and imaginary parts. -/
noncomputable def findQuadratic (p : List ℝ) : Outcome (List ℝ × List ℝ) :=
  match p with
  | [a, b, c] =>
    let D := b * b - 4 * a * c
    let s := Real.sqrt |D|
    if D ≥ 0 then
      if b ≥ 0 then
        if 2 * a = 0 ∨ -b - s = 0 then .ub
        else .ok ([(-b - s) / (2 * a), (2 * c) / (-b - s)], [0, 0])
      else
        if 2 * a = 0 ∨ -b + s = 0 then .ub
        else .ok ([(2 * c) / (-b + s), (-b + s) / (2 * a)], [0, 0])
    else
      if 2 * a = 0 then .ub
      else .ok ([-b / (2 * a), -b / (2 * a)], [s / (2 * a), -s / (2 * a)])
  | _ => .abort

/-- `SolveQuadratic` (closed_form_polynomial_solver.cc:92-123). -/
noncomputable def solveQuadratic (a b c : ℝ) : Outcome (List ℂ) :=
  if a = 0 then
    if b = 0 then .ub else .ok [((-1 * c / b : ℝ) : ℂ)]
  else
    let D := b * b - 4 * a * c
    let s := Real.sqrt |D|
    if D ≥ 0 then
      if b ≥ 0 then
        if -b - s = 0 then .ub
        else .ok [(((-b - s) / (2 * a) : ℝ) : ℂ), (((2 * c) / (-b - s) : ℝ) : ℂ)]
      else
        if -b + s = 0 then .ub
        else .ok [(((2 * c) / (-b + s) : ℝ) : ℂ), (((-b + s) / (2 * a) : ℝ) : ℂ)]
    else .ok [⟨-b / (2 * a), s / (2 * a)⟩, ⟨-b / (2 * a), -s / (2 * a)⟩]

/-- The real parts of complex roots: `Solve…Reals` without tolerance (lines 68-77, 127-136, 171-181), and with a
tolerance only of those with a small imaginary part (lines 79-90, 138-149, 183-196). -/
noncomputable def reals (tolerance : Option ℝ) (roots : List ℂ) : List ℝ :=
  match tolerance with
  | none => roots.map Complex.re
  | some t => (roots.filter (fun z => decide (|z.im| < t))).map Complex.re

/-- `cubic_root_of_unity` (line 53). -/
noncomputable def omega : ℂ := ⟨-0.5, 0.5 * Real.sqrt 3⟩

/-- `std::pow` of a complex number with exponent 1/3: the principal value. -/
noncomputable def cbrt (z : ℂ) : ℂ := z ^ (1 / 3 : ℂ)

/-- The same for the base of `v` (line 57). If that base is a negative real number, its value depends on the
sign of the imaginary zero: `below` says that it is negative (as with `-0.5 * q - sqrt_t` in libstdc++), so the
power is taken below the branch cut. For all other bases both are the same. -/
noncomputable def cbrtSide (below : Bool) (z : ℂ) : ℂ :=
  if below then (starRingEnd ℂ) (cbrt ((starRingEnd ℂ) z)) else cbrt z

/-- `SolveDepressedCubic` (lines 46-64). -/
noncomputable def depressedCubic (below : Bool) (p q : ℝ) : Outcome (List ℂ) :=
  if p = 0 then
    if -1 * q < 0 then .ub else .ok [((Real.rpow (-1 * q) (1 / 3) : ℝ) : ℂ)]
  else
    let temp : ℝ := q * q / 4 + p * p * p / 27
    let s : ℂ := (temp : ℂ) ^ (1 / 2 : ℂ)
    let u := cbrt (((-0.5 * q : ℝ) : ℂ) + s)
    let v := cbrtSide below (((-0.5 * q : ℝ) : ℂ) - s)
    .ok [u + v, u * omega + v * omega * omega, u * omega * omega + v * omega]

/-- `SolveCubic` (lines 151-167). That the entries of the output array beyond the returned number are changed
too is left out. -/
noncomputable def solveCubic (below : Bool) (a b c d : ℝ) : Outcome (List ℂ) :=
  if a = 0 then solveQuadratic b c d
  else
    let p := (3 * a * c - b * b) / (3 * a * a)
    let q := (2 * b * b * b - 9 * a * b * c + 27 * a * a * d) / (27 * a * a * a)
    match depressedCubic below p q with
    | .abort => .abort
    | .ub => .ub
    | .ok roots => .ok (roots.map (fun r => r - ((b / (3 * a) : ℝ) : ℂ)))

/-- The coefficients of the depressed quartic (lines 208-213). -/
noncomputable def qAlpha (a b c : ℝ) : ℝ := -3 * b ^ 2 / (8 * a ^ 2) + c / a

/-- Line 209-210. -/
noncomputable def qBeta (a b c d : ℝ) : ℝ := b ^ 3 / (8 * a ^ 3) - b * c / (2 * a ^ 2) + d / a

/-- Lines 211-213. -/
noncomputable def qGamma (a b c d e : ℝ) : ℝ :=
  -3 * b ^ 4 / (256 * a ^ 4) + b ^ 2 * c / (16 * a ^ 3) - b * d / (4 * a ^ 2) + e / a

/-- `P` (line 218). -/
noncomputable def qP (alpha gamma : ℝ) : ℂ := ((-alpha ^ 2 / 12 - gamma : ℝ) : ℂ)

/-- `Q` (lines 219-221). -/
noncomputable def qQ (alpha beta gamma : ℝ) : ℂ :=
  ((-alpha ^ 3 / 108 + alpha * gamma / 3 - beta ^ 2 / 8 : ℝ) : ℂ)

/-- `U` (lines 222-226), with `csqrt` for `std::sqrt` of complex numbers and `cpow` for `std::pow(·, 1/3)`. -/
noncomputable def qU (csqrt cpow : ℂ → ℂ) (P Q : ℂ) : ℂ :=
  cpow (-Q / 2 + csqrt (Q ^ 2 / 4 + P ^ 3 / 27))

/-- `y` (lines 227-234). -/
noncomputable def qY (cpow : ℂ → ℂ) (alpha : ℝ) (P Q U : ℂ) : ℂ :=
  if |U.re| < 1e-8 then -5 * alpha / 6 - cpow Q else -5 * alpha / 6 - P / (3 * U) + U

/-- Lines 236-251: the roots from `shift = b / (4a)`. -/
noncomputable def qRoots (csqrt : ℂ → ℂ) (shift : ℂ) (alpha beta : ℝ) (y w : ℂ) : List ℂ :=
  [-shift + 0.5 * (w + csqrt (-(3 * alpha + 2 * y + 2 * beta / w))),
    -shift + 0.5 * (w - csqrt (-(3 * alpha + 2 * y + 2 * beta / w))),
    -shift + 0.5 * (-w + csqrt (-(3 * alpha + 2 * y - 2 * beta / w))),
    -shift + 0.5 * (-w - csqrt (-(3 * alpha + 2 * y - 2 * beta / w)))]

/-- `SolveQuartic` (lines 198-252). -/
noncomputable def solveQuartic (csqrt cpow : ℂ → ℂ) (a b c d e : ℝ) : Outcome (List ℂ) :=
  if a = 0 then .ub
  else
    let alpha := qAlpha a b c
    let beta := qBeta a b c d
    let gamma := qGamma a b c d e
    let P := qP alpha gamma
    let Q := qQ alpha beta gamma
    let y := qY cpow alpha P Q (qU csqrt cpow P Q)
    let w := csqrt (alpha + 2 * y)
    if w = 0 then .ub else .ok (qRoots csqrt (b / (4 * a)) alpha beta y w)

end Roots
end Theia
