import Mathlib.Algebra.Field.Defs
import Verif.Base.Outcome

/-!
# Polynomial arithmetic

Models src/theia/math/polynomial.cc:92-173 and polynomial.h:86-93, and `MinimizePolynomial`
(polynomial.cc:232-284) with the root finder as a parameter.

A polynomial is the vector of its coefficients, the one of the highest power first. Coefficients are elements
of a field, without rounding; dividing by zero, which gives infinities or NaN in the code, is `ub`, and so is a
vector of negative size.
-/

namespace Theia
namespace Poly

variable {K : Type} [Field K] [DecidableEq K]

/-- `EvaluatePolynomial` (polynomial.h:86-93), from the value `v` on. -/
def evalFrom (x : K) : K → List K → K
  | v, [] => v
  | v, c :: cs => evalFrom x (v * x + c) cs

/-- `EvaluatePolynomial` (polynomial.h:86-93). -/
def eval (p : List K) (x : K) : K := evalFrom x 0 p

/-- `RemoveLeadingZeros` (polynomial.cc:93-99): the last coefficient always stays. -/
def removeLeadingZeros : List K → List K
  | [] => []
  | [c] => [c]
  | c :: d :: cs => if c = 0 then removeLeadingZeros (d :: cs) else c :: d :: cs

/-- The loop of the derivative (polynomial.cc:113-115): coefficient `i` times `degree - i`. -/
def diffLoop : List K → List K
  | [] => []
  | [_] => []
  | c :: d :: cs => ((d :: cs).length : K) * c :: diffLoop (d :: cs)

/-- `DifferentiatePolynomial` (polynomial.cc:101-118). -/
def differentiate (p : List K) : Outcome (List K) :=
  match p with
  | [] => .abort
  | [_] => .ok [0]
  | p => .ok (diffLoop p)

/-- `v(k) += x`. -/
def addAt : List K → Nat → K → Outcome (List K)
  | [], _, _ => .ub
  | c :: cs, 0, x => .ok ((c + x) :: cs)
  | c :: cs, k + 1, x =>
    match addAt cs k x with
    | .abort => .abort
    | .ub => .ub
    | .ok r => .ok (c :: r)

/-- The inner loop of the product (polynomial.cc:123-126), for the coefficient `a` of power `i`; `k = i + j`. -/
def mulInner (a : K) : Nat → List K → List K → Outcome (List K)
  | _, [], acc => .ok acc
  | k, b :: bs, acc =>
    match addAt acc k (a * b) with
    | .abort => .abort
    | .ub => .ub
    | .ok acc => mulInner a (k + 1) bs acc

/-- The outer loop of the product (polynomial.cc:122-127). -/
def mulOuter (q : List K) : Nat → List K → List K → Outcome (List K)
  | _, [], acc => .ok acc
  | i, a :: as, acc =>
    match mulInner a i q acc with
    | .abort => .abort
    | .ub => .ub
    | .ok acc => mulOuter q (i + 1) as acc

/-- `MultiplyPolynomials` (polynomial.cc:120-129). All three vectors are read in reverse. -/
def multiply (p q : List K) : Outcome (List K) :=
  if p.length + q.length = 0 then .ub
  else
    match mulOuter q.reverse 0 p.reverse (List.replicate (p.length + q.length - 1) 0) with
    | .abort => .abort
    | .ub => .ub
    | .ok r => .ok r.reverse

/-- `AddPolynomials` (polynomial.cc:163-173). -/
def add (p q : List K) : List K :=
  if p.length > q.length then
    p.take (p.length - q.length) ++ List.zipWith (· + ·) (p.drop (p.length - q.length)) q
  else q.take (q.length - p.length) ++ List.zipWith (· + ·) (q.drop (q.length - p.length)) p

/-- `numerator - denominator * scalar`, with the first coefficient then set to zero (polynomial.cc:147-157);
the divisor fills the head of the denominator. -/
def subtractHead (scalar : K) : List K → List K → List K
  | ns, [] => ns
  | [], _ => []
  | n :: ns, d :: ds => (n - d * scalar) :: subtractHead scalar ns ds

/-- Sets coefficient `k` of power, that is position `size - 1 - k` (polynomial.cc:151-152). -/
def setPower (q : List K) (k : Nat) (x : K) : Outcome (List K) :=
  if k < q.length then .ok (q.set (q.length - 1 - k) x) else .ub

/-- The loop of the division (polynomial.cc:146-159) with at most `fuel` turns; `none` if it does not end by
then. -/
def divLoop (divisor : List K) : Nat → List K → List K → Option (Outcome (List K × List K))
  | 0, numerator, quotient => if numerator.length ≥ divisor.length then none else some (.ok (quotient, numerator))
  | fuel + 1, numerator, quotient =>
    if numerator.length ≥ divisor.length then
      match numerator, divisor with
      | n :: _, d :: _ =>
        if d = 0 then some .ub
        else
          match setPower quotient (numerator.length - divisor.length) (n / d) with
          | .abort => some .abort
          | .ub => some .ub
          | .ok quotient =>
            divLoop divisor fuel
              (removeLeadingZeros ((subtractHead (n / d) numerator divisor).set 0 0)) quotient
      | _, _ => some .ub
    else some (.ok (quotient, numerator))

/-- `DividePolynomial` (polynomial.cc:131-161) with at most `fuel` turns of the loop: quotient and remainder.
A quotient of negative size is undefined. -/
def divide (fuel : Nat) (p divisor : List K) : Option (Outcome (List K × List K)) :=
  if p.length < divisor.length then some (.ok ([0], p))
  else
    let numerator := removeLeadingZeros p
    if numerator.length + 1 < divisor.length then some .ub
    else divLoop divisor fuel numerator (List.replicate (numerator.length + 1 - divisor.length) 0)

/-- Keeps the better of two points (polynomial.cc:245-255, 278-282). -/
def better [LT K] [DecidableLT K] (p : List K) (x : K) (best : K × K) : K × K :=
  if eval p x < best.2 then (x, eval p x) else best

/-- The loop over the roots (polynomial.cc:272-283). -/
def minLoop [LT K] [DecidableLT K] (p : List K) (lo hi : K) : List K → K × K → K × K
  | [], best => best
  | r :: rs, best => minLoop p lo hi rs (if r < lo ∨ r > hi then best else better p r best)

/-- `MinimizePolynomial` (polynomial.cc:232-284): the point and the value. `roots` is `FindPolynomialRoots`: the
real parts of the roots, or failure. -/
def minimize [LT K] [DecidableLT K] (roots : List K → Option (List K)) (p : List K) (lo hi : K) :
    Outcome (K × K) :=
  let best := better p hi (better p lo ((lo + hi) / 2, eval p ((lo + hi) / 2)))
  if p.length ≤ 2 then .ok best
  else
    match differentiate p with
    | .abort => .abort
    | .ub => .ub
    | .ok d =>
      match roots d with
      | none => .ok best
      | some rs => .ok (minLoop p lo hi rs best)

end Poly
end Theia
