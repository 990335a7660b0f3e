import Mathlib.LinearAlgebra.Matrix.Charpoly.Basic
import Mathlib.Analysis.Complex.Basic
import Verif.Spec.Polynomial

/-!
# The roots of a polynomial with real coefficients
-/

namespace Theia.Spec

open Polynomial

/-- The product of `X - z` over a list of complex numbers. -/
noncomputable def productOfRoots (zs : List ℂ) : ℂ[X] := (zs.map (fun z => X - C z)).prod

/-- An eigensolver that returns, unless it fails, the eigenvalues of a real matrix with their multiplicities. -/
def EigenvalueSolver (eig : (n : Nat) → Matrix (Fin n) (Fin n) ℝ → Option (List ℂ)) : Prop :=
  ∀ n A zs, eig n A = some zs → A.charpoly.map (algebraMap ℝ ℂ) = productOfRoots zs

/-- The numbers with the given real and imaginary parts are all complex roots of the polynomial, as often as their
multiplicities: it is the leading coefficient times the product of `X - z`. -/
def AllRoots (p : ℝ[X]) (re im : List ℝ) : Prop :=
  re.length = im.length ∧
    p.map (algebraMap ℝ ℂ) = C (p.leadingCoeff : ℂ) * productOfRoots (List.zipWith Complex.mk re im)

end Theia.Spec
