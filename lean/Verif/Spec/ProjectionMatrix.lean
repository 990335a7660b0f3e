import Verif.Spec.EssentialMatrix

/-!
# Specification of projection matrices and their parts
-/

namespace Theia
namespace Spec

/-- An upper triangular matrix. -/
def UpperTriangular (m : M3 ℝ) : Prop := m.r2.x = 0 ∧ m.r3.x = 0 ∧ m.r3.y = 0

/-- A calibration matrix: upper triangular with positive diagonal. -/
def CalibrationMatrix (K : M3 ℝ) : Prop := UpperTriangular K ∧ 0 < K.r1.x ∧ 0 < K.r2.y ∧ 0 < K.r3.z

/-- What a Householder QR decomposition returns for `m`: an orthogonal matrix, and a matrix whose upper triangle is the
triangular factor. -/
def IsQr (m q r : M3 ℝ) : Prop :=
  IsOrthogonal q ∧ m = q.mul ⟨r.r1, ⟨0, r.r2.y, r.r2.z⟩, ⟨0, 0, r.r3.z⟩⟩

/-- The camera `K [R | -R c]`, times `s`, is the projection matrix `[M | m]`: they have the same effect on every homogeneous
point. -/
def SameCamera (M : M3 ℝ) (m : V3 ℝ) (s : ℝ) (K R : M3 ℝ) (c : V3 ℝ) : Prop :=
  ∀ (X : V3 ℝ) (w : ℝ), (M.mulVec X).add (m.smul w) = (K.mulVec (R.mulVec (X.sub (c.smul w)))).smul s

/-- The square of the Frobenius distance. -/
noncomputable def frobeniusSq (a b : M3 ℝ) : ℝ := (a.r1.sub b.r1).dot (a.r1.sub b.r1) + (a.r2.sub b.r2).dot (a.r2.sub b.r2)
  + (a.r3.sub b.r3).dot (a.r3.sub b.r3)

/-- A rotation nearest to `m`. -/
def NearestRotation (m r : M3 ℝ) : Prop := r.IsRotation ∧ ∀ q : M3 ℝ, q.IsRotation → frobeniusSq m r ≤ frobeniusSq m q

end Spec
end Theia
