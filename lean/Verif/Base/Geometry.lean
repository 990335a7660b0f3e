import Mathlib.Algebra.Field.Basic
import Mathlib.Tactic.Ring
import Mathlib.Tactic.LinearCombination

/-!
# Vectors and matrices of dimension three

`V3` and `M3` stand for `Eigen::Vector3d` and `Eigen::Matrix3d`, over any field and without rounding.
-/

namespace Theia

/-- `Eigen::Vector3d`. -/
@[ext] structure V3 (K : Type) where
  x : K
  y : K
  z : K
  deriving DecidableEq, Repr

/-- `Eigen::Matrix3d`, by rows. -/
@[ext] structure M3 (K : Type) where
  r1 : V3 K
  r2 : V3 K
  r3 : V3 K
  deriving DecidableEq, Repr

namespace V3

variable {K : Type} [Field K]

/-- Sum. -/
def add (a b : V3 K) : V3 K := ⟨a.x + b.x, a.y + b.y, a.z + b.z⟩

/-- Difference. -/
def sub (a b : V3 K) : V3 K := ⟨a.x - b.x, a.y - b.y, a.z - b.z⟩

/-- Negative. -/
def neg (a : V3 K) : V3 K := ⟨-a.x, -a.y, -a.z⟩

/-- Multiple. -/
def smul (s : K) (a : V3 K) : V3 K := ⟨s * a.x, s * a.y, s * a.z⟩

/-- `dot`. -/
def dot (a b : V3 K) : K := a.x * b.x + a.y * b.y + a.z * b.z

/-- `cross`. -/
def cross (a b : V3 K) : V3 K := ⟨a.y * b.z - a.z * b.y, a.z * b.x - a.x * b.z, a.x * b.y - a.y * b.x⟩

/-- The zero vector. -/
def zero : V3 K := ⟨0, 0, 0⟩

end V3

namespace M3

variable {K : Type} [Field K]

/-- Matrix times vector. -/
def mulVec (m : M3 K) (v : V3 K) : V3 K := ⟨m.r1.dot v, m.r2.dot v, m.r3.dot v⟩

/-- `transpose()`. -/
def transpose (m : M3 K) : M3 K :=
  ⟨⟨m.r1.x, m.r2.x, m.r3.x⟩, ⟨m.r1.y, m.r2.y, m.r3.y⟩, ⟨m.r1.z, m.r2.z, m.r3.z⟩⟩

/-- Product. -/
def mul (a b : M3 K) : M3 K :=
  ⟨b.transpose.mulVec a.r1, b.transpose.mulVec a.r2, b.transpose.mulVec a.r3⟩

/-- The identity. -/
def one : M3 K := ⟨⟨1, 0, 0⟩, ⟨0, 1, 0⟩, ⟨0, 0, 1⟩⟩

/-- `determinant()`. -/
def det (m : M3 K) : K := m.r1.dot (m.r2.cross m.r3)

/-- A rotation: rows and columns orthonormal, determinant one. -/
structure IsRotation (m : M3 K) : Prop where
  left : m.transpose.mul m = one
  right : m.mul m.transpose = one
  det : m.det = 1

theorem mulVec_mul (a b : M3 K) (v : V3 K) : (a.mul b).mulVec v = a.mulVec (b.mulVec v) := by
  apply V3.ext <;> simp only [mulVec, mul, transpose, V3.dot] <;> ring

theorem mul_assoc (a b c : M3 K) : (a.mul b).mul c = a.mul (b.mul c) := by
  apply M3.ext <;> apply V3.ext <;> simp only [mulVec, mul, transpose, V3.dot] <;> ring

theorem transpose_mul (a b : M3 K) : (a.mul b).transpose = b.transpose.mul a.transpose := by
  apply M3.ext <;> apply V3.ext <;> simp only [mulVec, mul, transpose, V3.dot] <;> ring

omit [Field K] in
theorem transpose_transpose (a : M3 K) : a.transpose.transpose = a := rfl

theorem one_mulVec (v : V3 K) : (one : M3 K).mulVec v = v := by
  apply V3.ext <;> simp only [mulVec, one, V3.dot] <;> ring

theorem mul_one (a : M3 K) : a.mul one = a := by
  apply M3.ext <;> apply V3.ext <;> simp only [mulVec, mul, transpose, V3.dot, one] <;> ring

theorem one_mul (a : M3 K) : (one : M3 K).mul a = a := by
  apply M3.ext <;> apply V3.ext <;> simp only [mulVec, mul, transpose, V3.dot, one] <;> ring

theorem mulVec_add (a : M3 K) (u v : V3 K) : a.mulVec (u.add v) = (a.mulVec u).add (a.mulVec v) := by
  apply V3.ext <;> simp only [mulVec, V3.dot, V3.add] <;> ring

theorem mulVec_sub (a : M3 K) (u v : V3 K) : a.mulVec (u.sub v) = (a.mulVec u).sub (a.mulVec v) := by
  apply V3.ext <;> simp only [mulVec, V3.dot, V3.sub] <;> ring

theorem mulVec_smul (a : M3 K) (s : K) (v : V3 K) : a.mulVec (v.smul s) = (a.mulVec v).smul s := by
  apply V3.ext <;> simp only [mulVec, V3.dot, V3.smul] <;> ring

theorem mulVec_neg (a : M3 K) (v : V3 K) : a.mulVec v.neg = (a.mulVec v).neg := by
  apply V3.ext <;> simp only [mulVec, V3.dot, V3.neg] <;> ring

theorem det_mul (a b : M3 K) : (a.mul b).det = a.det * b.det := by
  simp only [det, mul, mulVec, transpose, V3.dot, V3.cross]
  ring

theorem det_transpose (a : M3 K) : a.transpose.det = a.det := by
  simp only [det, transpose, V3.dot, V3.cross]
  ring

theorem det_one : (one : M3 K).det = 1 := by
  simp only [det, one, V3.dot, V3.cross]
  ring

theorem dot_mulVec (a : M3 K) (u v : V3 K) : (a.mulVec u).dot v = u.dot (a.transpose.mulVec v) := by
  simp only [mulVec, transpose, V3.dot]
  ring

namespace IsRotation

theorem one : IsRotation (one : M3 K) := by
  refine ⟨?_, ?_, det_one⟩
  · show M3.mul M3.one M3.one = M3.one
    exact M3.one_mul _
  · show M3.mul M3.one M3.one = M3.one
    exact M3.one_mul _

theorem transpose {a : M3 K} (h : IsRotation a) : IsRotation a.transpose :=
  ⟨h.right, h.left, by rw [det_transpose, h.det]⟩

theorem mul {a b : M3 K} (ha : IsRotation a) (hb : IsRotation b) : IsRotation (a.mul b) := by
  refine ⟨?_, ?_, by rw [det_mul, ha.det, hb.det, _root_.one_mul]⟩
  · rw [transpose_mul, M3.mul_assoc, ← M3.mul_assoc a.transpose, ha.left, M3.one_mul, hb.left]
  · rw [transpose_mul, M3.mul_assoc, ← M3.mul_assoc b, hb.right, M3.one_mul, ha.right]

theorem transpose_mulVec {a : M3 K} (h : IsRotation a) (v : V3 K) : a.transpose.mulVec (a.mulVec v) = v := by
  rw [← mulVec_mul, h.left, one_mulVec]

theorem mulVec_transpose {a : M3 K} (h : IsRotation a) (v : V3 K) : a.mulVec (a.transpose.mulVec v) = v := by
  rw [← mulVec_mul, h.right, one_mulVec]

theorem dot {a : M3 K} (h : IsRotation a) (u v : V3 K) : (a.mulVec u).dot (a.mulVec v) = u.dot v := by
  rw [dot_mulVec, h.transpose_mulVec]

end IsRotation

end M3
end Theia
