import Mathlib.Data.Real.Basic
import Mathlib.Tactic.Linarith
import Mathlib.Tactic.Positivity
import Verif.Base.Geometry

/-!
# Real vectors: lengths and cross products
-/

namespace Theia
namespace V3

theorem dot_comm (a b : V3 ℝ) : a.dot b = b.dot a := by
  simp only [dot]; ring

theorem self_nonneg (a : V3 ℝ) : 0 ≤ a.dot a := by
  simp only [dot]; nlinarith [mul_self_nonneg a.x, mul_self_nonneg a.y, mul_self_nonneg a.z]

theorem self_eq_zero {a : V3 ℝ} (h : a.dot a = 0) : a = zero := by
  simp only [dot] at h
  have hx := mul_self_nonneg a.x
  have hy := mul_self_nonneg a.y
  have hz := mul_self_nonneg a.z
  apply V3.ext <;> simp only [zero]
  · exact mul_self_eq_zero.1 (by linarith)
  · exact mul_self_eq_zero.1 (by linarith)
  · exact mul_self_eq_zero.1 (by linarith)

theorem self_pos {a : V3 ℝ} (h : a ≠ zero) : 0 < a.dot a :=
  lt_of_le_of_ne (self_nonneg a) (fun e => h (self_eq_zero e.symm))

/-- Lagrange's identity. -/
theorem cross_self_dot (a b : V3 ℝ) : (a.cross b).dot (a.cross b) = a.dot a * b.dot b - a.dot b * a.dot b := by
  simp only [dot, cross]; ring

theorem cauchy (a b : V3 ℝ) : a.dot b * a.dot b ≤ a.dot a * b.dot b := by
  have := self_nonneg (a.cross b)
  rw [cross_self_dot] at this
  linarith

theorem cauchy_strict {a b : V3 ℝ} (h : a.cross b ≠ zero) : a.dot b * a.dot b < a.dot a * b.dot b := by
  have := self_pos h
  rw [cross_self_dot] at this
  linarith

theorem sub_eq_zero {a b : V3 ℝ} (h : a.sub b = zero) : a = b := by
  simp only [sub, zero, V3.mk.injEq] at h
  obtain ⟨h1, h2, h3⟩ := h
  apply V3.ext <;> linarith

theorem smul_zero' (s : ℝ) : (zero : V3 ℝ).smul s = zero := by
  simp [smul, zero]

theorem zero_smul' (a : V3 ℝ) : a.smul 0 = zero := by
  simp [smul, zero]

theorem one_smul' (a : V3 ℝ) : a.smul 1 = a := by
  apply V3.ext <;> simp only [smul] <;> ring

theorem smul_smul (a : V3 ℝ) (s t : ℝ) : (a.smul s).smul t = a.smul (t * s) := by
  apply V3.ext <;> simp only [smul] <;> ring

theorem eq_zero_of_smul {a : V3 ℝ} {s : ℝ} (hs : s ≠ 0) (h : a.smul s = zero) : a = zero := by
  simp only [smul, zero, V3.mk.injEq] at h
  obtain ⟨h1, h2, h3⟩ := h
  apply V3.ext <;> simp only [zero]
  · exact (mul_eq_zero.1 h1).resolve_left hs
  · exact (mul_eq_zero.1 h2).resolve_left hs
  · exact (mul_eq_zero.1 h3).resolve_left hs

theorem dot_zero (a : V3 ℝ) : a.dot zero = 0 := by
  simp [dot, zero]

theorem zero_dot (a : V3 ℝ) : (zero : V3 ℝ).dot a = 0 := by
  simp [dot, zero]

/-- A vector parallel to a unit vector is a multiple of it. -/
theorem eq_smul_of_cross_unit {d v : V3 ℝ} (hd : d.dot d = 1) (h : d.cross v = zero) : v = d.smul (d.dot v) := by
  have h2 : (v.sub (d.smul (d.dot v))).dot (v.sub (d.smul (d.dot v))) =
      (d.cross v).dot (d.cross v) + (1 - d.dot d) * (v.dot v - d.dot v * d.dot v) := by
    simp only [dot, cross, sub, smul]; ring
  rw [h, hd, dot_zero] at h2
  apply sub_eq_zero
  apply self_eq_zero
  rw [h2]; ring

end V3
end Theia
