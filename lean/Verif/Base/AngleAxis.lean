import Mathlib.Analysis.SpecialFunctions.Trigonometric.Basic
import Mathlib.Analysis.Real.Sqrt
import Verif.Base.Geometry

/-!
# Rotating a point with an angle-axis vector

`ceres::AngleAxisRotatePoint`, which Theia calls wherever it applies a stored orientation. Ceres is not part of
/repo; this is its documented algorithm: Rodrigues' formula if the squared angle is above a threshold (the machine
epsilon, here a parameter), otherwise the first-order approximation. Over the reals, without rounding.
-/

namespace Theia
namespace AngleAxis

open V3

/-- Rodrigues' formula with axis `u`, cosine `c` and sine `s`. -/
noncomputable def rodrigues (u : V3 ℝ) (c s : ℝ) (p : V3 ℝ) : V3 ℝ :=
  ((p.smul c).add ((u.cross p).smul s)).add (u.smul (u.dot p * (1 - c)))

/-- `ceres::AngleAxisRotatePoint`. -/
noncomputable def rotate (eps : ℝ) (w p : V3 ℝ) : V3 ℝ :=
  if eps < w.dot w then
    let theta := Real.sqrt (w.dot w)
    rodrigues (w.smul theta⁻¹) (Real.cos theta) (Real.sin theta) p
  else p.add (w.cross p)

theorem dot_self_nonneg (w : V3 ℝ) : 0 ≤ w.dot w := by
  unfold V3.dot
  nlinarith [mul_self_nonneg w.x, mul_self_nonneg w.y, mul_self_nonneg w.z]

theorem unit_axis {w : V3 ℝ} (h : 0 < w.dot w) :
    (w.smul (Real.sqrt (w.dot w))⁻¹).dot (w.smul (Real.sqrt (w.dot w))⁻¹) = 1 := by
  have hs : Real.sqrt (w.dot w) * Real.sqrt (w.dot w) = w.dot w := Real.mul_self_sqrt (le_of_lt h)
  have hne : Real.sqrt (w.dot w) ≠ 0 := (Real.sqrt_pos.2 h).ne'
  have : (w.smul (Real.sqrt (w.dot w))⁻¹).dot (w.smul (Real.sqrt (w.dot w))⁻¹) =
      (Real.sqrt (w.dot w))⁻¹ * (Real.sqrt (w.dot w))⁻¹ * w.dot w := by
    simp only [V3.dot, V3.smul]
    ring
  rw [this, ← mul_inv, hs]
  exact inv_mul_cancel₀ h.ne'

theorem rodrigues_eq {u : V3 ℝ} (hu : u.dot u = 1) (c s : ℝ) (p : V3 ℝ) :
    rodrigues u c s p = (p.add ((u.cross p).smul s)).add ((u.cross (u.cross p)).smul (1 - c)) := by
  unfold rodrigues
  simp only [V3.dot] at hu
  apply V3.ext <;> simp only [V3.add, V3.smul, V3.cross, V3.dot]
  · linear_combination ((1 - c) * p.x) * hu
  · linear_combination ((1 - c) * p.y) * hu
  · linear_combination ((1 - c) * p.z) * hu

theorem cross_cubed {u : V3 ℝ} (hu : u.dot u = 1) (p : V3 ℝ) :
    u.cross (u.cross (u.cross p)) = (u.cross p).neg := by
  simp only [V3.dot] at hu
  apply V3.ext <;> simp only [V3.cross, V3.neg]
  · linear_combination (-(u.y * p.z - u.z * p.y)) * hu
  · linear_combination (-(u.z * p.x - u.x * p.z)) * hu
  · linear_combination (-(u.x * p.y - u.y * p.x)) * hu

theorem cross_add (u a b : V3 ℝ) : u.cross (a.add b) = (u.cross a).add (u.cross b) := by
  apply V3.ext <;> simp only [V3.cross, V3.add] <;> ring

theorem cross_smul (u a : V3 ℝ) (s : ℝ) : u.cross (a.smul s) = (u.cross a).smul s := by
  apply V3.ext <;> simp only [V3.cross, V3.smul] <;> ring

theorem cross_neg (u a : V3 ℝ) : u.cross a.neg = (u.cross a).neg := by
  apply V3.ext <;> simp only [V3.cross, V3.neg] <;> ring

/-- Rodrigues' formula is undone by the opposite angle. -/
theorem rodrigues_inverse {u : V3 ℝ} (hu : u.dot u = 1) {c s : ℝ} (hcs : c * c + s * s = 1) (p : V3 ℝ) :
    rodrigues u c (-s) (rodrigues u c s p) = p := by
  rw [rodrigues_eq hu, rodrigues_eq hu]
  have h3 := cross_cubed hu p
  simp only [cross_add, cross_smul, h3, cross_neg]
  generalize u.cross (u.cross p) = b
  generalize u.cross p = a
  apply V3.ext <;> simp only [V3.add, V3.smul, V3.neg]
  · linear_combination (-b.x) * hcs
  · linear_combination (-b.y) * hcs
  · linear_combination (-b.z) * hcs

/-- The negative vector is the inverse rotation, outside the approximation. -/
theorem rotate_neg {eps : ℝ} (heps : 0 ≤ eps) {w : V3 ℝ} (h : eps < w.dot w) (p : V3 ℝ) :
    rotate eps w.neg (rotate eps w p) = p := by
  have hn : w.neg.dot w.neg = w.dot w := by simp only [V3.dot, V3.neg]; ring
  unfold rotate
  rw [hn, if_pos h, if_pos h]
  simp only
  have hpos : 0 < w.dot w := lt_of_le_of_lt heps h
  have hu := unit_axis hpos
  have : ∀ q, rodrigues (w.neg.smul (Real.sqrt (w.dot w))⁻¹) (Real.cos (Real.sqrt (w.dot w)))
      (Real.sin (Real.sqrt (w.dot w))) q = rodrigues (w.smul (Real.sqrt (w.dot w))⁻¹)
      (Real.cos (Real.sqrt (w.dot w))) (-Real.sin (Real.sqrt (w.dot w))) q := by
    intro q
    unfold rodrigues
    apply V3.ext <;> simp only [V3.add, V3.smul, V3.neg, V3.cross, V3.dot] <;> ring
  rw [this]
  exact rodrigues_inverse hu (by nlinarith [Real.sin_sq_add_cos_sq (Real.sqrt (w.dot w))]) p

/-- Rotation is linear, in either branch. -/
theorem rotate_sub (eps : ℝ) (w p q : V3 ℝ) : rotate eps w (p.sub q) = (rotate eps w p).sub (rotate eps w q) := by
  unfold rotate rodrigues
  split <;> apply V3.ext <;> simp only [V3.add, V3.sub, V3.smul, V3.cross, V3.dot] <;> ring

theorem rotate_smul (eps s : ℝ) (w p : V3 ℝ) : rotate eps w (p.smul s) = (rotate eps w p).smul s := by
  unfold rotate rodrigues
  split <;> apply V3.ext <;> simp only [V3.add, V3.smul, V3.cross, V3.dot] <;> ring

theorem rotate_negPoint (eps : ℝ) (w p : V3 ℝ) : rotate eps w p.neg = (rotate eps w p).neg := by
  unfold rotate rodrigues
  split <;> apply V3.ext <;> simp only [V3.add, V3.neg, V3.smul, V3.cross, V3.dot] <;> ring

/-- Rotation keeps lengths, outside the approximation. -/
theorem rotate_dot {eps : ℝ} (heps : 0 ≤ eps) {w : V3 ℝ} (h : eps < w.dot w) (p : V3 ℝ) :
    (rotate eps w p).dot (rotate eps w p) = p.dot p := by
  unfold rotate
  rw [if_pos h]
  simp only
  have hpos : 0 < w.dot w := lt_of_le_of_lt heps h
  have hu := unit_axis hpos
  have hcs := Real.sin_sq_add_cos_sq (Real.sqrt (w.dot w))
  generalize w.smul (Real.sqrt (w.dot w))⁻¹ = u at *
  generalize Real.cos (Real.sqrt (w.dot w)) = c at *
  generalize Real.sin (Real.sqrt (w.dot w)) = s at *
  -- lengths of p, u × p and their products
  have hc : (u.cross p).dot (u.cross p) = p.dot p - u.dot p * u.dot p := by
    simp only [V3.dot] at hu
    simp only [V3.dot, V3.cross]
    linear_combination (p.x * p.x + p.y * p.y + p.z * p.z) * hu
  have expand : (rodrigues u c s p).dot (rodrigues u c s p) =
      c * c * p.dot p + s * s * (u.cross p).dot (u.cross p) +
        (u.dot p * (1 - c)) * (u.dot p * (1 - c)) * u.dot u + 2 * c * (u.dot p * (1 - c)) * u.dot p := by
    unfold rodrigues
    simp only [V3.dot, V3.add, V3.smul, V3.cross]
    ring
  rw [expand, hc, hu]
  linear_combination (p.dot p - u.dot p * u.dot p) * hcs

end AngleAxis
end Theia
