import Mathlib.LinearAlgebra.Matrix.Determinant.Basic
import Verif.Model.FundamentalMatrix
import Verif.Proof.EssentialMatrix
import Verif.Spec.FundamentalMatrix

/-!
# Lemmas on fundamental matrices
-/

namespace Theia
namespace FundamentalMatrix

open Triangulation Spec

/-- A row as a function. -/
def entries (a : V4) : Fin 4 → ℝ := ![a.1.x, a.1.y, a.1.z, a.2]

/-- `det4` is the determinant. -/
theorem det4_eq (a b c d : V4) : det4 a b c d = Matrix.det (Matrix.of ![entries a, entries b, entries c, entries d]) := by
  simp [det4, Matrix.det_succ_row_zero, Fin.sum_univ_succ, entries, V3.dot, V3.cross, Fin.succAbove]
  ring

/-- The epipolar constraint. -/
theorem epipolar_identity (P1 P2 : P34) (X : V4) : (applyP P1 X).dot ((fromProjections P1 P2).mulVec (applyP P2 X)) = 0 := by
  simp only [applyP, fromProjections, fundamentalEntry, index1, index2, row, det4, M3.mulVec, V3.dot, V3.add, V3.smul, V3.cross]
  ring

/-! ## Focal lengths -/

/-- The formulas for the focal lengths, on the entries of the essential matrix in rotated coordinates. -/
theorem focal_core {E11 E12 E13 E21 E22 E23 E31 E32 s1 s3 t1 t3 f1 f2 g l m : ℝ}
    (h1 : E11 * E21 + E12 * E22 + E13 * E23 = 0) (h2 : E11 * E12 + E21 * E22 + E31 * E32 = 0)
    (n1 : E11 * s1 + E13 * s3 = 0) (n2 : E21 * s1 + E23 * s3 = 0) (n3 : t1 * E11 + t3 * E31 = 0) (n4 : t1 * E12 + t3 * E32 = 0)
    (hs1 : s1 ≠ 0) (hs3 : s3 ≠ 0) (ht1 : t1 ≠ 0) (ht3 : t3 ≠ 0) (hE11 : E11 ≠ 0) (hE21 : E21 ≠ 0)
    (hf1 : 0 < f1) (hf2 : 0 < f2) (hg : g ≠ 0) (hl : l ≠ 0) (hm : m ≠ 0) {F : M3 ℝ} {e1 e2 : V3 ℝ}
    (F11 : F.r1.x = g * E11) (F12 : F.r1.y = g * E12) (F21 : F.r2.x = g * E21) (F22 : F.r2.y = g * E22)
    (e1x : e1.x = l * (f1 * s1)) (e1z : e1.z = l * s3) (e2x : e2.x = m * (f2 * t1)) (e2z : e2.z = m * t3) :
    focalFromRotated F e1 e2 = .ok (some (f1, f2)) := by
  have k1 : E11 * E21 * (s1 * s1 + s3 * s3) + E12 * E22 * (s3 * s3) = 0 := by
    linear_combination s3 * s3 * h1 + (E21 * s1 + 0) * n1 - E13 * s3 * n2
  have k2 : E11 * E12 * (t1 * t1 + t3 * t3) + E21 * E22 * (t3 * t3) = 0 := by
    linear_combination t3 * t3 * h2 + (t1 * E12) * n3 - E31 * t3 * n4
  have hE12 : E12 ≠ 0 := by
    rintro rfl
    have : E11 * E21 * (s1 * s1 + s3 * s3) = 0 := by linarith
    have hp : 0 < s1 * s1 + s3 * s3 := by
      have a := mul_self_pos.2 hs1
      have b := mul_self_pos.2 hs3
      linarith
    exact (mul_ne_zero (mul_ne_zero hE11 hE21) hp.ne') this
  have hx1 : e1.x ≠ 0 := by rw [e1x]; exact mul_ne_zero hl (mul_ne_zero hf1.ne' hs1)
  have hz1 : e1.z ≠ 0 := by rw [e1z]; exact mul_ne_zero hl hs3
  have hx2 : e2.x ≠ 0 := by rw [e2x]; exact mul_ne_zero hm (mul_ne_zero hf2.ne' ht1)
  have hz2 : e2.z ≠ 0 := by rw [e2z]; exact mul_ne_zero hm ht3
  unfold focalFromRotated
  rw [if_neg (by simp [hx1, hz1, hx2, hz2])]
  simp only [F11, F12, F21, F22, e1x, e1z, e2x, e2z]
  have d1 : 1 / (m * t3) * (g * E11) * (1 / (l * s3)) * (g * E21 * (1 / (l * s3))) * (l * s3) * (l * s3) +
      1 / (m * t3) * (g * E12) * (g * E22) = -(g * g * (E11 * E21) * (s1 * s1) / (m * t3 * (s3 * s3))) := by
    field_simp
    linear_combination k1
  have d2 : 1 / (m * t3) * (g * E11) * (1 / (l * s3)) * (1 / (m * t3) * (g * E12)) * (m * t3) * (m * t3) +
      g * E21 * (1 / (l * s3)) * (g * E22) = -(g * g * (E11 * E12) * (t1 * t1) / (l * s3 * (t3 * t3))) := by
    field_simp
    linear_combination k2
  have q1 : g * g * (E11 * E21) * (s1 * s1) / (m * t3 * (s3 * s3)) ≠ 0 := by
    refine div_ne_zero ?_ ?_ <;> simp [hg, hE11, hE21, hs1, hm, ht3, hs3]
  have q2 : g * g * (E11 * E12) * (t1 * t1) / (l * s3 * (t3 * t3)) ≠ 0 := by
    refine div_ne_zero ?_ ?_ <;> simp [hg, hE11, hE12, ht1, hl, ht3, hs3]
  have u1 : -(1 / (m * t3) * (g * E11) * (1 / (l * s3))) * (g * E21 * (1 / (l * s3))) * (l * (f1 * s1)) * (l * (f1 * s1)) =
      f1 * f1 * -(g * g * (E11 * E21) * (s1 * s1) / (m * t3 * (s3 * s3))) := by
    field_simp
  have u2 : -(1 / (m * t3) * (g * E11) * (1 / (l * s3))) * (1 / (m * t3) * (g * E12)) * (m * (f2 * t1)) * (m * (f2 * t1)) =
      f2 * f2 * -(g * g * (E11 * E12) * (t1 * t1) / (l * s3 * (t3 * t3))) := by
    field_simp
  rw [d1, d2, u1, u2, if_neg (by simp only [neg_eq_zero, not_or]; exact ⟨q1, q2⟩),
    mul_div_cancel_right₀ _ (neg_ne_zero.2 q1), mul_div_cancel_right₀ _ (neg_ne_zero.2 q2),
    if_neg (by rw [not_or]; exact ⟨not_lt.2 (mul_self_nonneg _), not_lt.2 (mul_self_nonneg _)⟩),
    Real.sqrt_mul_self hf1.le, Real.sqrt_mul_self hf2.le]

theorem cos_sq_add_sin_sq' (θ : ℝ) : Real.cos θ * Real.cos θ + Real.sin θ * Real.sin θ = 1 := by
  have := Real.cos_sq_add_sin_sq θ
  linarith [sq (Real.cos θ), sq (Real.sin θ)]

theorem isRotation_zRotation (θ : ℝ) : (zRotation θ).IsRotation := by
  have h := cos_sq_add_sin_sq' θ
  refine ⟨?_, ?_, ?_⟩
  · apply M3.ext <;> apply V3.ext <;> simp only [zRotation, M3.mul, M3.transpose, M3.mulVec, M3.one, V3.dot] <;> linarith
  · apply M3.ext <;> apply V3.ext <;> simp only [zRotation, M3.mul, M3.transpose, M3.mulVec, M3.one, V3.dot] <;> linarith
  · simp only [zRotation, M3.det, V3.dot, V3.cross]; linarith

theorem zRotation_axis (θ : ℝ) : (zRotation θ).mulVec axis = axis ∧ (zRotation θ).transpose.mulVec axis = axis := by
  constructor <;> apply V3.ext <;> simp [zRotation, M3.transpose, M3.mulVec, V3.dot, axis]

/-- The rotation takes the second coordinate of the epipole to zero. -/
theorem zRotation_epipole {e : V3 ℝ} (hx : e.x ≠ 0) :
    ∃ r : ℝ, r ≠ 0 ∧ (zRotation (atan2 (-e.y) e.x)).mulVec e = ⟨r, 0, e.z⟩ := by
  have hne : (⟨e.x, -e.y⟩ : ℂ) ≠ 0 := by
    intro h; exact hx (congrArg Complex.re h)
  have hn : ‖(⟨e.x, -e.y⟩ : ℂ)‖ ≠ 0 := norm_ne_zero_iff.2 hne
  have hc : Real.cos (atan2 (-e.y) e.x) = e.x / ‖(⟨e.x, -e.y⟩ : ℂ)‖ := Complex.cos_arg hne
  have hs : Real.sin (atan2 (-e.y) e.x) = -e.y / ‖(⟨e.x, -e.y⟩ : ℂ)‖ := Complex.sin_arg _
  have hp : 0 < e.x * e.x + e.y * e.y := by
    have := mul_self_pos.2 hx
    have := mul_self_nonneg e.y
    linarith
  refine ⟨(e.x * e.x + e.y * e.y) / ‖(⟨e.x, -e.y⟩ : ℂ)‖, div_ne_zero hp.ne' hn, ?_⟩
  apply V3.ext <;> simp only [zRotation, M3.mulVec, V3.dot, hc, hs]
  · ring
  · field_simp; ring
  · ring

/-- Calibration matrices commute with rotations about the optical axis. -/
theorem calib_zRotation (f θ : ℝ) (v : V3 ℝ) : (Calib f).mulVec ((zRotation θ).mulVec v) = (zRotation θ).mulVec ((Calib f).mulVec v) := by
  apply V3.ext <;> simp only [Calib, zRotation, M3.mulVec, V3.dot] <;> ring

theorem calib_zRotation_transpose (f θ : ℝ) (v : V3 ℝ) :
    (Calib f).mulVec ((zRotation θ).transpose.mulVec v) = (zRotation θ).transpose.mulVec ((Calib f).mulVec v) := by
  apply V3.ext <;> simp only [Calib, zRotation, M3.transpose, M3.mulVec, V3.dot] <;> ring

theorem calib_injective {f : ℝ} (hf : f ≠ 0) {a b : V3 ℝ} (h : (Calib f).mulVec a = (Calib f).mulVec b) : a = b := by
  simp only [Calib, M3.mulVec, V3.dot, V3.mk.injEq] at h
  obtain ⟨h1, h2, h3⟩ := h
  refine V3.ext (mul_left_cancel₀ hf ?_) (mul_left_cancel₀ hf ?_) ?_ <;> linarith

theorem calib_surjective {f : ℝ} (hf : f ≠ 0) (a : V3 ℝ) : ∃ b, (Calib f).mulVec b = a := by
  refine ⟨⟨a.x / f, a.y / f, a.z⟩, ?_⟩
  apply V3.ext <;> simp only [Calib, M3.mulVec, V3.dot] <;> field_simp <;> ring

theorem calib_zero (f : ℝ) : (Calib f).mulVec V3.zero = V3.zero := by
  apply V3.ext <;> simp [Calib, M3.mulVec, V3.dot, V3.zero]

theorem mulVec_zero' (m : M3 ℝ) : m.mulVec V3.zero = V3.zero := by
  apply V3.ext <;> simp [M3.mulVec, V3.dot, V3.zero]

/-- A vector parallel to a nonzero one is a multiple of it. -/
theorem multiple_of_cross {t v : V3 ℝ} (ht : t ≠ V3.zero) (h : t.cross v = V3.zero) : ∃ l : ℝ, v = t.smul l := by
  have hp := V3.self_pos ht
  refine ⟨t.dot v / t.dot t, ?_⟩
  have key : v.smul (t.dot t) = t.smul (t.dot v) := by
    simp only [V3.cross, V3.zero, V3.mk.injEq] at h
    obtain ⟨a, b, c⟩ := h
    apply V3.ext <;> simp only [V3.smul, V3.dot]
    · linear_combination t.z * b - t.y * c
    · linear_combination t.x * c - t.z * a
    · linear_combination t.y * a - t.x * b
  simp only [V3.smul, V3.mk.injEq] at key
  obtain ⟨a, b, c⟩ := key
  apply V3.ext <;> simp only [V3.smul] <;> field_simp <;> linarith

/-- The epipole in the first image. -/
theorem epipole1 {F R : M3 ℝ} {k f1 f2 : ℝ} {t e : V3 ℝ} (hR : R.IsRotation) (ht : t ≠ V3.zero) (hk : k ≠ 0) (hf1 : f1 ≠ 0)
    (hF : FundamentalOf F k f1 f2 R t) (he : UnitNull F e) :
    ∃ l : ℝ, l ≠ 0 ∧ e = ((Calib f1).mulVec (R.transpose.mulVec t)).smul l := by
  obtain ⟨u, rfl⟩ := calib_surjective hf1 e
  have := hF u
  rw [he.2, calib_zero] at this
  have hc := V3.eq_zero_of_smul hk this.symm
  obtain ⟨l, hl⟩ := multiple_of_cross ht hc
  have hu : u = (R.transpose.mulVec t).smul l := by
    rw [← M3.mulVec_smul, ← hl, hR.transpose_mulVec]
  refine ⟨l, ?_, by rw [hu, M3.mulVec_smul]⟩
  rintro rfl
  have h1 := he.1
  rw [hu, V3.zero_smul', calib_zero] at h1
  norm_num [V3.dot, V3.zero] at h1

theorem dot_transpose (m : M3 ℝ) (u v : V3 ℝ) : u.dot (m.mulVec v) = (m.transpose.mulVec u).dot v := by
  simp only [M3.mulVec, M3.transpose, V3.dot]; ring

theorem calib_transpose (f : ℝ) : (Calib f).transpose = Calib f := rfl

/-- The epipole in the second image. -/
theorem epipole2 {F R : M3 ℝ} {k f1 f2 : ℝ} {t e : V3 ℝ} (hR : R.IsRotation) (ht : t ≠ V3.zero) (hk : k ≠ 0) (hf2 : f2 ≠ 0)
    (hF : FundamentalOf F k f1 f2 R t) (he : UnitNull F.transpose e) :
    ∃ l : ℝ, l ≠ 0 ∧ e = ((Calib f2).mulVec t).smul l := by
  obtain ⟨u, rfl⟩ := calib_surjective hf2 e
  have hz : ∀ v : V3 ℝ, u.dot (t.cross (R.mulVec v)) = 0 := by
    intro v
    have h1 := congrArg u.dot (hF v)
    rw [dot_transpose, dot_transpose, calib_transpose, he.2] at h1
    have h2 : u.dot ((t.cross (R.mulVec v)).smul k) = k * u.dot (t.cross (R.mulVec v)) := by
      simp only [V3.dot, V3.smul]; ring
    rw [h2, V3.zero_dot] at h1
    exact (mul_eq_zero.1 h1.symm).resolve_left hk
  have hc : t.cross u = V3.zero := by
    have h := hz (R.transpose.mulVec (t.cross u))
    rw [hR.mulVec_transpose] at h
    have e : u.dot (t.cross (t.cross u)) = -(t.cross u).dot (t.cross u) := by
      simp only [V3.dot, V3.cross]; ring
    rw [e] at h
    exact V3.self_eq_zero (by linarith)
  obtain ⟨l, hl⟩ := multiple_of_cross ht hc
  refine ⟨l, ?_, by rw [hl, M3.mulVec_smul]⟩
  rintro rfl
  have h1 := he.1
  rw [hl, V3.zero_smul', calib_zero] at h1
  norm_num [V3.dot, V3.zero] at h1

/-- The formulas, from the geometry of the rotated cameras. -/
theorem focal_rotated {F R : M3 ℝ} {k f1 f2 l m : ℝ} {t e1 e2 : V3 ℝ} (hR : R.IsRotation) (hk : k ≠ 0) (hf1 : 0 < f1)
    (hf2 : 0 < f2) (hF : FundamentalOf F k f1 f2 R t) (hy2 : t.y = 0) (hy1 : (R.transpose.mulVec t).y = 0)
    (hx2 : t.x ≠ 0) (hx1 : (R.transpose.mulVec t).x ≠ 0) (hz2 : t.z ≠ 0) (hz1 : (R.transpose.mulVec t).z ≠ 0)
    (hskew : axis.dot (t.cross (R.mulVec axis)) ≠ 0) (hperp : (t.cross axis).dot (t.cross (R.mulVec axis)) ≠ 0)
    (hl : l ≠ 0) (hm : m ≠ 0) (he1 : e1 = ((Calib f1).mulVec (R.transpose.mulVec t)).smul l)
    (he2 : e2 = ((Calib f2).mulVec t).smul m) : focalFromRotated F e1 e2 = .ok (some (f1, f2)) := by
  have n := hR.mulVec_transpose t
  have sd : ∀ v : V3 ℝ, (R.transpose.mulVec t).dot v = t.dot (R.mulVec v) := by
    intro v; rw [dot_transpose]
  generalize R.transpose.mulVec t = s at *
  -- the columns of the essential matrix
  have c1 := hF ⟨1, 0, 0⟩
  have c2 := hF ⟨0, 1, 0⟩
  have hcols : ∀ v w : V3 ℝ, (t.cross (R.mulVec v)).dot (t.cross (R.mulVec w)) = t.dot t * v.dot w - s.dot v * s.dot w := by
    intro v w
    have : (t.cross (R.mulVec v)).dot (t.cross (R.mulVec w)) =
        t.dot t * (R.mulVec v).dot (R.mulVec w) - t.dot (R.mulVec v) * t.dot (R.mulVec w) := by
      simp only [V3.dot, V3.cross]; ring
    rw [this, hR.dot, sd, sd]
  have h2 := hcols ⟨1, 0, 0⟩ ⟨0, 1, 0⟩
  have hlin : R.mulVec s = ((R.mulVec ⟨1, 0, 0⟩).smul s.x).add ((R.mulVec axis).smul s.z) := by
    apply V3.ext <;> simp only [M3.mulVec, V3.dot, V3.smul, V3.add, axis, hy1] <;> ring
  have hnull : ((t.cross (R.mulVec ⟨1, 0, 0⟩)).smul s.x).add ((t.cross (R.mulVec axis)).smul s.z) = V3.zero := by
    have : t.cross (R.mulVec s) = V3.zero := by
      rw [n]; apply V3.ext <;> simp only [V3.cross, V3.zero] <;> ring
    rw [hlin] at this
    rw [← this]
    apply V3.ext <;> simp only [V3.cross, V3.add, V3.smul] <;> ring
  have hrow : (t.cross (R.mulVec ⟨1, 0, 0⟩)).x * (t.cross (R.mulVec ⟨1, 0, 0⟩)).y
      + (t.cross (R.mulVec ⟨0, 1, 0⟩)).x * (t.cross (R.mulVec ⟨0, 1, 0⟩)).y
      + (t.cross (R.mulVec axis)).x * (t.cross (R.mulVec axis)).y = 0 := by
    obtain ⟨o11, o12, o13, o22, o23, o33⟩ := EssentialMatrix.rows_of_right hR.right
    simp only [V3.dot] at o11 o12 o13 o22 o23 o33
    simp only [V3.cross, M3.mulVec, V3.dot, axis, hy2, mul_one, mul_zero, add_zero, zero_add, zero_mul, zero_sub]
    linear_combination (-(t.z * t.z)) * o12 + t.z * t.x * o23
  have ht : ∀ v : V3 ℝ, t.x * (t.cross v).x + t.z * (t.cross v).z = 0 := by
    intro v; simp only [V3.cross, hy2]; ring
  have t1 := ht (R.mulVec ⟨1, 0, 0⟩)
  have t2 := ht (R.mulVec ⟨0, 1, 0⟩)
  have t3 := ht (R.mulVec axis)
  have hperp' : (t.cross axis).dot (t.cross (R.mulVec axis)) = -(t.x * (t.cross (R.mulVec axis)).y) := by
    simp only [V3.dot, V3.cross, axis, hy2]; ring
  have hskew' : axis.dot (t.cross (R.mulVec axis)) = (t.cross (R.mulVec axis)).z := by
    simp only [V3.dot, axis]; ring
  rw [hperp'] at hperp
  rw [hskew'] at hskew
  generalize t.cross (R.mulVec ⟨1, 0, 0⟩) = C1 at *
  generalize t.cross (R.mulVec ⟨0, 1, 0⟩) = C2 at *
  generalize t.cross (R.mulVec axis) = C3 at *
  simp only [V3.add, V3.smul, V3.zero, V3.mk.injEq] at hnull
  obtain ⟨n1, n2, n3⟩ := hnull
  simp only [V3.dot, hy1, mul_one, mul_zero, add_zero] at h2
  have hC1x : C1.x ≠ 0 := by
    intro h
    rw [h, mul_zero, zero_add] at t1
    have h31 : C1.z = 0 := (mul_eq_zero.1 t1).resolve_left hz2
    rw [h31, mul_zero, zero_add] at n3
    exact hskew ((mul_eq_zero.1 n3).resolve_left hz1)
  have hC1y : C1.y ≠ 0 := by
    intro h
    rw [h, mul_zero, zero_add] at n2
    have h23 : C3.y = 0 := (mul_eq_zero.1 n2).resolve_left hz1
    exact hperp (by rw [h23]; ring)
  simp only [Calib, M3.mulVec, V3.dot, V3.smul, mul_one, mul_zero, add_zero, zero_add, zero_mul, one_mul, V3.mk.injEq] at c1 c2
  have hff : f1 * f2 ≠ 0 := mul_ne_zero hf1.ne' hf2.ne'
  refine focal_core (g := k / (f1 * f2)) (E11 := C1.x) (E12 := C2.x) (E13 := C3.x) (E21 := C1.y) (E22 := C2.y)
    (E23 := C3.y) (E31 := C1.z) (E32 := C2.z) hrow (by linarith) (by linarith) (by linarith) t1 t2 hx1 hz1 hx2 hz2
    hC1x hC1y hf1 hf2 (div_ne_zero hk hff) hl hm ?_ ?_ ?_ ?_ ?_ ?_ ?_ ?_
  · field_simp; linarith [c1.1]
  · field_simp; linarith [c2.1]
  · field_simp; linarith [c1.2.1]
  · field_simp; linarith [c2.2.1]
  · rw [he1]; simp only [Calib, M3.mulVec, V3.dot, V3.smul]; ring
  · rw [he1]; simp only [Calib, M3.mulVec, V3.dot, V3.smul]; ring
  · rw [he2]; simp only [Calib, M3.mulVec, V3.dot, V3.smul]; ring
  · rw [he2]; simp only [Calib, M3.mulVec, V3.dot, V3.smul]; ring

theorem calib_zRotation_transpose' {θ : ℝ} (_ : (zRotation θ).IsRotation) {f : ℝ} {v : V3 ℝ} :
    (zRotation θ).transpose.mulVec ((Calib f).mulVec v) = (Calib f).mulVec ((zRotation θ).transpose.mulVec v) :=
  (calib_zRotation_transpose f θ v).symm

/-- The rotation about the vertical axis that takes the optical axis to `(s, 0, c)`. -/
noncomputable def yRotation (c s : ℝ) : M3 ℝ := ⟨⟨c, 0, s⟩, ⟨0, 1, 0⟩, ⟨-s, 0, c⟩⟩

theorem isRotation_yRotation {c s : ℝ} (h : c * c + s * s = 1) : (yRotation c s).IsRotation := by
  refine ⟨?_, ?_, ?_⟩
  · apply M3.ext <;> apply V3.ext <;> simp only [yRotation, M3.mul, M3.transpose, M3.mulVec, M3.one, V3.dot] <;> linarith
  · apply M3.ext <;> apply V3.ext <;> simp only [yRotation, M3.mul, M3.transpose, M3.mulVec, M3.one, V3.dot] <;> linarith
  · simp only [yRotation, M3.det, V3.dot, V3.cross]; linarith

/-- The rotation built from two coefficients and a sign. -/
noncomputable def planeRotation (a b ε : ℝ) : M3 ℝ := ⟨⟨-(ε * b), ε * a, 0⟩, ⟨-a, -b, 0⟩, ⟨0, 0, ε⟩⟩

theorem isRotation_planeRotation {a b ε : ℝ} (h : a * a + b * b = 1) (he : ε * ε = 1) : (planeRotation a b ε).IsRotation := by
  refine ⟨?_, ?_, ?_⟩
  · apply M3.ext <;> apply V3.ext <;> simp only [planeRotation, M3.mul, M3.transpose, M3.mulVec, M3.one, V3.dot]
    · linear_combination h + b * b * he
    · linear_combination (-(a * b)) * he
    · ring
    · linear_combination (-(a * b)) * he
    · linear_combination h + a * a * he
    · ring
    · ring
    · ring
    · linear_combination he
  · apply M3.ext <;> apply V3.ext <;> simp only [planeRotation, M3.mul, M3.transpose, M3.mulVec, M3.one, V3.dot]
    · linear_combination h * (ε * ε) + he
    · ring
    · ring
    · ring
    · linear_combination h
    · ring
    · ring
    · ring
    · linear_combination he
  · simp only [planeRotation, M3.det, V3.dot, V3.cross]
    linear_combination h * (ε * ε) + he

/-- Matrices with a left and a right null vector in the horizontal plane and satisfying the two conditions of the focal
length formulas are essential. -/
theorem essential_of_conditions {E : M3 ℝ} {s t : V3 ℝ} (hsy : s.y = 0) (hty : t.y = 0) (hs3 : s.z ≠ 0) (ht3 : t.z ≠ 0)
    (hs : E.mulVec s = V3.zero) (ht : E.transpose.mulVec t = V3.zero)
    (k1 : E.r1.x * E.r2.x * (s.x * s.x + s.z * s.z) + E.r1.y * E.r2.y * (s.z * s.z) = 0)
    (k2 : E.r1.x * E.r1.y * (t.x * t.x + t.z * t.z) + E.r2.x * E.r2.y * (t.z * t.z) = 0)
    (h11 : E.r1.x ≠ 0) (h12 : E.r1.y ≠ 0) (h21 : E.r2.x ≠ 0) :
    ∃ (R : M3 ℝ) (k : ℝ), R.IsRotation ∧ k ≠ 0 ∧ ∀ v, E.mulVec v = (t.cross (R.mulVec v)).smul k := by
  simp only [M3.mulVec, M3.transpose, V3.dot, V3.zero, V3.mk.injEq, hsy, hty, mul_zero, add_zero] at hs ht
  obtain ⟨s1, s2, s3⟩ := hs
  obtain ⟨t1, t2, t3⟩ := ht
  have hSp : 0 < s.x * s.x + s.z * s.z := by
    have := mul_self_pos.2 hs3; have := mul_self_nonneg s.x; linarith
  have hTp : 0 < t.x * t.x + t.z * t.z := by
    have := mul_self_pos.2 ht3; have := mul_self_nonneg t.x; linarith
  obtain ⟨S, hS, hSS⟩ : ∃ S : ℝ, 0 < S ∧ S * S = s.x * s.x + s.z * s.z :=
    ⟨_, Real.sqrt_pos.2 hSp, Real.mul_self_sqrt hSp.le⟩
  obtain ⟨T, hT, hTT⟩ : ∃ T : ℝ, 0 < T ∧ T * T = t.x * t.x + t.z * t.z :=
    ⟨_, Real.sqrt_pos.2 hTp, Real.mul_self_sqrt hTp.le⟩
  rw [← hSS] at k1
  rw [← hTT] at k2
  have hS0 := hS.ne'
  have hT0 := hT.ne'
  -- the 2x2 matrix
  obtain ⟨A, hA⟩ : ∃ A, A = E.r1.x * T * S / (t.z * s.z) := ⟨_, rfl⟩
  obtain ⟨B, hB⟩ : ∃ B, B = E.r1.y * T / t.z := ⟨_, rfl⟩
  obtain ⟨C, hC⟩ : ∃ C, C = E.r2.x * S / s.z := ⟨_, rfl⟩
  obtain ⟨D, hD⟩ : ∃ D, D = E.r2.y := ⟨_, rfl⟩
  have eA : E.r1.x = A * t.z * s.z / (T * S) := by rw [hA]; field_simp
  have eB : E.r1.y = B * t.z / T := by rw [hB]; field_simp
  have eC : E.r2.x = C * s.z / S := by rw [hC]; field_simp
  have hA0 : A ≠ 0 := by
    rw [hA]; exact div_ne_zero (mul_ne_zero (mul_ne_zero h11 hT0) hS0) (mul_ne_zero ht3 hs3)
  have hB0 : B ≠ 0 := by rw [hB]; exact div_ne_zero (mul_ne_zero h12 hT0) ht3
  have hC0 : C ≠ 0 := by rw [hC]; exact div_ne_zero (mul_ne_zero h21 hS0) hs3
  have p1 : A * C + B * D = 0 := by
    have e : A * C + B * D = T / (t.z * (s.z * s.z)) * (E.r1.x * E.r2.x * (S * S) + E.r1.y * E.r2.y * (s.z * s.z)) := by
      rw [hA, hB, hC, hD]; field_simp
    rw [e, k1, mul_zero]
  have p2 : A * B + C * D = 0 := by
    have e : A * B + C * D = S / (s.z * (t.z * t.z)) * (E.r1.x * E.r1.y * (T * T) + E.r2.x * E.r2.y * (t.z * t.z)) := by
      rw [hA, hB, hC, hD]; field_simp
    rw [e, k2, mul_zero]
  have hD0 : D ≠ 0 := by
    intro h; rw [h, mul_zero, add_zero] at p1; exact mul_ne_zero hA0 hC0 p1
  obtain ⟨ε, hε, hCe, hDe⟩ : ∃ ε : ℝ, ε * ε = 1 ∧ C = -(ε * B) ∧ D = ε * A := by
    have hsq : B * B = C * C := by
      have : A * (B * B - C * C) = 0 := by linear_combination B * p2 - C * p1
      have := (mul_eq_zero.1 this).resolve_left hA0
      linarith
    refine ⟨-(C / B), ?_, ?_, ?_⟩
    · field_simp; linarith [sq B, sq C]
    · field_simp
    · field_simp; linarith
  have hKp : 0 < A * A + B * B := by
    have := mul_self_pos.2 hA0; have := mul_self_nonneg B; linarith
  obtain ⟨κ, hκ, hκκ⟩ : ∃ κ : ℝ, 0 < κ ∧ κ * κ = A * A + B * B := ⟨_, Real.sqrt_pos.2 hKp, Real.mul_self_sqrt hKp.le⟩
  have hκ0 := hκ.ne'
  have r1 : (yRotation (t.z / T) (t.x / T)).IsRotation := isRotation_yRotation (by field_simp; linarith [sq T, sq t.x, sq t.z])
  have r2 : (yRotation (s.z / S) (s.x / S)).IsRotation := isRotation_yRotation (by field_simp; linarith [sq S, sq s.x, sq s.z])
  have r3 : (planeRotation (A / κ) (B / κ) ε).IsRotation :=
    isRotation_planeRotation (by field_simp; linarith [sq κ, sq A, sq B]) hε
  refine ⟨((yRotation (t.z / T) (t.x / T)).mul (planeRotation (A / κ) (B / κ) ε)).mul (yRotation (s.z / S) (s.x / S)).transpose,
    κ / T, (r1.mul r3).mul r2.transpose, div_ne_zero hκ0 hT0, fun v => ?_⟩
  obtain ⟨w, rfl⟩ : ∃ w, v = (yRotation (s.z / S) (s.x / S)).mulVec w :=
    ⟨(yRotation (s.z / S) (s.x / S)).transpose.mulVec v, (r2.mulVec_transpose v).symm⟩
  have ht' : t = ((yRotation (t.z / T) (t.x / T)).mulVec axis).smul T := by
    apply V3.ext <;> simp only [yRotation, M3.mulVec, V3.dot, V3.smul, axis, hty] <;> field_simp <;> ring
  have hcr : t.cross ((((yRotation (t.z / T) (t.x / T)).mul (planeRotation (A / κ) (B / κ) ε)).mul
      (yRotation (s.z / S) (s.x / S)).transpose).mulVec ((yRotation (s.z / S) (s.x / S)).mulVec w)) =
      ((yRotation (t.z / T) (t.x / T)).mulVec (axis.cross ((planeRotation (A / κ) (B / κ) ε).mulVec w))).smul T := by
    rw [M3.mulVec_mul, M3.mulVec_mul, r2.transpose_mulVec, AngleAxis.mulVec_cross r1]
    generalize (yRotation (t.z / T) (t.x / T)).mulVec ((planeRotation (A / κ) (B / κ) ε).mulVec w) = q
    generalize (yRotation (t.z / T) (t.x / T)).mulVec axis = u at ht'
    rw [ht']
    apply V3.ext <;> simp only [V3.cross, V3.smul] <;> ring
  rw [hcr]
  -- the third column and row
  have e13 : E.r1.z = -(E.r1.x * s.x / s.z) := by field_simp; linarith
  have e23 : E.r2.z = -(E.r2.x * s.x / s.z) := by field_simp; linarith
  have e31 : E.r3.x = -(E.r1.x * t.x / t.z) := by field_simp; linarith
  have e32 : E.r3.y = -(E.r1.y * t.x / t.z) := by field_simp; linarith
  have e33 : E.r3.z = -(E.r1.z * t.x / t.z) := by field_simp; linarith
  have cx : axis.cross ((planeRotation (A / κ) (B / κ) ε).mulVec w) =
      ⟨(A * w.x + B * w.y) / κ, (C * w.x + D * w.y) / κ, 0⟩ := by
    rw [hCe, hDe]
    apply V3.ext <;> simp only [V3.cross, axis, planeRotation, M3.mulVec, V3.dot] <;> field_simp <;> ring
  rw [cx]
  apply V3.ext <;> simp only [M3.mulVec, yRotation, V3.dot, V3.smul, e33, e13, e23, e31, e32, eA, eB, eC, ← hD]
  · field_simp
    linear_combination (-(A * w.x * t.z)) * hSS
  · field_simp
    linear_combination (-(C * w.x)) * hSS
  · field_simp
    linear_combination (A * w.x * t.x) * hSS

/-- Positive focal lengths from a matrix in rotated coordinates make it essential. -/
theorem focal_sound {F : M3 ℝ} {f1 f2 x1 z1 x2 z2 : ℝ} (hf1 : 0 < f1) (hf2 : 0 < f2) (hx1 : x1 ≠ 0) (hx2 : x2 ≠ 0)
    (m1 : F.mulVec ⟨x1, 0, z1⟩ = V3.zero) (m2 : F.transpose.mulVec ⟨x2, 0, z2⟩ = V3.zero)
    (h : focalFromRotated F ⟨x1, 0, z1⟩ ⟨x2, 0, z2⟩ = .ok (some (f1, f2))) :
    ∃ (R : M3 ℝ) (t : V3 ℝ) (k : ℝ), R.IsRotation ∧ t ≠ V3.zero ∧ k ≠ 0 ∧ FundamentalOf F k f1 f2 R t := by
  unfold focalFromRotated at h
  simp only [hx1, hx2, false_or] at h
  by_cases hz : z1 = 0 ∨ z2 = 0
  · rw [if_pos hz] at h; simp at h
  rw [if_neg hz] at h
  rw [not_or] at hz
  obtain ⟨hz1, hz2⟩ := hz
  by_cases hd : 1 / z2 * F.r1.x * (1 / z1) * (F.r2.x * (1 / z1)) * z1 * z1 + 1 / z2 * F.r1.y * F.r2.y = 0 ∨
      1 / z2 * F.r1.x * (1 / z1) * (1 / z2 * F.r1.y) * z2 * z2 + F.r2.x * (1 / z1) * F.r2.y = 0
  · rw [if_pos hd] at h; simp at h
  rw [if_neg hd] at h
  rw [not_or] at hd
  obtain ⟨hd1, hd2⟩ := hd
  split at h
  · simp at h
  rename_i hneg
  rw [not_or, not_lt, not_lt] at hneg
  obtain ⟨g1, g2⟩ := hneg
  simp only [Outcome.ok.injEq, Option.some.injEq, Prod.mk.injEq] at h
  obtain ⟨h1, h2⟩ := h
  have q1 : f1 * f1 = -(1 / z2 * F.r1.x * (1 / z1)) * (F.r2.x * (1 / z1)) * x1 * x1 /
      (1 / z2 * F.r1.x * (1 / z1) * (F.r2.x * (1 / z1)) * z1 * z1 + 1 / z2 * F.r1.y * F.r2.y) := by
    rw [← h1, Real.mul_self_sqrt g1]
  have q2 : f2 * f2 = -(1 / z2 * F.r1.x * (1 / z1)) * (1 / z2 * F.r1.y) * x2 * x2 /
      (1 / z2 * F.r1.x * (1 / z1) * (1 / z2 * F.r1.y) * z2 * z2 + F.r2.x * (1 / z1) * F.r2.y) := by
    rw [← h2, Real.mul_self_sqrt g2]
  have hf10 := hf1.ne'
  have hf20 := hf2.ne'
  have h11 : F.r1.x ≠ 0 := by
    intro h0
    rw [h0] at q1
    simp at q1
    exact hf10 q1
  have h21 : F.r2.x ≠ 0 := by
    intro h0
    rw [h0] at q1
    simp at q1
    exact hf10 q1
  have h12 : F.r1.y ≠ 0 := by
    intro h0
    rw [h0] at q2
    simp at q2
    exact hf20 q2
  rw [eq_div_iff hd1] at q1
  rw [eq_div_iff hd2] at q2
  simp only [M3.mulVec, M3.transpose, V3.dot, V3.zero, V3.mk.injEq, mul_zero, add_zero] at m1 m2
  obtain ⟨a1, a2, a3⟩ := m1
  obtain ⟨b1, b2, b3⟩ := m2
  have hmain := essential_of_conditions (E := ⟨⟨f1 * f2 * F.r1.x, f1 * f2 * F.r1.y, f2 * F.r1.z⟩,
      ⟨f1 * f2 * F.r2.x, f1 * f2 * F.r2.y, f2 * F.r2.z⟩, ⟨f1 * F.r3.x, f1 * F.r3.y, F.r3.z⟩⟩)
    (s := ⟨x1 / f1, 0, z1⟩) (t := ⟨x2 / f2, 0, z2⟩) rfl rfl hz1 hz2 ?_ ?_ ?_ ?_ ?_ ?_ ?_
  · obtain ⟨R, k, hR, hk, hE⟩ := hmain
    refine ⟨R, ⟨x2 / f2, 0, z2⟩, k, hR, fun h0 => hz2 (congrArg V3.z h0), hk, fun v => ?_⟩
    rw [← hE]
    apply V3.ext <;> simp only [Calib, M3.mulVec, V3.dot] <;> ring
  · apply V3.ext <;> simp only [M3.mulVec, V3.dot, V3.zero, mul_zero, add_zero] <;> field_simp
    · linear_combination f2 * a1
    · linear_combination f2 * a2
    · linear_combination a3
  · apply V3.ext <;> simp only [M3.mulVec, M3.transpose, V3.dot, V3.zero, mul_zero, add_zero] <;> field_simp
    · linear_combination f1 * b1
    · linear_combination f1 * b2
    · linear_combination b3
  · simp only
    field_simp at q1 ⊢
    linear_combination f2 ^ 2 * q1
  · simp only
    field_simp at q2 ⊢
    linear_combination f1 ^ 2 * q2
  · exact mul_ne_zero (mul_ne_zero hf10 hf20) h11
  · exact mul_ne_zero (mul_ne_zero hf10 hf20) h12
  · exact mul_ne_zero (mul_ne_zero hf10 hf20) h21

/-- A choice of null vectors. -/
theorem exists_nullVector : ∃ nullVector : M3 ℝ → V3 ℝ, ∀ G, (∃ e, e ≠ V3.zero ∧ G.mulVec e = V3.zero) → UnitNull G (nullVector G) := by
  classical
  refine ⟨fun G => if h : ∃ e, UnitNull G e then h.choose else V3.zero, fun G ⟨e, he, hG⟩ => ?_⟩
  have h : ∃ e, UnitNull G e := by
    have hp := V3.self_pos he
    have hs : Real.sqrt (e.dot e) * Real.sqrt (e.dot e) = e.dot e := Real.mul_self_sqrt hp.le
    have hne : Real.sqrt (e.dot e) ≠ 0 := (Real.sqrt_pos.2 hp).ne'
    refine ⟨e.smul (1 / Real.sqrt (e.dot e)), ?_, ?_⟩
    · have : (e.smul (1 / Real.sqrt (e.dot e))).dot (e.smul (1 / Real.sqrt (e.dot e))) =
          e.dot e / (Real.sqrt (e.dot e) * Real.sqrt (e.dot e)) := by
        simp only [V3.dot, V3.smul]; field_simp
      rw [this, hs, div_self hp.ne']
    · rw [M3.mulVec_smul, hG]; apply V3.ext <;> simp [V3.smul, V3.zero]
  simp only [dif_pos h]
  exact h.choose_spec

/-- Both sides of a fundamental matrix have a null vector. -/
theorem fundamentalOf_null {F R : M3 ℝ} {k f1 f2 : ℝ} {t : V3 ℝ} (hR : R.IsRotation) (ht : t ≠ V3.zero) (hf1 : f1 ≠ 0)
    (hf2 : f2 ≠ 0) (hF : FundamentalOf F k f1 f2 R t) :
    (∃ e, e ≠ V3.zero ∧ F.mulVec e = V3.zero) ∧ ∃ e, e ≠ V3.zero ∧ F.transpose.mulVec e = V3.zero := by
  constructor
  · refine ⟨(Calib f1).mulVec (R.transpose.mulVec t), fun h => ht ?_, ?_⟩
    · have := calib_injective hf1 (h.trans (calib_zero f1).symm)
      exact EssentialMatrix.mulVec_eq_zero hR.transpose this
    · apply calib_injective hf2
      rw [hF, hR.mulVec_transpose, calib_zero]
      apply V3.ext <;> simp only [V3.cross, V3.smul, V3.zero] <;> ring
  · refine ⟨(Calib f2).mulVec t, fun h => ht (calib_injective hf2 (h.trans (calib_zero f2).symm)), ?_⟩
    apply V3.self_eq_zero
    obtain ⟨v, hv⟩ := calib_surjective hf1 (F.transpose.mulVec ((Calib f2).mulVec t))
    rw [← dot_transpose, ← hv]
    have : ((Calib f2).mulVec t).dot (F.mulVec ((Calib f1).mulVec v)) = t.dot ((Calib f2).mulVec (F.mulVec ((Calib f1).mulVec v))) := by
      rw [dot_transpose (Calib f2), calib_transpose]
    rw [this, hF]
    simp only [V3.dot, V3.cross, V3.smul]; ring

end FundamentalMatrix
end Theia
