import Mathlib.LinearAlgebra.Matrix.ToLinearEquiv
import Mathlib.LinearAlgebra.Matrix.Determinant.Basic
import Mathlib.Analysis.SpecialFunctions.Complex.Arg
import Mathlib.Analysis.SpecialFunctions.Trigonometric.Inverse
import Verif.Base.AngleAxis

/-!
# Angle-axis vectors and rotation matrices

`ceres::AngleAxisToRotationMatrix` and `ceres::RotationMatrixToAngleAxis`, over the reals and without rounding or the
approximation Ceres uses for angles below about 1e-8. The first is given by Rodrigues' formula; the second may be any
function with the property `IsLog`: it returns a vector for the same rotation with an angle of at most half a turn.
The angle of a rotation is read off its trace.
-/

namespace Theia
namespace AngleAxis

open V3

/-- The matrix of Rodrigues' formula. -/
noncomputable def rodriguesMatrix (u : V3 ℝ) (c s : ℝ) : M3 ℝ :=
  ⟨⟨c + u.x * u.x * (1 - c), u.x * u.y * (1 - c) - u.z * s, u.x * u.z * (1 - c) + u.y * s⟩,
   ⟨u.y * u.x * (1 - c) + u.z * s, c + u.y * u.y * (1 - c), u.y * u.z * (1 - c) - u.x * s⟩,
   ⟨u.z * u.x * (1 - c) - u.y * s, u.z * u.y * (1 - c) + u.x * s, c + u.z * u.z * (1 - c)⟩⟩

/-- `ceres::AngleAxisToRotationMatrix`. -/
noncomputable def toM (w : V3 ℝ) : M3 ℝ :=
  let theta := Real.sqrt (w.dot w)
  rodriguesMatrix (w.smul theta⁻¹) (Real.cos theta) (Real.sin theta)

/-- The sum of the diagonal. -/
def trace (m : M3 ℝ) : ℝ := m.r1.x + m.r2.y + m.r3.z

/-- The angle of a rotation, between 0 and π. -/
noncomputable def angle (m : M3 ℝ) : ℝ := Real.arccos ((trace m - 1) / 2)

/-- What `ceres::RotationMatrixToAngleAxis` does. -/
def IsLog (ofM : M3 ℝ → V3 ℝ) : Prop :=
  ∀ m, m.IsRotation → toM (ofM m) = m ∧ (ofM m).dot (ofM m) ≤ Real.pi * Real.pi

theorem rodriguesMatrix_mulVec (u : V3 ℝ) (c s : ℝ) (p : V3 ℝ) :
    (rodriguesMatrix u c s).mulVec p = rodrigues u c s p := by
  apply V3.ext <;> simp only [rodriguesMatrix, rodrigues, M3.mulVec, V3.dot, V3.add, V3.smul, V3.cross] <;> ring

theorem rodriguesMatrix_transpose (u : V3 ℝ) (c s : ℝ) :
    (rodriguesMatrix u c s).transpose = rodriguesMatrix u c (-s) := by
  apply M3.ext <;> apply V3.ext <;> simp only [rodriguesMatrix, M3.transpose] <;> ring

/-- A matrix is determined by what it does to vectors. -/
theorem M3_ext_mulVec {K : Type} [Field K] {a b : M3 K} (h : ∀ p, a.mulVec p = b.mulVec p) : a = b := by
  have h1 := h ⟨1, 0, 0⟩
  have h2 := h ⟨0, 1, 0⟩
  have h3 := h ⟨0, 0, 1⟩
  simp only [M3.mulVec, V3.dot, mul_one, mul_zero, add_zero, zero_add, V3.mk.injEq] at h1 h2 h3
  apply M3.ext <;> apply V3.ext
  · exact h1.1
  · exact h2.1
  · exact h3.1
  · exact h1.2.1
  · exact h2.2.1
  · exact h3.2.1
  · exact h1.2.2
  · exact h2.2.2
  · exact h3.2.2

theorem isRotation_rodrigues {u : V3 ℝ} (hu : u.dot u = 1) {c s : ℝ} (hcs : c * c + s * s = 1) :
    (rodriguesMatrix u c s).IsRotation := by
  refine ⟨?_, ?_, ?_⟩
  · apply M3_ext_mulVec
    intro p
    rw [M3.mulVec_mul, M3.one_mulVec, rodriguesMatrix_transpose, rodriguesMatrix_mulVec, rodriguesMatrix_mulVec]
    exact rodrigues_inverse hu hcs p
  · apply M3_ext_mulVec
    intro p
    rw [M3.mulVec_mul, M3.one_mulVec, rodriguesMatrix_transpose, rodriguesMatrix_mulVec, rodriguesMatrix_mulVec]
    have := rodrigues_inverse hu (c := c) (s := -s) (by linarith [hcs, neg_mul_neg s s]) p
    rwa [neg_neg] at this
  · have hx : u.x * u.x = 1 - u.y * u.y - u.z * u.z := by simp only [V3.dot] at hu; linarith
    have key : (rodriguesMatrix u c s).det =
        c * c * c + c * c * (1 - c) * u.dot u + s * s * c * u.dot u + s * s * (1 - c) * (u.dot u * u.dot u) := by
      simp only [rodriguesMatrix, M3.det, V3.dot, V3.cross]
      ring
    rw [key, hu]
    linear_combination hcs

theorem toM_zero : toM V3.zero = M3.one := by
  unfold toM
  have : (V3.zero : V3 ℝ).dot V3.zero = 0 := by simp [V3.dot, V3.zero]
  rw [this, Real.sqrt_zero]
  simp only [Real.cos_zero, Real.sin_zero, inv_zero]
  apply M3.ext <;> apply V3.ext <;> simp [rodriguesMatrix, V3.smul, V3.zero, M3.one]

theorem eq_zero_of_dot {w : V3 ℝ} (h : w.dot w = 0) : w = V3.zero := by
  simp only [V3.dot] at h
  apply V3.ext <;> simp only [V3.zero] <;>
    nlinarith [mul_self_nonneg w.x, mul_self_nonneg w.y, mul_self_nonneg w.z]

theorem isRotation_toM (w : V3 ℝ) : (toM w).IsRotation := by
  rcases lt_or_eq_of_le (dot_self_nonneg w) with h | h
  · exact isRotation_rodrigues (unit_axis h) (by nlinarith [Real.sin_sq_add_cos_sq (Real.sqrt (w.dot w))])
  · rw [eq_zero_of_dot h.symm, toM_zero]
    exact M3.IsRotation.one

theorem toM_neg (w : V3 ℝ) : toM w.neg = (toM w).transpose := by
  have hn : w.neg.dot w.neg = w.dot w := by simp only [V3.dot, V3.neg]; ring
  unfold toM
  rw [hn, rodriguesMatrix_transpose]
  apply M3.ext <;> apply V3.ext <;> simp only [rodriguesMatrix, V3.smul, V3.neg] <;> ring

/-- Rotating a point is multiplying with the matrix, above the threshold. -/
theorem rotate_eq_toM {eps : ℝ} {w : V3 ℝ} (h : eps < w.dot w) (p : V3 ℝ) : rotate eps w p = (toM w).mulVec p := by
  unfold rotate toM
  rw [if_pos h, rodriguesMatrix_mulVec]

theorem trace_toM (w : V3 ℝ) : trace (toM w) = 1 + 2 * Real.cos (Real.sqrt (w.dot w)) := by
  rcases lt_or_eq_of_le (dot_self_nonneg w) with h | h
  · have hu := unit_axis h
    unfold toM
    simp only [V3.dot] at hu
    simp only [trace, rodriguesMatrix, V3.dot]
    linear_combination (1 - Real.cos (Real.sqrt (w.x * w.x + w.y * w.y + w.z * w.z))) * hu
  · have h0 := eq_zero_of_dot h.symm
    rw [← h, h0, toM_zero, Real.sqrt_zero, Real.cos_zero]
    simp [trace, M3.one]
    norm_num

/-- The angle of the rotation of a vector of length at most π is that length. -/
theorem angle_toM {w : V3 ℝ} (h : w.dot w ≤ Real.pi * Real.pi) : angle (toM w) = Real.sqrt (w.dot w) := by
  unfold angle
  rw [trace_toM]
  have : (1 + 2 * Real.cos (Real.sqrt (w.dot w)) - 1) / 2 = Real.cos (Real.sqrt (w.dot w)) := by ring
  rw [this, Real.arccos_cos (Real.sqrt_nonneg _)]
  rw [Real.sqrt_le_left Real.pi_pos.le]
  rw [sq]
  exact h

theorem IsLog.angle {ofM : M3 ℝ → V3 ℝ} (h : IsLog ofM) {m : M3 ℝ} (hm : m.IsRotation) :
    Real.sqrt ((ofM m).dot (ofM m)) = angle m := by
  obtain ⟨h1, h2⟩ := h m hm
  rw [← angle_toM h2, h1]

theorem IsLog.sq {ofM : M3 ℝ → V3 ℝ} (h : IsLog ofM) {m : M3 ℝ} (hm : m.IsRotation) :
    (ofM m).dot (ofM m) = AngleAxis.angle m * AngleAxis.angle m := by
  rw [← h.angle hm, Real.mul_self_sqrt (dot_self_nonneg _)]

/-! ### Every rotation has an angle-axis vector -/

theorem mulVec_cross {m : M3 ℝ} (h : m.IsRotation) (a b : V3 ℝ) :
    m.mulVec (a.cross b) = (m.mulVec a).cross (m.mulVec b) := by
  -- the cofactor matrix of a rotation is the rotation
  have cof : (m.mulVec a).cross (m.mulVec b) =
      (M3.mk (m.r2.cross m.r3) (m.r3.cross m.r1) (m.r1.cross m.r2)).mulVec (a.cross b) := by
    apply V3.ext <;> simp only [M3.mulVec, V3.dot, V3.cross] <;> ring
  have e : M3.mk (m.r2.cross m.r3) (m.r3.cross m.r1) (m.r1.cross m.r2) = m := by
    -- cof · mᵀ = det • 1, so cof = cof · (mᵀ · m) = det • m
    have h1 : (M3.mk (m.r2.cross m.r3) (m.r3.cross m.r1) (m.r1.cross m.r2)).mul m.transpose =
        ⟨⟨m.det, 0, 0⟩, ⟨0, m.det, 0⟩, ⟨0, 0, m.det⟩⟩ := by
      apply M3.ext <;> apply V3.ext <;>
        simp only [M3.mul, M3.transpose, M3.mulVec, V3.dot, V3.cross, M3.det] <;> ring
    rw [h.det] at h1
    have h2 := congrArg (fun x => x.mul m) h1
    rw [M3.mul_assoc, h.left, M3.mul_one] at h2
    rw [h2]
    exact M3.one_mul m
  rw [cof, e]

/-- A rotation has a fixed direction. -/
theorem exists_axis {m : M3 ℝ} (h : m.IsRotation) : ∃ u : V3 ℝ, u.dot u = 1 ∧ m.mulVec u = u := by
  -- the determinant of m - 1
  have hdet : (M3.mk (m.r1.sub ⟨1, 0, 0⟩) (m.r2.sub ⟨0, 1, 0⟩) (m.r3.sub ⟨0, 0, 1⟩)).det = 0 := by
    have h1 : (M3.mk (m.r1.sub ⟨1, 0, 0⟩) (m.r2.sub ⟨0, 1, 0⟩) (m.r3.sub ⟨0, 0, 1⟩)).mul m.transpose =
        M3.mk ((V3.mk 1 0 0).sub m.transpose.r1) ((V3.mk 0 1 0).sub m.transpose.r2)
          ((V3.mk 0 0 1).sub m.transpose.r3) := by
      have : (M3.mk (m.r1.sub ⟨1, 0, 0⟩) (m.r2.sub ⟨0, 1, 0⟩) (m.r3.sub ⟨0, 0, 1⟩)).mul m.transpose =
          M3.mk ((m.mul m.transpose).r1.sub m.transpose.r1) ((m.mul m.transpose).r2.sub m.transpose.r2)
            ((m.mul m.transpose).r3.sub m.transpose.r3) := by
        apply M3.ext <;> apply V3.ext <;> simp only [M3.mul, M3.transpose, M3.mulVec, V3.dot, V3.sub] <;> ring
      rw [this, h.right]
      rfl
    have h2 := congrArg M3.det h1
    rw [M3.det_mul, M3.det_transpose, h.det, mul_one] at h2
    have h3 : (M3.mk ((V3.mk 1 0 0).sub m.transpose.r1) ((V3.mk 0 1 0).sub m.transpose.r2)
          ((V3.mk 0 0 1).sub m.transpose.r3)).det =
        -(M3.mk (m.r1.sub ⟨1, 0, 0⟩) (m.r2.sub ⟨0, 1, 0⟩) (m.r3.sub ⟨0, 0, 1⟩)).det := by
      simp only [M3.det, M3.transpose, V3.sub, V3.dot, V3.cross]
      ring
    rw [h3] at h2
    linarith
  obtain ⟨v, hv0, hv⟩ := (Matrix.exists_mulVec_eq_zero_iff (M := !![m.r1.x - 1, m.r1.y, m.r1.z;
    m.r2.x, m.r2.y - 1, m.r2.z; m.r3.x, m.r3.y, m.r3.z - 1])).2 (by
      rw [Matrix.det_fin_three]
      simp only [M3.det, V3.sub, V3.dot, V3.cross] at hdet
      simp only [Matrix.of_apply, Matrix.cons_val', Matrix.cons_val_zero, Matrix.cons_val_one, Matrix.cons_val,
        Matrix.cons_val_fin_one]
      linarith)
  have h0 := congrFun hv 0
  have h1 := congrFun hv 1
  have h2 := congrFun hv 2
  simp only [Matrix.mulVec, dotProduct, Fin.sum_univ_three, Matrix.of_apply, Matrix.cons_val', Matrix.cons_val_zero,
    Matrix.cons_val_one, Matrix.cons_val, Matrix.cons_val_fin_one, Pi.zero_apply] at h0 h1 h2
  have hpos : 0 < (V3.mk (v 0) (v 1) (v 2)).dot ⟨v 0, v 1, v 2⟩ := by
    rcases lt_or_eq_of_le (dot_self_nonneg (V3.mk (v 0) (v 1) (v 2))) with h | h
    · exact h
    · exfalso
      apply hv0
      have := eq_zero_of_dot h.symm
      simp only [V3.zero, V3.mk.injEq] at this
      funext i
      fin_cases i
      · exact this.1
      · exact this.2.1
      · exact this.2.2
  refine ⟨_, unit_axis hpos, ?_⟩
  rw [M3.mulVec_smul]
  congr 1
  apply V3.ext <;> simp only [M3.mulVec, V3.dot] <;> linarith

/-- A unit vector orthogonal to a given vector. -/
theorem exists_orthogonal (u : V3 ℝ) : ∃ e : V3 ℝ, e.dot e = 1 ∧ u.dot e = 0 := by
  -- one of these is not zero
  have key : ∃ e : V3 ℝ, 0 < e.dot e ∧ u.dot e = 0 := by
    by_cases hxy : u.x = 0 ∧ u.y = 0
    · refine ⟨⟨1, 0, 0⟩, by simp [V3.dot], by simp [V3.dot, hxy.1]⟩
    · refine ⟨⟨-u.y, u.x, 0⟩, ?_, by simp only [V3.dot]; ring⟩
      simp only [V3.dot]
      rcases not_and_or.1 hxy with h | h
      · nlinarith [mul_self_pos.2 h, mul_self_nonneg u.y]
      · nlinarith [mul_self_pos.2 h, mul_self_nonneg u.x]
  obtain ⟨e, h1, h2⟩ := key
  refine ⟨_, unit_axis h1, ?_⟩
  have : u.dot (e.smul (Real.sqrt (e.dot e))⁻¹) = (Real.sqrt (e.dot e))⁻¹ * u.dot e := by
    simp only [V3.dot, V3.smul]; ring
  rw [this, h2, mul_zero]

/-- A rotation is Rodrigues' formula about its axis. -/
theorem exists_rodrigues {m : M3 ℝ} (h : m.IsRotation) :
    ∃ (u : V3 ℝ) (c s : ℝ), u.dot u = 1 ∧ c * c + s * s = 1 ∧ m = rodriguesMatrix u c s := by
  obtain ⟨u, hu, hfix⟩ := exists_axis h
  obtain ⟨e, he, hue⟩ := exists_orthogonal u
  -- every vector in the frame u, e, u × e
  have frame : ∀ p : V3 ℝ, p = ((u.smul (u.dot p)).add (e.smul (e.dot p))).add ((u.cross e).smul ((u.cross e).dot p)) := by
    -- the matrix with these rows has orthonormal rows, hence orthonormal columns
    have hrows : (M3.mk u e (u.cross e)).mul (M3.mk u e (u.cross e)).transpose = M3.one := by
      simp only [V3.dot] at hu he hue
      apply M3.ext <;> apply V3.ext <;>
        simp only [M3.mul, M3.transpose, M3.mulVec, V3.dot, V3.cross, M3.one]
      · exact hu
      · linarith
      · ring
      · linarith
      · exact he
      · ring
      · ring
      · ring
      · linear_combination (e.x * e.x + e.y * e.y + e.z * e.z) * hu + he -
          (u.x * e.x + u.y * e.y + u.z * e.z) * hue
    have hdet : (M3.mk u e (u.cross e)).det = 1 := by
      have h9 := congrArg (fun m => m.r3.z) hrows
      simp only [M3.mul, M3.transpose, M3.mulVec, V3.dot, V3.cross, M3.one] at h9
      simp only [M3.det, V3.dot, V3.cross]
      linear_combination h9
    -- left inverse from right inverse, by the cofactor formula
    have hcols : (M3.mk u e (u.cross e)).transpose.mul (M3.mk u e (u.cross e)) = M3.one := by
      generalize M3.mk u e (u.cross e) = f at hrows hdet
      have adj : ∀ f : M3 ℝ, (M3.mk (f.r2.cross f.r3) (f.r3.cross f.r1) (f.r1.cross f.r2)).transpose.mul f =
          ⟨⟨f.det, 0, 0⟩, ⟨0, f.det, 0⟩, ⟨0, 0, f.det⟩⟩ := by
        intro f
        apply M3.ext <;> apply V3.ext <;>
          simp only [M3.mul, M3.transpose, M3.mulVec, V3.dot, V3.cross, M3.det] <;> ring
      have h1 := adj f
      rw [hdet] at h1
      -- fᵀ = adj · f · fᵀ = adj
      have h2 := congrArg (fun x => x.mul f.transpose) h1
      rw [M3.mul_assoc, hrows, M3.mul_one] at h2
      have h3 : (M3.mk (f.r2.cross f.r3) (f.r3.cross f.r1) (f.r1.cross f.r2)).transpose = f.transpose := by
        rw [h2]; exact M3.one_mul _
      rw [h3] at h1
      exact h1
    intro p
    have h1 := congrArg (fun x => x.mulVec p) hcols
    rw [M3.mulVec_mul, M3.one_mulVec] at h1
    conv_lhs => rw [← h1]
    apply V3.ext <;> simp only [M3.mulVec, M3.transpose, V3.add, V3.smul, V3.dot, V3.cross] <;> ring
  -- the image of e
  have hme : (m.mulVec e).dot (m.mulVec e) = 1 := by rw [h.dot, he]
  have hue' : u.dot (m.mulVec e) = 0 := by
    have := h.dot u e
    rw [hfix, hue] at this
    exact this
  have hexp := frame (m.mulVec e)
  rw [hue'] at hexp
  set c := e.dot (m.mulVec e) with hc
  set s := (u.cross e).dot (m.mulVec e) with hs
  have hme2 : m.mulVec e = (e.smul c).add ((u.cross e).smul s) := by
    rw [hexp]
    apply V3.ext <;> simp only [V3.add, V3.smul] <;> ring
  have hcc : (u.cross e).dot (u.cross e) = 1 := by
    simp only [V3.dot] at hu he hue
    simp only [V3.dot, V3.cross]
    linear_combination (e.x * e.x + e.y * e.y + e.z * e.z) * hu + he - (u.x * e.x + u.y * e.y + u.z * e.z) * hue
  have hcs : c * c + s * s = 1 := by
    rw [hme2] at hme
    have : ((e.smul c).add ((u.cross e).smul s)).dot ((e.smul c).add ((u.cross e).smul s)) =
        c * c * e.dot e + s * s * (u.cross e).dot (u.cross e) := by
      simp only [V3.dot, V3.add, V3.smul, V3.cross]; ring
    rw [this, he, hcc] at hme
    linarith
  refine ⟨u, c, s, hu, hcs, ?_⟩
  have hmf : m.mulVec (u.cross e) = ((u.cross e).smul c).add (e.smul (-s)) := by
    rw [mulVec_cross h, hfix, hme2]
    simp only [V3.dot] at hu hue
    apply V3.ext <;> simp only [V3.cross, V3.add, V3.smul]
    · linear_combination s * u.x * hue - s * e.x * hu
    · linear_combination s * u.y * hue - s * e.y * hu
    · linear_combination s * u.z * hue - s * e.z * hu
  apply M3_ext_mulVec
  intro p
  rw [rodriguesMatrix_mulVec]
  have hp := frame p
  have lin : m.mulVec p = ((u.smul (u.dot p)).add (((e.smul c).add ((u.cross e).smul s)).smul (e.dot p))).add
      ((((u.cross e).smul c).add (e.smul (-s))).smul ((u.cross e).dot p)) := by
    conv_lhs => rw [hp]
    rw [M3.mulVec_add, M3.mulVec_add, M3.mulVec_smul, M3.mulVec_smul, M3.mulVec_smul, hfix, hme2, hmf]
  rw [lin]
  unfold rodrigues
  -- u × p in the frame
  have hcross : u.cross p = ((u.cross e).smul (e.dot p)).add (e.smul (-((u.cross e).dot p))) := by
    conv_lhs => rw [hp]
    simp only [V3.dot] at hu hue
    have hux : ∀ a b d : ℝ, u.cross (((u.smul a).add (e.smul b)).add ((u.cross e).smul d)) =
        ((u.cross e).smul b).add (e.smul (-d)) := by
      intro a b d
      apply V3.ext <;> simp only [V3.cross, V3.add, V3.smul]
      · linear_combination d * u.x * hue - d * e.x * hu
      · linear_combination d * u.y * hue - d * e.y * hu
      · linear_combination d * u.z * hue - d * e.z * hu
    exact hux _ _ _
  rw [hcross]
  have hx : p.smul c = ((u.smul (u.dot p)).smul c).add (((e.smul (e.dot p)).smul c).add
      (((u.cross e).smul ((u.cross e).dot p)).smul c)) := by
    conv_lhs => rw [hp]
    apply V3.ext <;> simp only [V3.add, V3.smul] <;> ring
  rw [hx]
  generalize (u.cross e).dot p = d
  generalize u.cross e = f
  apply V3.ext <;> simp only [V3.add, V3.smul] <;> ring

/-- Every rotation has an angle-axis vector with an angle of at most half a turn. -/
theorem exists_log {m : M3 ℝ} (h : m.IsRotation) : ∃ w : V3 ℝ, toM w = m ∧ w.dot w ≤ Real.pi * Real.pi := by
  obtain ⟨u, c, s, hu, hcs, rfl⟩ := exists_rodrigues h
  -- an angle in (-π, π]
  have hnorm : ‖(⟨c, s⟩ : ℂ)‖ = 1 := by
    rw [Complex.norm_def, Complex.normSq_mk, hcs, Real.sqrt_one]
  have hne : (⟨c, s⟩ : ℂ) ≠ 0 := by
    intro h0
    rw [h0, norm_zero] at hnorm
    exact zero_ne_one hnorm
  set t := Complex.arg ⟨c, s⟩ with ht
  have hcos : Real.cos t = c := by rw [Complex.cos_arg hne, hnorm]; simp
  have hsin : Real.sin t = s := by rw [Complex.sin_arg, hnorm]; simp
  have hle : |t| ≤ Real.pi := Complex.abs_arg_le_pi _
  have hdot : (u.smul t).dot (u.smul t) = t * t := by
    have : (u.smul t).dot (u.smul t) = t * t * u.dot u := by simp only [V3.dot, V3.smul]; ring
    rw [this, hu, mul_one]
  refine ⟨u.smul t, ?_, ?_⟩
  · by_cases h0 : t = 0
    · have hc1 : c = 1 := by rw [← hcos, h0, Real.cos_zero]
      have hs0 : s = 0 := by rw [← hsin, h0, Real.sin_zero]
      have : u.smul t = V3.zero := by rw [h0]; apply V3.ext <;> simp [V3.smul, V3.zero]
      rw [this, toM_zero, hc1, hs0]
      apply M3.ext <;> apply V3.ext <;> simp [rodriguesMatrix, M3.one]
    · unfold toM
      rw [hdot, Real.sqrt_mul_self_eq_abs]
      simp only [Real.cos_abs, hcos]
      rcases lt_or_gt_of_ne h0 with hneg | hpos
      · rw [abs_of_neg hneg, Real.sin_neg, hsin]
        apply M3.ext <;> apply V3.ext <;> simp only [rodriguesMatrix, V3.smul] <;> field_simp
      · rw [abs_of_pos hpos, hsin]
        apply M3.ext <;> apply V3.ext <;> simp only [rodriguesMatrix, V3.smul] <;> field_simp
  · rw [hdot, ← abs_mul_abs_self t]
    exact mul_le_mul hle hle (abs_nonneg _) Real.pi_pos.le

/-- There is a conversion from matrices. -/
theorem exists_isLog : ∃ ofM, IsLog ofM := by
  classical
  refine ⟨fun m => if h : m.IsRotation then (exists_log h).choose else V3.zero, fun m hm => ?_⟩
  simp only [dif_pos hm]
  exact (exists_log hm).choose_spec

end AngleAxis
end Theia
