import Verif.Model.EssentialMatrix
import Verif.Proof.TriangulationViews
import Verif.Spec.EssentialMatrix

/-!
# Lemmas on the decomposition of essential matrices
-/

namespace Theia
namespace EssentialMatrix

open Triangulation Spec

theorem rows_of_right {m : M3 ℝ} (h : m.mul m.transpose = M3.one) :
    m.r1.dot m.r1 = 1 ∧ m.r1.dot m.r2 = 0 ∧ m.r1.dot m.r3 = 0 ∧ m.r2.dot m.r2 = 1 ∧ m.r2.dot m.r3 = 0 ∧ m.r3.dot m.r3 = 1 := by
  have a1 := congrArg (fun x : M3 ℝ => x.r1.x) h
  have a2 := congrArg (fun x : M3 ℝ => x.r1.y) h
  have a3 := congrArg (fun x : M3 ℝ => x.r1.z) h
  have a4 := congrArg (fun x : M3 ℝ => x.r2.y) h
  have a5 := congrArg (fun x : M3 ℝ => x.r2.z) h
  have a6 := congrArg (fun x : M3 ℝ => x.r3.z) h
  simp only [M3.mul, M3.transpose, M3.mulVec, M3.one, V3.dot] at a1 a2 a3 a4 a5 a6
  simp only [V3.dot]
  exact ⟨by linarith, by linarith, by linarith, by linarith, by linarith, by linarith⟩

theorem det_sq {m : M3 ℝ} (h : IsOrthogonal m) : m.det * m.det = 1 := by
  have := congrArg M3.det h.1
  rwa [M3.det_mul, M3.det_transpose, M3.det_one] at this

theorem isRotation_fixSign {m : M3 ℝ} (h : IsOrthogonal m) : (fixSign m).IsRotation := by
  have hd := det_sq h
  unfold fixSign
  by_cases hn : m.det < 0
  · rw [if_pos hn]
    have h1 : m.det = -1 := by nlinarith
    refine ⟨?_, ?_, ?_⟩
    · have := h.1
      simp only [M3.mul, M3.transpose, M3.mulVec, M3.one, V3.dot, M3.mk.injEq, V3.mk.injEq] at this
      obtain ⟨⟨a, b, c⟩, ⟨d, e, f⟩, g, i, j⟩ := this
      apply M3.ext <;> apply V3.ext <;>
        simp only [negLastColumn, M3.mul, M3.transpose, M3.mulVec, M3.one, V3.dot] <;> linarith
    · have := h.2
      simp only [M3.mul, M3.transpose, M3.mulVec, M3.one, V3.dot, M3.mk.injEq, V3.mk.injEq] at this
      obtain ⟨⟨a, b, c⟩, ⟨d, e, f⟩, g, i, j⟩ := this
      apply M3.ext <;> apply V3.ext <;>
        simp only [negLastColumn, M3.mul, M3.transpose, M3.mulVec, M3.one, V3.dot] <;> linarith
    · have : (negLastColumn m).det = -m.det := by
        simp only [negLastColumn, M3.det, V3.dot, V3.cross]; ring
      rw [this, h1]; norm_num
  · rw [if_neg hn]
    exact ⟨h.1, h.2, by nlinarith⟩

theorem rotation_r3 {m : M3 ℝ} (h : m.IsRotation) : m.r3 = m.r1.cross m.r2 := by
  have := AngleAxis.mulVec_cross h.transpose ⟨1, 0, 0⟩ ⟨0, 1, 0⟩
  have e : (⟨1, 0, 0⟩ : V3 ℝ).cross ⟨0, 1, 0⟩ = ⟨0, 0, 1⟩ := by
    apply V3.ext <;> norm_num [V3.cross]
  rw [e] at this
  have e1 : m.transpose.mulVec ⟨0, 0, 1⟩ = m.r3 := by
    apply V3.ext <;> simp [M3.mulVec, M3.transpose, V3.dot]
  have e2 : m.transpose.mulVec ⟨1, 0, 0⟩ = m.r1 := by
    apply V3.ext <;> simp [M3.mulVec, M3.transpose, V3.dot]
  have e3 : m.transpose.mulVec ⟨0, 1, 0⟩ = m.r2 := by
    apply V3.ext <;> simp [M3.mulVec, M3.transpose, V3.dot]
  rw [e1, e2, e3] at this
  exact this

theorem mulVec_lastColumn (m : M3 ℝ) (c : ℝ) : m.mulVec ⟨0, 0, c⟩ = (lastColumn m).smul c := by
  apply V3.ext <;> simp only [M3.mulVec, lastColumn, V3.dot, V3.smul] <;> ring

theorem lastColumn_unit {m : M3 ℝ} (h : m.IsRotation) : (lastColumn m).dot (lastColumn m) = 1 := by
  have := h.dot ⟨0, 0, 1⟩ ⟨0, 0, 1⟩
  rw [mulVec_lastColumn, V3.one_smul'] at this
  rw [this]; norm_num [V3.dot]

theorem normalize_of_unit {v : V3 ℝ} (h : v.dot v = 1) : Triangulation.normalize v = v := by
  unfold Triangulation.normalize
  rw [h, if_pos one_pos, Real.sqrt_one, div_one, V3.one_smul']

/-- The rotation and translation seen in the frames of the decomposition. -/
theorem core {Q : M3 ℝ} (hQ : Q.IsRotation) {w : V3 ℝ} (hw : w ≠ V3.zero) {s1 s2 s3 σ : ℝ} (h12 : s2 ≤ s1) (h23 : s3 ≤ s2)
    (h3 : 0 ≤ s3) (hσ : σ * σ = 1) (h : ∀ u : V3 ℝ, w.cross (Q.mulVec u) = ⟨s1 * u.x, s2 * u.y, σ * s3 * u.z⟩) :
    ∃ c : ℝ, w = ⟨0, 0, c⟩ ∧ ((0 < c ∧ Q = dMatrix) ∨ (c < 0 ∧ Q = dMatrix.transpose)) := by
  have e1 := h ⟨1, 0, 0⟩
  have e2 := h ⟨0, 1, 0⟩
  have e3 := h ⟨0, 0, 1⟩
  simp only [M3.mulVec, V3.dot, V3.cross, mul_one, mul_zero, add_zero, zero_add, V3.mk.injEq] at e1 e2 e3
  obtain ⟨a11, a21, a31⟩ := e1
  obtain ⟨a12, a22, a32⟩ := e2
  obtain ⟨a13, a23, a33⟩ := e3
  obtain ⟨o11, o12, o13, o22, o23, o33⟩ := rows_of_right hQ.right
  have hr3 := rotation_r3 hQ
  -- squared singular values
  have q1 : s1 * s1 = w.y * w.y + w.z * w.z := by
    have : (w.y * Q.r3.x - w.z * Q.r2.x) * (w.y * Q.r3.x - w.z * Q.r2.x) + (w.y * Q.r3.y - w.z * Q.r2.y) * (w.y * Q.r3.y - w.z * Q.r2.y)
        + (w.y * Q.r3.z - w.z * Q.r2.z) * (w.y * Q.r3.z - w.z * Q.r2.z) =
        w.y * w.y * Q.r3.dot Q.r3 + w.z * w.z * Q.r2.dot Q.r2 - 2 * (w.y * w.z) * Q.r2.dot Q.r3 := by
      simp only [V3.dot]; ring
    rw [a11, a12, a13, o33, o22, o23] at this
    linarith
  have q2 : s2 * s2 = w.x * w.x + w.z * w.z := by
    have : (w.z * Q.r1.x - w.x * Q.r3.x) * (w.z * Q.r1.x - w.x * Q.r3.x) + (w.z * Q.r1.y - w.x * Q.r3.y) * (w.z * Q.r1.y - w.x * Q.r3.y)
        + (w.z * Q.r1.z - w.x * Q.r3.z) * (w.z * Q.r1.z - w.x * Q.r3.z) =
        w.z * w.z * Q.r1.dot Q.r1 + w.x * w.x * Q.r3.dot Q.r3 - 2 * (w.x * w.z) * Q.r1.dot Q.r3 := by
      simp only [V3.dot]; ring
    rw [a21, a22, a23, o11, o33, o13] at this
    linarith
  have q3 : s3 * s3 = w.x * w.x + w.y * w.y := by
    have : (w.x * Q.r2.x - w.y * Q.r1.x) * (w.x * Q.r2.x - w.y * Q.r1.x) + (w.x * Q.r2.y - w.y * Q.r1.y) * (w.x * Q.r2.y - w.y * Q.r1.y)
        + (w.x * Q.r2.z - w.y * Q.r1.z) * (w.x * Q.r2.z - w.y * Q.r1.z) =
        w.x * w.x * Q.r2.dot Q.r2 + w.y * w.y * Q.r1.dot Q.r1 - 2 * (w.x * w.y) * Q.r1.dot Q.r2 := by
      simp only [V3.dot]; ring
    rw [a31, a32, a33, o11, o22, o12] at this
    have e : σ * s3 * (σ * s3) = s3 * s3 := by
      have : σ * s3 * (σ * s3) = σ * σ * (s3 * s3) := by ring
      rw [this, hσ, one_mul]
    linarith
  have p23 : w.y * w.z = 0 := by
    have : (w.z * Q.r1.x - w.x * Q.r3.x) * (w.x * Q.r2.x - w.y * Q.r1.x) + (w.z * Q.r1.y - w.x * Q.r3.y) * (w.x * Q.r2.y - w.y * Q.r1.y)
        + (w.z * Q.r1.z - w.x * Q.r3.z) * (w.x * Q.r2.z - w.y * Q.r1.z) =
        w.z * w.x * Q.r1.dot Q.r2 - w.z * w.y * Q.r1.dot Q.r1 - w.x * w.x * Q.r2.dot Q.r3 + w.x * w.y * Q.r1.dot Q.r3 := by
      simp only [V3.dot]; ring
    rw [a21, a22, a23, a31, a32, a33, o11, o12, o13, o23] at this
    linarith
  have hs2 : 0 ≤ s2 := le_trans h3 h23
  have m1 : s2 * s2 ≤ s1 * s1 := mul_self_le_mul_self hs2 h12
  have m2 : s3 * s3 ≤ s2 * s2 := mul_self_le_mul_self h3 h23
  have nx := mul_self_nonneg w.x
  have ny := mul_self_nonneg w.y
  have nz := mul_self_nonneg w.z
  have hy : w.y = 0 := by
    rcases mul_eq_zero.1 p23 with hh | hh
    · exact hh
    · rw [hh] at q2 q1
      exact mul_self_eq_zero.1 (by linarith)
  have hx : w.x = 0 := by
    rw [hy] at q1
    exact mul_self_eq_zero.1 (by linarith)
  have hz : w.z ≠ 0 := fun hz => hw (V3.ext hx hy hz)
  simp only [hx, hy, zero_mul, zero_sub, sub_zero] at a11 a12 a13 a21 a22 a23
  have b12 : Q.r2.y = 0 := (mul_eq_zero.1 (by linarith : w.z * Q.r2.y = 0)).resolve_left hz
  have b13 : Q.r2.z = 0 := (mul_eq_zero.1 (by linarith : w.z * Q.r2.z = 0)).resolve_left hz
  have b21 : Q.r1.x = 0 := (mul_eq_zero.1 a21).resolve_left hz
  have b23 : Q.r1.z = 0 := (mul_eq_zero.1 (by linarith : w.z * Q.r1.z = 0)).resolve_left hz
  have hq1 : s1 * s1 = w.z * w.z := by rw [q1, hy]; ring
  have hq2 : s2 * s2 = w.z * w.z := by rw [q2, hx]; ring
  have hs1 : 0 ≤ s1 := le_trans hs2 h12
  refine ⟨w.z, V3.ext hx hy rfl, ?_⟩
  rcases lt_or_gt_of_ne hz with hneg | hpos
  · right
    have e1 : s1 = -w.z := (mul_self_inj hs1 (neg_nonneg.2 hneg.le)).1 (by rw [hq1, neg_mul_neg])
    have e2 : s2 = -w.z := (mul_self_inj hs2 (neg_nonneg.2 hneg.le)).1 (by rw [hq2, neg_mul_neg])
    have r2x : Q.r2.x = 1 := mul_left_cancel₀ hz (by linarith)
    have r1y : Q.r1.y = -1 := mul_left_cancel₀ hz (by linarith)
    have r1e : Q.r1 = ⟨0, -1, 0⟩ := V3.ext b21 r1y b23
    have r2e : Q.r2 = ⟨1, 0, 0⟩ := V3.ext r2x b12 b13
    refine ⟨hneg, M3.ext ?_ ?_ ?_⟩
    · rw [r1e]; rfl
    · rw [r2e]; rfl
    · rw [hr3, r1e, r2e]
      apply V3.ext <;> norm_num [V3.cross, dMatrix, M3.transpose]
  · left
    have e1 : s1 = w.z := (mul_self_inj hs1 hpos.le).1 hq1
    have e2 : s2 = w.z := (mul_self_inj hs2 hpos.le).1 hq2
    have r2x : Q.r2.x = -1 := mul_left_cancel₀ hz (by linarith)
    have r1y : Q.r1.y = 1 := mul_left_cancel₀ hz (by linarith)
    have r1e : Q.r1 = ⟨0, 1, 0⟩ := V3.ext b21 r1y b23
    have r2e : Q.r2 = ⟨-1, 0, 0⟩ := V3.ext r2x b12 b13
    refine ⟨hpos, M3.ext ?_ ?_ ?_⟩
    · rw [r1e]; rfl
    · rw [r2e]; rfl
    · rw [hr3, r1e, r2e]
      apply V3.ext <;> norm_num [V3.cross, dMatrix]

theorem isRotation_d : dMatrix.IsRotation := by
  refine ⟨?_, ?_, ?_⟩
  · apply M3.ext <;> apply V3.ext <;> norm_num [dMatrix, M3.mul, M3.transpose, M3.mulVec, M3.one, V3.dot]
  · apply M3.ext <;> apply V3.ext <;> norm_num [dMatrix, M3.mul, M3.transpose, M3.mulVec, M3.one, V3.dot]
  · norm_num [dMatrix, M3.det, V3.dot, V3.cross]

theorem decompose_rotations {svd : M3 ℝ → M3 ℝ × M3 ℝ} {E : M3 ℝ} (hU : IsOrthogonal (svd E).1) (hV : IsOrthogonal (svd E).2) :
    (decompose svd E).1.IsRotation ∧ (decompose svd E).2.1.IsRotation ∧
      (decompose svd E).2.2 = lastColumn (fixSign (svd E).1) ∧ (decompose svd E).2.2.dot (decompose svd E).2.2 = 1 := by
  have u := isRotation_fixSign hU
  have v := isRotation_fixSign hV
  have hl := lastColumn_unit u
  have e : (decompose svd E).2.2 = lastColumn (fixSign (svd E).1) := normalize_of_unit hl
  exact ⟨(u.mul isRotation_d).mul v.transpose, (u.mul isRotation_d.transpose).mul v.transpose, e, by rw [e, hl]⟩

/-- The second rotation is the first one followed by half a turn about the translation. -/
theorem twisted {svd : M3 ℝ → M3 ℝ × M3 ℝ} {E : M3 ℝ} (hU : IsOrthogonal (svd E).1) (hV : IsOrthogonal (svd E).2) (v : V3 ℝ) :
    (decompose svd E).2.1.mulVec v =
      ((decompose svd E).2.2.smul (2 * (decompose svd E).2.2.dot ((decompose svd E).1.mulVec v))).sub
        ((decompose svd E).1.mulVec v) := by
  obtain ⟨-, -, ht, -⟩ := decompose_rotations hU hV
  have u := isRotation_fixSign hU
  rw [ht]
  show (((fixSign (svd E).1).mul dMatrix.transpose).mul (fixSign (svd E).2).transpose).mulVec v =
    ((lastColumn (fixSign (svd E).1)).smul (2 * (lastColumn (fixSign (svd E).1)).dot
      ((((fixSign (svd E).1).mul dMatrix).mul (fixSign (svd E).2).transpose).mulVec v))).sub
      ((((fixSign (svd E).1).mul dMatrix).mul (fixSign (svd E).2).transpose).mulVec v)
  rw [M3.mulVec_mul, M3.mulVec_mul, M3.mulVec_mul, M3.mulVec_mul]
  generalize (fixSign (svd E).2).transpose.mulVec v = y
  generalize fixSign (svd E).1 = U at u
  have e1 : (lastColumn U).dot (U.mulVec (dMatrix.mulVec y)) = y.z := by
    have : lastColumn U = U.mulVec ⟨0, 0, 1⟩ := by rw [mulVec_lastColumn, V3.one_smul']
    rw [this, u.dot]
    simp [V3.dot, dMatrix, M3.mulVec]
  rw [e1, ← mulVec_lastColumn, ← M3.mulVec_sub]
  congr 1
  apply V3.ext <;> simp [V3.sub, dMatrix, M3.mulVec, M3.transpose, V3.dot]
  ring

theorem eq_of_mulVec {a b : M3 ℝ} (h : ∀ v, a.mulVec v = b.mulVec v) : a = b := by
  have h1 := h ⟨1, 0, 0⟩
  have h2 := h ⟨0, 1, 0⟩
  have h3 := h ⟨0, 0, 1⟩
  simp only [M3.mulVec, V3.dot, mul_one, mul_zero, add_zero, zero_add, V3.mk.injEq] at h1 h2 h3
  apply M3.ext <;> apply V3.ext
  exacts [h1.1, h2.1, h3.1, h1.2.1, h2.2.1, h3.2.1, h1.2.2, h2.2.2, h3.2.2]

theorem mulVec_eq_zero {R : M3 ℝ} (hR : R.IsRotation) {v : V3 ℝ} (h : R.mulVec v = V3.zero) : v = V3.zero := by
  have := hR.transpose_mulVec v
  rw [h] at this
  rw [← this]
  apply V3.ext <;> simp [M3.mulVec, V3.zero, V3.dot]

/-- The decomposition of `[τ]_x R`. -/
theorem decompose_core {svd : M3 ℝ → M3 ℝ × M3 ℝ} {E R : M3 ℝ} (hsvd : IsSvd E (svd E).1 (svd E).2) (hR : R.IsRotation) {τ : V3 ℝ}
    (hτ : τ ≠ V3.zero) (hE : ∀ v, E.mulVec v = τ.cross (R.mulVec v)) :
    ∃ c : ℝ, τ = (decompose svd E).2.2.smul c ∧
      ((0 < c ∧ R = (decompose svd E).1) ∨ (c < 0 ∧ R = (decompose svd E).2.1)) := by
  obtain ⟨hU, hV, s, h12, h23, h3, hEs⟩ := hsvd
  have u := isRotation_fixSign hU
  have v := isRotation_fixSign hV
  obtain ⟨-, -, ht, -⟩ := decompose_rotations hU hV
  rw [ht]
  show ∃ c : ℝ, τ = (lastColumn (fixSign (svd E).1)).smul c ∧
    ((0 < c ∧ R = ((fixSign (svd E).1).mul dMatrix).mul (fixSign (svd E).2).transpose) ∨
      (c < 0 ∧ R = ((fixSign (svd E).1).mul dMatrix.transpose).mul (fixSign (svd E).2).transpose))
  obtain ⟨σ, hσ2, hEm⟩ : ∃ σ : ℝ, σ * σ = 1 ∧ ∀ y, E.mulVec y = (fixSign (svd E).1).mulVec
      ⟨s.x * ((fixSign (svd E).2).transpose.mulVec y).x, s.y * ((fixSign (svd E).2).transpose.mulVec y).y,
        σ * s.z * ((fixSign (svd E).2).transpose.mulVec y).z⟩ := by
    have hexp : ∀ y, E.mulVec y = (svd E).1.mulVec ⟨s.x * ((svd E).2.transpose.mulVec y).x,
        s.y * ((svd E).2.transpose.mulVec y).y, s.z * ((svd E).2.transpose.mulVec y).z⟩ := by
      intro y
      have := congrArg (fun m : M3 ℝ => m.mulVec y) hEs
      rw [M3.mulVec_mul, M3.mulVec_mul] at this
      rw [this]
      congr 1
      apply V3.ext <;> simp [M3.mulVec, V3.dot]
    have sg : ∀ m : M3 ℝ, ∃ σ : ℝ, σ * σ = 1 ∧ (∀ v : V3 ℝ, m.mulVec v = (fixSign m).mulVec ⟨v.x, v.y, σ * v.z⟩) ∧
        ∀ v : V3 ℝ, m.transpose.mulVec v = ⟨((fixSign m).transpose.mulVec v).x, ((fixSign m).transpose.mulVec v).y,
          σ * ((fixSign m).transpose.mulVec v).z⟩ := by
      intro m
      unfold fixSign
      by_cases hn : m.det < 0
      · rw [if_pos hn]
        refine ⟨-1, by norm_num, fun v => ?_, fun v => ?_⟩
        · apply V3.ext <;> simp only [negLastColumn, M3.mulVec, V3.dot] <;> ring
        · apply V3.ext <;> simp only [negLastColumn, M3.mulVec, M3.transpose, V3.dot] <;> ring
      · rw [if_neg hn]
        refine ⟨1, by norm_num, fun v => ?_, fun v => ?_⟩ <;> rw [one_mul]
    obtain ⟨σ1, h1, hm1, -⟩ := sg (svd E).1
    obtain ⟨σ2, h2, -, hm2⟩ := sg (svd E).2
    refine ⟨σ1 * σ2, ?_, fun y => ?_⟩
    · have : σ1 * σ2 * (σ1 * σ2) = σ1 * σ1 * (σ2 * σ2) := by ring
      rw [this, h1, h2, one_mul]
    · rw [hexp, hm1, hm2]
      congr 1
      apply V3.ext <;> simp only
      ring
  generalize fixSign (svd E).1 = U at u hEm ⊢
  generalize fixSign (svd E).2 = V at v hEm ⊢
  have hQ : ((U.transpose.mul R).mul V).IsRotation := (u.transpose.mul hR).mul v
  have hw : U.transpose.mulVec τ ≠ V3.zero := fun h => hτ (mulVec_eq_zero u.transpose h)
  obtain ⟨c, hc, hcase⟩ := core hQ hw h12 h23 h3 hσ2 (by
    intro y
    rw [M3.mulVec_mul, M3.mulVec_mul, ← AngleAxis.mulVec_cross u.transpose, ← hE, hEm, u.transpose_mulVec,
      v.transpose_mulVec])
  have hτ' : τ = (lastColumn U).smul c := by
    rw [← mulVec_lastColumn, ← hc, u.mulVec_transpose]
  have hback : ∀ D : M3 ℝ, (U.transpose.mul R).mul V = D → R = (U.mul D).mul V.transpose := by
    rintro D rfl
    apply eq_of_mulVec
    intro y
    simp only [M3.mulVec_mul]
    rw [v.mulVec_transpose, u.mulVec_transpose]
  refine ⟨c, hτ', ?_⟩
  rcases hcase with ⟨h1, h2⟩ | ⟨h1, h2⟩
  · exact Or.inl ⟨h1, hback _ h2⟩
  · exact Or.inr ⟨h1, hback _ h2⟩

/-! ## Counting -/

theorem countInFront_eq (pose : M3 ℝ × V3 ℝ) (cs : List (V2 × V2)) :
    countInFront pose cs = cs.countP (fun c => inFront c pose.1 pose.2) := by
  induction cs with
  | nil => rfl
  | cons c cs ih =>
    simp only [countInFront, ih, List.countP_cons]
    omega

theorem firstMax_spec {α : Type} (count : α → Nat) : ∀ (l : List α) (best : α),
    firstMax count best l ∈ best :: l ∧ ∀ a ∈ best :: l, count a ≤ count (firstMax count best l)
  | [], best => by simp [firstMax]
  | a :: as, best => by
    simp only [firstMax]
    by_cases h : count best < count a
    · rw [if_pos h]
      obtain ⟨h1, h2⟩ := firstMax_spec count as a
      refine ⟨List.mem_cons_of_mem _ h1, fun b hb => ?_⟩
      rcases List.mem_cons.1 hb with rfl | hb
      · exact le_trans h.le (h2 a List.mem_cons_self)
      · exact h2 b hb
    · rw [if_neg h]
      obtain ⟨h1, h2⟩ := firstMax_spec count as best
      refine ⟨?_, fun b hb => ?_⟩
      · rcases List.mem_cons.1 h1 with h1 | h1
        · rw [h1]; exact List.mem_cons_self
        · exact List.mem_cons_of_mem _ (List.mem_cons_of_mem _ h1)
      · rcases List.mem_cons.1 hb with rfl | hb
        · exact h2 b List.mem_cons_self
        · rcases List.mem_cons.1 hb with rfl | hb
          · exact le_trans (not_lt.1 h) (h2 best List.mem_cons_self)
          · exact h2 b (List.mem_cons_of_mem _ hb)

/-! ## The other candidates do not see a good point in front -/

/-- With the opposite position the test fails. -/
theorem inFront_neg {c : V2 × V2} {R : M3 ℝ} {p : V3 ℝ} (h : inFront c R p = true) : inFront c R p.neg = false := by
  cases hb : inFront c R p.neg
  · rfl
  · exfalso
    rw [show c = (c.1, c.2) from rfl, inFront_iff] at h hb
    have e1 : ∀ d : V3 ℝ, d.dot p.neg = -d.dot p := by
      intro d; simp only [V3.dot, V3.neg]; ring
    rw [e1, e1] at hb
    linarith [h.1, hb.1]

/-- With the twisted rotation it fails too. -/
theorem inFront_twisted {f1 f2 : V2} {R R' : M3 ℝ} {p X : V3 ℝ} {z1 z2 : ℝ} (hp : p.dot p = 1)
    (hR' : R'.transpose.mulVec (homog f2) =
      (p.smul (2 * p.dot (R.transpose.mulVec (homog f2)))).sub (R.transpose.mulVec (homog f2)))
    (hX1 : X = (homog f1).smul z1) (hX2 : X = p.add ((R.transpose.mulVec (homog f2)).smul z2)) (hz1 : 0 < z1)
    (h : inFront (f1, f2) R p = true) (q : V3 ℝ) (hq : q = p ∨ q = p.neg) : inFront (f1, f2) R' q = false := by
  cases hb : inFront (f1, f2) R' q
  · rfl
  · exfalso
    rw [inFront_iff] at h hb
    rw [hR'] at hb
    generalize homog f1 = d1 at h hb hX1
    generalize R.transpose.mulVec (homog f2) = d2 at h hb hX2
    -- coplanarity
    have hcop : d1.smul z1 = p.add (d2.smul z2) := by rw [← hX1, hX2]
    have hgram : d1.dot d1 * d2.dot d2 - d1.dot d1 * (d2.dot p * d2.dot p) - d1.dot d2 * d1.dot d2
        + 2 * (d1.dot d2 * (d1.dot p * d2.dot p)) - d1.dot p * d1.dot p * d2.dot d2 = 0 := by
      have hdet : d1.dot (d2.cross p) = 0 := by
        have : (d1.smul z1).dot (d2.cross p) = 0 := by
          rw [hcop]; simp only [V3.dot, V3.cross, V3.add, V3.smul]; ring
        have e : (d1.smul z1).dot (d2.cross p) = z1 * d1.dot (d2.cross p) := by
          simp only [V3.dot, V3.smul]; ring
        rw [e] at this
        exact (mul_eq_zero.1 this).resolve_left hz1.ne'
      have hG : d1.dot (d2.cross p) * d1.dot (d2.cross p) =
          d1.dot d1 * (d2.dot d2 * p.dot p) - d1.dot d1 * (d2.dot p * d2.dot p) - d1.dot d2 * d1.dot d2 * p.dot p
          + 2 * (d1.dot d2 * (d1.dot p * d2.dot p)) - d1.dot p * d1.dot p * d2.dot d2 := by
        simp only [V3.dot, V3.cross]; ring
      rw [hdet, hp] at hG
      linarith
    have dd : p.dot d2 = d2.dot p := V3.dot_comm _ _
    rw [dd] at hb
    have e1 : ((p.smul (2 * d2.dot p)).sub d2).dot ((p.smul (2 * d2.dot p)).sub d2) = d2.dot d2 := by
      have : ((p.smul (2 * d2.dot p)).sub d2).dot ((p.smul (2 * d2.dot p)).sub d2) =
          4 * (d2.dot p * d2.dot p) * p.dot p - 4 * (d2.dot p * d2.dot p) + d2.dot d2 := by
        simp only [V3.dot, V3.sub, V3.smul]; ring
      rw [this, hp]; ring
    have e2 : d1.dot ((p.smul (2 * d2.dot p)).sub d2) = 2 * d2.dot p * d1.dot p - d1.dot d2 := by
      simp only [V3.dot, V3.sub, V3.smul]; ring
    have e3 : ((p.smul (2 * d2.dot p)).sub d2).dot p = d2.dot p := by
      have : ((p.smul (2 * d2.dot p)).sub d2).dot p = 2 * d2.dot p * p.dot p - d2.dot p := by
        simp only [V3.dot, V3.sub, V3.smul]; ring
      rw [this, hp]; ring
    have hcs := V3.cauchy d1 ((p.smul (2 * d2.dot p)).sub d2)
    have hcs0 := V3.cauchy d1 d2
    rw [e1, e2] at hcs
    -- the products of the two quantities
    generalize d1.dot d1 = a at *
    generalize d2.dot d2 = c at *
    generalize d1.dot d2 = e at *
    have hprod : (c * d1.dot p - e * d2.dot p) * (e * d1.dot p - a * d2.dot p) = (e - d1.dot p * d2.dot p) * (a * c - e * e) := by
      linear_combination (-e) * hgram
    have hpos := mul_pos h.1 h.2
    rw [hprod] at hpos
    have hS : 0 < e - d1.dot p * d2.dot p := by
      by_contra hle
      have := mul_nonneg (neg_nonneg.2 (not_lt.1 hle)) (by linarith : 0 ≤ a * c - e * e)
      linarith
    have hprod' : (c * d1.dot p - (2 * d2.dot p * d1.dot p - e) * d2.dot p) * ((2 * d2.dot p * d1.dot p - e) * d1.dot p - a * d2.dot p)
        = -((e - d1.dot p * d2.dot p) * (a * c - (2 * d2.dot p * d1.dot p - e) * (2 * d2.dot p * d1.dot p - e))) := by
      linear_combination (-(2 * d2.dot p * d1.dot p - e)) * hgram
    have hle : (c * d1.dot p - (2 * d2.dot p * d1.dot p - e) * d2.dot p) * ((2 * d2.dot p * d1.dot p - e) * d1.dot p - a * d2.dot p) ≤ 0 := by
      rw [hprod']
      have := mul_nonneg hS.le (by linarith :
        0 ≤ a * c - (2 * d2.dot p * d1.dot p - e) * (2 * d2.dot p * d1.dot p - e))
      linarith
    rcases hq with rfl | rfl
    · rw [e2, e3, e1] at hb
      have := mul_pos hb.1 hb.2
      linarith
    · have n1 : ∀ d : V3 ℝ, d.dot p.neg = -d.dot p := by
        intro d; simp only [V3.dot, V3.neg]; ring
      rw [e2, n1, n1, e3, e1] at hb
      have := mul_pos hb.1 hb.2
      nlinarith

end EssentialMatrix
end Theia
