import Mathlib.LinearAlgebra.Matrix.ToLinearEquiv
import Verif.Proof.LastSingular
import Verif.Proof.ProjectionMatrix

/-!
# The nearest singular matrix, and homographies of four points
-/

namespace Theia
namespace LinearSolvers

open Spec Triangulation

theorem toMatrix_det (m : M3 ℝ) : (Svd.toMatrix m).det = m.det := by
  rw [Matrix.det_fin_three]
  simp [Svd.toMatrix, M3.det, V3.dot, V3.cross]
  ring

/-- A singular matrix sends a vector to zero. -/
theorem exists_null {r : M3 ℝ} (h : r.det = 0) : ∃ v : V3 ℝ, v.dot v = 1 ∧ r.mulVec v = V3.zero := by
  obtain ⟨w, hw, hz⟩ := Matrix.exists_mulVec_eq_zero_iff.2 ((toMatrix_det r).trans h)
  have hne : (⟨w 0, w 1, w 2⟩ : V3 ℝ) ≠ V3.zero := by
    intro h0
    apply hw
    funext i
    fin_cases i
    · exact congrArg V3.x h0
    · exact congrArg V3.y h0
    · exact congrArg V3.z h0
  have hr : r.mulVec ⟨w 0, w 1, w 2⟩ = V3.zero := by
    have h0 := congrFun hz 0
    have h1 := congrFun hz 1
    have h2 := congrFun hz 2
    simp [Svd.toMatrix, Matrix.mulVec, dotProduct, Fin.sum_univ_three] at h0 h1 h2
    apply V3.ext <;> simp only [M3.mulVec, V3.dot, V3.zero] <;> assumption
  have hp := V3.self_pos hne
  generalize (⟨w 0, w 1, w 2⟩ : V3 ℝ) = v at *
  have hs := Real.mul_self_sqrt hp.le
  have hs0 : Real.sqrt (v.dot v) ≠ 0 := (Real.sqrt_pos.2 hp).ne'
  refine ⟨v.smul (Real.sqrt (v.dot v))⁻¹, ?_, ?_⟩
  · have : (v.smul (Real.sqrt (v.dot v))⁻¹).dot (v.smul (Real.sqrt (v.dot v))⁻¹) =
        (v.dot v) * ((Real.sqrt (v.dot v)) * Real.sqrt (v.dot v))⁻¹ := by
      rw [mul_inv]
      generalize Real.sqrt (v.dot v) = s
      simp only [V3.dot, V3.smul]
      ring
    rw [this, hs, mul_inv_cancel₀ hp.ne']
  · rw [M3.mulVec_smul, hr, V3.smul_zero']

theorem orthogonal_dot {U : M3 ℝ} (h : IsOrthogonal U) (v : V3 ℝ) : (U.mulVec v).dot (U.mulVec v) = v.dot v := by
  rw [M3.dot_mulVec, ← M3.mulVec_mul, h.1, M3.one_mulVec]

/-- Setting the last singular value to zero gives the nearest singular matrix. -/
theorem nearest_singular {m U V : M3 ℝ} {s : V3 ℝ} (h : IsFullSvd m U V s) :
    NearestSingular m ((U.mul ⟨⟨s.x, 0, 0⟩, ⟨0, s.y, 0⟩, ⟨0, 0, 0⟩⟩).mul V.transpose) := by
  obtain ⟨hU, hV, h12, h23, h3, hm⟩ := h
  refine ⟨?_, fun r hr => ?_⟩
  · rw [M3.det_mul, M3.det_mul]
    have : (⟨⟨s.x, 0, 0⟩, ⟨0, s.y, 0⟩, ⟨0, 0, 0⟩⟩ : M3 ℝ).det = 0 := by simp [M3.det, V3.dot, V3.cross]
    rw [this]
    ring
  have e1 : frobeniusSq m ((U.mul ⟨⟨s.x, 0, 0⟩, ⟨0, s.y, 0⟩, ⟨0, 0, 0⟩⟩).mul V.transpose) = s.z ^ 2 := by
    have u := congrArg (fun M : M3 ℝ => M.r3.z) hU.1
    have v := congrArg (fun M : M3 ℝ => M.r3.z) hV.1
    simp only [M3.mul, M3.transpose, M3.mulVec, V3.dot, M3.one] at u v
    rw [hm]
    simp only [frobeniusSq, M3.mul, M3.transpose, M3.mulVec, V3.dot, V3.sub]
    linear_combination s.z ^ 2 * (V.r1.z * V.r1.z + V.r2.z * V.r2.z + V.r3.z * V.r3.z) * u + s.z ^ 2 * v
  obtain ⟨v, hv, hz⟩ := exists_null hr
  have hlow : s.z ^ 2 ≤ (m.mulVec v).dot (m.mulVec v) := by
    have e : (m.mulVec v).dot (m.mulVec v) = (s.x * (V.transpose.mulVec v).x) ^ 2 + (s.y * (V.transpose.mulVec v).y) ^ 2 +
        (s.z * (V.transpose.mulVec v).z) ^ 2 := by
      rw [hm, M3.mulVec_mul, M3.mulVec_mul, orthogonal_dot hU]
      simp only [M3.mulVec, V3.dot]
      ring
    have hw : (V.transpose.mulVec v).dot (V.transpose.mulVec v) = 1 := by
      rw [orthogonal_dot (U := V.transpose) ⟨hV.2, hV.1⟩, hv]
    rw [e]
    generalize V.transpose.mulVec v = w at hw
    simp only [V3.dot] at hw
    have hx : s.z ^ 2 ≤ s.x ^ 2 := pow_le_pow_left₀ h3 (h23.trans h12) 2
    have hy : s.z ^ 2 ≤ s.y ^ 2 := pow_le_pow_left₀ h3 h23 2
    nlinarith [mul_le_mul_of_nonneg_right hx (sq_nonneg w.x), mul_le_mul_of_nonneg_right hy (sq_nonneg w.y)]
  rw [e1]
  refine hlow.trans ?_
  -- the length of `(m - r) v` is at most the norm of `m - r`
  have c1 := V3.cauchy (m.r1.sub r.r1) v
  have c2 := V3.cauchy (m.r2.sub r.r2) v
  have c3 := V3.cauchy (m.r3.sub r.r3) v
  rw [hv, mul_one] at c1 c2 c3
  have z1 := congrArg V3.x hz
  have z2 := congrArg V3.y hz
  have z3 := congrArg V3.z hz
  simp only [M3.mulVec, V3.zero] at z1 z2 z3
  have d1 : (m.r1.sub r.r1).dot v = m.r1.dot v := by
    simp only [V3.sub, V3.dot] at z1 ⊢; linarith
  have d2 : (m.r2.sub r.r2).dot v = m.r2.dot v := by
    simp only [V3.sub, V3.dot] at z2 ⊢; linarith
  have d3 : (m.r3.sub r.r3).dot v = m.r3.dot v := by
    simp only [V3.sub, V3.dot] at z3 ⊢; linarith
  rw [d1] at c1
  rw [d2] at c2
  rw [d3] at c3
  unfold frobeniusSq
  show m.r1.dot v * m.r1.dot v + m.r2.dot v * m.r2.dot v + m.r3.dot v * m.r3.dot v ≤ _
  linarith

theorem frobenius_self_eq {a b : M3 ℝ} (h : frobeniusSq a b ≤ 0) : a = b := by
  have e : ∀ p q : V3 ℝ, (p.sub q).dot (p.sub q) = 0 → p = q := fun p q h => V3.sub_eq_zero (V3.self_eq_zero h)
  unfold frobeniusSq at h
  have h1 := V3.self_nonneg (a.r1.sub b.r1)
  have h2 := V3.self_nonneg (a.r2.sub b.r2)
  have h3 := V3.self_nonneg (a.r3.sub b.r3)
  exact M3.ext (e _ _ (by linarith)) (e _ _ (by linarith)) (e _ _ (by linarith))

theorem nearest_of_singular {m q : M3 ℝ} (h : NearestSingular m q) (hm : m.det = 0) : q = m := by
  have := h.2 m hm
  have h0 : frobeniusSq m m = 0 := by simp [frobeniusSq, V3.sub, V3.dot]
  rw [h0] at this
  exact (frobenius_self_eq this).symm

/-- A matrix with four eigenvectors, no three of them in a plane, is a multiple of the identity. -/
theorem scalar_of_four {M : M3 ℝ} {a b c d : V3 ℝ} {i j k l : ℝ} (ha : M.mulVec a = a.smul i) (hb : M.mulVec b = b.smul j)
    (hc : M.mulVec c = c.smul k) (hd : M.mulVec d = d.smul l) (h1 : a.dot (b.cross c) ≠ 0) (h2 : d.dot (b.cross c) ≠ 0)
    (h3 : a.dot (d.cross c) ≠ 0) (h4 : a.dot (b.cross d) ≠ 0) : i = l ∧ j = l ∧ k = l := by
  -- Cramer's rule
  have cr : d.smul (a.dot (b.cross c)) =
      ((a.smul (d.dot (b.cross c))).add (b.smul (a.dot (d.cross c)))).add (c.smul (a.dot (b.cross d))) := by
    apply V3.ext <;> simp only [V3.smul, V3.add, V3.dot, V3.cross] <;> ring
  have e := congrArg M.mulVec cr
  rw [M3.mulVec_add, M3.mulVec_add, M3.mulVec_smul, M3.mulVec_smul, M3.mulVec_smul, M3.mulVec_smul, ha, hb, hc, hd] at e
  have z : ((a.smul (d.dot (b.cross c) * (i - l))).add (b.smul (a.dot (d.cross c) * (j - l)))).add
      (c.smul (a.dot (b.cross d) * (k - l))) = V3.zero := by
    generalize d.dot (b.cross c) = p at *
    generalize a.dot (d.cross c) = q at *
    generalize a.dot (b.cross d) = r at *
    generalize a.dot (b.cross c) = s at *
    have ex := congrArg V3.x e; have ey := congrArg V3.y e; have ez := congrArg V3.z e
    have cx := congrArg V3.x cr; have cy := congrArg V3.y cr; have cz := congrArg V3.z cr
    simp only [V3.smul, V3.add] at ex ey ez cx cy cz
    apply V3.ext <;> simp only [V3.smul, V3.add, V3.zero]
    · linear_combination l * cx - ex
    · linear_combination l * cy - ey
    · linear_combination l * cz - ez
  -- the three vectors are independent
  have ind : ∀ p q r : ℝ, ((a.smul p).add (b.smul q)).add (c.smul r) = V3.zero → p = 0 ∧ q = 0 ∧ r = 0 := by
    intro p q r h
    have hx := congrArg V3.x h; have hy := congrArg V3.y h; have hz := congrArg V3.z h
    simp only [V3.smul, V3.add, V3.zero] at hx hy hz
    have k1 : p * a.dot (b.cross c) = 0 := by
      simp only [V3.dot, V3.cross]
      linear_combination (b.y * c.z - b.z * c.y) * hx + (b.z * c.x - b.x * c.z) * hy + (b.x * c.y - b.y * c.x) * hz
    have k2 : q * a.dot (b.cross c) = 0 := by
      simp only [V3.dot, V3.cross]
      linear_combination (c.y * a.z - c.z * a.y) * hx + (c.z * a.x - c.x * a.z) * hy + (c.x * a.y - c.y * a.x) * hz
    have k3 : r * a.dot (b.cross c) = 0 := by
      simp only [V3.dot, V3.cross]
      linear_combination (a.y * b.z - a.z * b.y) * hx + (a.z * b.x - a.x * b.z) * hy + (a.x * b.y - a.y * b.x) * hz
    exact ⟨(mul_eq_zero.1 k1).resolve_right h1, (mul_eq_zero.1 k2).resolve_right h1, (mul_eq_zero.1 k3).resolve_right h1⟩
  obtain ⟨k1, k2, k3⟩ := ind _ _ _ z
  exact ⟨sub_eq_zero.1 ((mul_eq_zero.1 k1).resolve_left h2), sub_eq_zero.1 ((mul_eq_zero.1 k2).resolve_left h3),
    sub_eq_zero.1 ((mul_eq_zero.1 k3).resolve_left h4)⟩

theorem entriesSq_ofColumns (v : Fin 9 → ℝ) : entriesSq (ofColumns v).transpose = ∑ i, v i ^ 2 := by
  simp [Fin.sum_univ_succ, entriesSq, ofColumns, M3.transpose, V3.dot, Fin.succ]
  ring

theorem columns_transpose (F : M3 ℝ) : (ofColumns (columns F.transpose)).transpose = F := by
  rw [ofColumns_columns]
  rfl

theorem combine_zero (a : ℝ) (A : M3 ℝ) : columns (combine a A 0 A) = a • columns A := by
  rw [columns_combine, zero_smul, add_zero]

theorem transpose_combine (a b : ℝ) (A B : M3 ℝ) : (combine a A b B).transpose = combine a A.transpose b B.transpose := rfl

/-- Singular value decompositions exist. -/
theorem exists_svdSolver : ∃ svd, SvdSolver svd := by
  choose U V hU hV s h using Svd.exists_svd
  exact ⟨fun m => (U m, s m, V m), fun m => ⟨hU m, hV m, h m⟩⟩

end LinearSolvers
end Theia
