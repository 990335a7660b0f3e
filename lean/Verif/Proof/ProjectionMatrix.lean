import Verif.Model.ProjectionMatrix
import Verif.Proof.EssentialMatrix
import Verif.Spec.ProjectionMatrix

/-!
# Lemmas on projection matrices
-/

namespace Theia
namespace ProjectionMatrix

open Triangulation Spec EssentialMatrix

/-- The RQ decomposition. -/
theorem rq_spec {qr : M3 ℝ → M3 ℝ × M3 ℝ} {m : M3 ℝ}
    (h : IsQr (reverseColumns m.transpose) (qr (reverseColumns m.transpose)).1 (qr (reverseColumns m.transpose)).2) :
    (rq qr m).1.mul (rq qr m).2 = m ∧ UpperTriangular (rq qr m).1 ∧ (rq qr m).2.IsRotation := by
  obtain ⟨⟨o1, o2⟩, hm⟩ := h
  unfold rq
  simp only
  generalize (qr (reverseColumns m.transpose)).1 = q0 at o1 o2 hm
  generalize (qr (reverseColumns m.transpose)).2 = r0 at hm
  have hprod : (clearLower (reverseColumns (reverseRows r0.transpose))).mul (reverseRows q0.transpose) = m := by
    simp only [reverseColumns, M3.transpose, M3.mul, M3.mulVec, V3.dot, M3.mk.injEq, V3.mk.injEq] at hm
    obtain ⟨⟨a1, a2, a3⟩, ⟨b1, b2, b3⟩, c1, c2, c3⟩ := hm
    apply M3.ext <;> apply V3.ext <;>
      simp only [clearLower, reverseColumns, reverseRows, M3.mul, M3.transpose, M3.mulVec, V3.dot] <;> linarith
  have hup : UpperTriangular (clearLower (reverseColumns (reverseRows r0.transpose))) := ⟨rfl, rfl, rfl⟩
  generalize clearLower (reverseColumns (reverseRows r0.transpose)) = r at hprod hup
  have horth : IsOrthogonal (reverseRows q0.transpose) := by
    constructor
    · simp only [M3.transpose, M3.mul, M3.mulVec, V3.dot, M3.one, M3.mk.injEq, V3.mk.injEq] at o2
      obtain ⟨⟨a1, a2, a3⟩, ⟨b1, b2, b3⟩, c1, c2, c3⟩ := o2
      apply M3.ext <;> apply V3.ext <;>
        simp only [reverseRows, M3.mul, M3.transpose, M3.mulVec, V3.dot, M3.one] <;> linarith
    · simp only [M3.transpose, M3.mul, M3.mulVec, V3.dot, M3.one, M3.mk.injEq, V3.mk.injEq] at o1
      obtain ⟨⟨a1, a2, a3⟩, ⟨b1, b2, b3⟩, c1, c2, c3⟩ := o1
      apply M3.ext <;> apply V3.ext <;>
        simp only [reverseRows, M3.mul, M3.transpose, M3.mulVec, V3.dot, M3.one] <;> linarith
  generalize reverseRows q0.transpose = q at hprod horth
  have hd := det_sq horth
  by_cases hn : q.det < 0
  · rw [if_pos hn]
    refine ⟨?_, ⟨hup.1, hup.2.1, by simp [negCol1, hup.2.2]⟩, ?_⟩
    · rw [← hprod]
      apply M3.ext <;> apply V3.ext <;> simp only [negCol1, negRow1, M3.mul, M3.transpose, M3.mulVec, V3.dot] <;> ring
    · have h1 : q.det = -1 := by nlinarith
      obtain ⟨o1, o2⟩ := horth
      refine ⟨?_, ?_, ?_⟩
      · simp only [M3.transpose, M3.mul, M3.mulVec, V3.dot, M3.one, M3.mk.injEq, V3.mk.injEq] at o1
        obtain ⟨⟨a1, a2, a3⟩, ⟨b1, b2, b3⟩, c1, c2, c3⟩ := o1
        apply M3.ext <;> apply V3.ext <;>
          simp only [negRow1, M3.mul, M3.transpose, M3.mulVec, V3.dot, M3.one] <;> linarith
      · simp only [M3.transpose, M3.mul, M3.mulVec, V3.dot, M3.one, M3.mk.injEq, V3.mk.injEq] at o2
        obtain ⟨⟨a1, a2, a3⟩, ⟨b1, b2, b3⟩, c1, c2, c3⟩ := o2
        apply M3.ext <;> apply V3.ext <;>
          simp only [negRow1, M3.mul, M3.transpose, M3.mulVec, V3.dot, M3.one] <;> linarith
      · have : (negRow1 q).det = -q.det := by simp only [negRow1, M3.det, V3.dot, V3.cross]; ring
        rw [this, h1]; norm_num
  · rw [if_neg hn]
    exact ⟨hprod, hup, horth.1, horth.2, by nlinarith⟩

/-! ## Nearest rotations -/

theorem isOrthogonal_mul {a b : M3 ℝ} (ha : IsOrthogonal a) (hb : IsOrthogonal b) : IsOrthogonal (a.mul b) := by
  constructor
  · rw [M3.transpose_mul, M3.mul_assoc, ← M3.mul_assoc a.transpose, ha.1, M3.one_mul, hb.1]
  · rw [M3.transpose_mul, M3.mul_assoc, ← M3.mul_assoc b, hb.2, M3.one_mul, ha.2]

theorem isOrthogonal_transpose {a : M3 ℝ} (ha : IsOrthogonal a) : IsOrthogonal a.transpose := ⟨ha.2, ha.1⟩

theorem isOrthogonal_of_isRotation {a : M3 ℝ} (h : a.IsRotation) : IsOrthogonal a := ⟨h.left, h.right⟩

theorem projectToRotation_isRotation {svd : M3 ℝ → M3 ℝ × M3 ℝ} {m : M3 ℝ} (hU : IsOrthogonal (svd m).1)
    (hV : IsOrthogonal (svd m).2) : (projectToRotation svd m).IsRotation := by
  have ho := isOrthogonal_mul hU (isOrthogonal_transpose hV)
  have hd := det_sq ho
  unfold projectToRotation
  simp only
  generalize (svd m).1.mul (svd m).2.transpose = r at ho hd
  by_cases hn : r.det < 0
  · rw [if_pos hn]
    have h1 : r.det = -1 := by nlinarith
    refine ⟨?_, ?_, ?_⟩
    · rw [← ho.1]
      apply M3.ext <;> apply V3.ext <;> simp only [scale, M3.mul, M3.transpose, M3.mulVec, V3.dot, V3.smul] <;> ring
    · rw [← ho.2]
      apply M3.ext <;> apply V3.ext <;> simp only [scale, M3.mul, M3.transpose, M3.mulVec, V3.dot, V3.smul] <;> ring
    · have : (scale (-1) r).det = -r.det := by simp only [scale, M3.det, V3.dot, V3.cross, V3.smul]; ring
      rw [this, h1]; norm_num
  · rw [if_neg hn]
    exact ⟨ho.1, ho.2, by nlinarith⟩

/-- The sum of the diagonal. -/
noncomputable def tr (m : M3 ℝ) : ℝ := m.r1.x + m.r2.y + m.r3.z

theorem tr_comm (a b : M3 ℝ) : tr (a.mul b) = tr (b.mul a) := by
  simp only [tr, M3.mul, M3.transpose, M3.mulVec, V3.dot]; ring

theorem frobenius_eq {m q : M3 ℝ} (hq : IsOrthogonal q) :
    frobeniusSq m q = frobeniusSq m ⟨V3.zero, V3.zero, V3.zero⟩ + 3 - 2 * tr (m.transpose.mul q) := by
  obtain ⟨o11, -, -, o22, -, o33⟩ := rows_of_right hq.2
  simp only [V3.dot] at o11 o22 o33
  simp only [frobeniusSq, V3.sub, V3.dot, V3.zero, tr, M3.mul, M3.transpose, M3.mulVec]
  linarith

theorem entry_le_one {q : M3 ℝ} (hq : IsOrthogonal q) : q.r1.x ≤ 1 ∧ q.r2.y ≤ 1 ∧ q.r3.z ≤ 1 := by
  obtain ⟨o11, -, -, o22, -, o33⟩ := rows_of_right hq.2
  simp only [V3.dot] at o11 o22 o33
  refine ⟨?_, ?_, ?_⟩
  · nlinarith [mul_self_nonneg q.r1.y, mul_self_nonneg q.r1.z]
  · nlinarith [mul_self_nonneg q.r2.x, mul_self_nonneg q.r2.z]
  · nlinarith [mul_self_nonneg q.r3.x, mul_self_nonneg q.r3.y]

/-- No orthogonal matrix is nearer than `U V^T`. -/
theorem nearest_orthogonal {m U V : M3 ℝ} (h : IsSvd m U V) {q : M3 ℝ} (hq : IsOrthogonal q) :
    frobeniusSq m (U.mul V.transpose) ≤ frobeniusSq m q := by
  obtain ⟨hU, hV, s, h12, h23, h3, hm⟩ := h
  have ho := isOrthogonal_mul hU (isOrthogonal_transpose hV)
  rw [frobenius_eq ho, frobenius_eq hq]
  have key : ∀ r : M3 ℝ, tr (m.transpose.mul r) =
      tr ((⟨⟨s.x, 0, 0⟩, ⟨0, s.y, 0⟩, ⟨0, 0, s.z⟩⟩ : M3 ℝ).mul ((U.transpose.mul r).mul V)) := by
    intro r
    have e : m.transpose = V.mul ((⟨⟨s.x, 0, 0⟩, ⟨0, s.y, 0⟩, ⟨0, 0, s.z⟩⟩ : M3 ℝ).mul U.transpose) := by
      rw [hm, M3.transpose_mul, M3.transpose_mul]; rfl
    rw [e, M3.mul_assoc, tr_comm, M3.mul_assoc, M3.mul_assoc, M3.mul_assoc]
  have e1 : (U.transpose.mul (U.mul V.transpose)).mul V = M3.one := by
    rw [← M3.mul_assoc U.transpose, hU.1, M3.one_mul, hV.1]
  rw [key, key, e1]
  have hw := entry_le_one (isOrthogonal_mul (isOrthogonal_mul (isOrthogonal_transpose hU) hq) hV)
  generalize (U.transpose.mul q).mul V = w at hw
  simp only [tr, M3.mul, M3.transpose, M3.mulVec, V3.dot, M3.one]
  have a1 := mul_le_mul_of_nonneg_left hw.1 (show 0 ≤ s.x by linarith)
  have a2 := mul_le_mul_of_nonneg_left hw.2.1 (show 0 ≤ s.y by linarith)
  have a3 := mul_le_mul_of_nonneg_left hw.2.2 h3
  linarith

/-- The projection leaves rotations as they are. -/
theorem projectToRotation_of_rotation {svd : M3 ℝ → M3 ℝ × M3 ℝ} {m : M3 ℝ} (h : IsSvd m (svd m).1 (svd m).2)
    (hm : m.IsRotation) : projectToRotation svd m = m := by
  have hle := nearest_orthogonal h (isOrthogonal_of_isRotation hm)
  have hz : frobeniusSq m m = 0 := by simp [frobeniusSq, V3.sub, V3.dot]
  rw [hz] at hle
  have heq : (svd m).1.mul (svd m).2.transpose = m := by
    generalize (svd m).1.mul (svd m).2.transpose = r at hle
    unfold frobeniusSq at hle
    have n1 := V3.self_nonneg (m.r1.sub r.r1)
    have n2 := V3.self_nonneg (m.r2.sub r.r2)
    have n3 := V3.self_nonneg (m.r3.sub r.r3)
    have z1 := V3.self_eq_zero (show (m.r1.sub r.r1).dot (m.r1.sub r.r1) = 0 by linarith)
    have z2 := V3.self_eq_zero (show (m.r2.sub r.r2).dot (m.r2.sub r.r2) = 0 by linarith)
    have z3 := V3.self_eq_zero (show (m.r3.sub r.r3).dot (m.r3.sub r.r3) = 0 by linarith)
    simp only [V3.sub, V3.zero, V3.mk.injEq] at z1 z2 z3
    apply M3.ext <;> apply V3.ext <;> linarith [z1.1, z1.2.1, z1.2.2, z2.1, z2.2.1, z2.2.2, z3.1, z3.2.1, z3.2.2]
  unfold projectToRotation
  simp only [heq]
  rw [if_neg (by rw [hm.det]; norm_num)]

/-! ## Signs -/

theorem upper_det {K : M3 ℝ} (h : UpperTriangular K) : K.det = K.r1.x * K.r2.y * K.r3.z := by
  obtain ⟨h1, h2, h3⟩ := h
  simp only [M3.det, V3.dot, V3.cross, h1, h2, h3]; ring

/-- What one step of the sign loop keeps: the product, triangularity, the determinants' product. -/
structure SignKept (p q : M3 ℝ × M3 ℝ) : Prop where
  prod : q.1.mul q.2 = p.1.mul p.2
  upper : UpperTriangular p.1 → UpperTriangular q.1
  orth : IsOrthogonal p.2 → IsOrthogonal q.2
  det : q.1.det * q.2.det = p.1.det * p.2.det

theorem SignKept.trans {p q r : M3 ℝ × M3 ℝ} (h1 : SignKept p q) (h2 : SignKept q r) : SignKept p r :=
  ⟨h2.prod.trans h1.prod, h2.upper ∘ h1.upper, h2.orth ∘ h1.orth, h2.det.trans h1.det⟩

theorem SignKept.refl (p : M3 ℝ × M3 ℝ) : SignKept p p := ⟨rfl, id, id, rfl⟩

theorem orth_neg_rows {q : M3 ℝ} (h : IsOrthogonal q) {a b c : ℝ} (ha : a * a = 1) (hb : b * b = 1) (hc : c * c = 1) :
    IsOrthogonal ⟨q.r1.smul a, q.r2.smul b, q.r3.smul c⟩ := by
  constructor
  · have := h.1
    simp only [M3.transpose, M3.mul, M3.mulVec, V3.dot, M3.one, M3.mk.injEq, V3.mk.injEq] at this
    obtain ⟨⟨a1, a2, a3⟩, ⟨b1, b2, b3⟩, c1, c2, c3⟩ := this
    have e : ∀ x y z x' y' z' : ℝ, a * x * (a * x') + b * y * (b * y') + c * z * (c * z') = x * x' + y * y' + z * z' := by
      intro x y z x' y' z'
      linear_combination (x * x') * ha + (y * y') * hb + (z * z') * hc
    apply M3.ext <;> apply V3.ext <;> simp only [M3.mul, M3.transpose, M3.mulVec, V3.dot, M3.one, V3.smul, e] <;> assumption
  · obtain ⟨o11, o12, o13, o22, o23, o33⟩ := rows_of_right h.2
    simp only [V3.dot] at o11 o12 o13 o22 o23 o33
    apply M3.ext <;> apply V3.ext <;> simp only [M3.mul, M3.transpose, M3.mulVec, V3.dot, M3.one, V3.smul]
    · linear_combination a * a * o11 + ha
    · linear_combination a * b * o12
    · linear_combination a * c * o13
    · linear_combination a * b * o12
    · linear_combination b * b * o22 + hb
    · linear_combination b * c * o23
    · linear_combination a * c * o13
    · linear_combination b * c * o23
    · linear_combination c * c * o33 + hc

theorem fixSign0_kept (p : M3 ℝ × M3 ℝ) : SignKept p (fixSign0 p) := by
  unfold fixSign0
  split
  · refine ⟨?_, ?_, ?_, ?_⟩
    · apply M3.ext <;> apply V3.ext <;> simp only [M3.mul, M3.transpose, M3.mulVec, V3.dot, V3.neg] <;> ring
    · rintro ⟨h1, h2, h3⟩; exact ⟨by simp [h1], by simp [h2], h3⟩
    · intro h
      have := orth_neg_rows h (a := -1) (b := 1) (c := 1) (by norm_num) (by norm_num) (by norm_num)
      simpa [V3.smul, V3.neg] using this
    · simp only [M3.det, V3.dot, V3.cross, V3.neg]; ring
  · exact SignKept.refl p

theorem fixSign1_kept (p : M3 ℝ × M3 ℝ) : SignKept p (fixSign1 p) := by
  unfold fixSign1
  split
  · refine ⟨?_, ?_, ?_, ?_⟩
    · apply M3.ext <;> apply V3.ext <;> simp only [M3.mul, M3.transpose, M3.mulVec, V3.dot, V3.neg] <;> ring
    · rintro ⟨h1, h2, h3⟩; exact ⟨h1, h2, by simp [h3]⟩
    · intro h
      have := orth_neg_rows h (a := 1) (b := -1) (c := 1) (by norm_num) (by norm_num) (by norm_num)
      simpa [V3.smul, V3.neg] using this
    · simp only [M3.det, V3.dot, V3.cross, V3.neg]; ring
  · exact SignKept.refl p

theorem fixSign2_kept (p : M3 ℝ × M3 ℝ) : SignKept p (fixSign2 p) := by
  unfold fixSign2
  split
  · refine ⟨?_, ?_, ?_, ?_⟩
    · apply M3.ext <;> apply V3.ext <;> simp only [M3.mul, M3.transpose, M3.mulVec, V3.dot, V3.neg] <;> ring
    · rintro ⟨h1, h2, h3⟩; exact ⟨h1, h2, h3⟩
    · intro h
      have := orth_neg_rows h (a := 1) (b := 1) (c := -1) (by norm_num) (by norm_num) (by norm_num)
      simpa [V3.smul, V3.neg] using this
    · simp only [M3.det, V3.dot, V3.cross, V3.neg]; ring
  · exact SignKept.refl p

/-- The loop makes the diagonal positive. -/
theorem fix_diagonal (p : M3 ℝ × M3 ℝ) (h1 : p.1.r1.x ≠ 0) (h2 : p.1.r2.y ≠ 0) (h3 : p.1.r3.z ≠ 0) :
    0 < (fixSign2 (fixSign1 (fixSign0 p))).1.r1.x ∧ 0 < (fixSign2 (fixSign1 (fixSign0 p))).1.r2.y ∧
      0 < (fixSign2 (fixSign1 (fixSign0 p))).1.r3.z := by
  have a0 : 0 < (fixSign0 p).1.r1.x ∧ (fixSign0 p).1.r2.y = p.1.r2.y ∧ (fixSign0 p).1.r3.z = p.1.r3.z := by
    unfold fixSign0
    split
    · rename_i h; exact ⟨by simpa using h, rfl, rfl⟩
    · rename_i h; exact ⟨lt_of_le_of_ne (not_lt.1 h) h1.symm, rfl, rfl⟩
  have a1 : ∀ q : M3 ℝ × M3 ℝ, q.1.r2.y ≠ 0 → 0 < (fixSign1 q).1.r2.y ∧ (fixSign1 q).1.r1.x = q.1.r1.x ∧
      (fixSign1 q).1.r3.z = q.1.r3.z := by
    intro q hq
    unfold fixSign1
    split
    · rename_i h; exact ⟨by simpa using h, rfl, rfl⟩
    · rename_i h; exact ⟨lt_of_le_of_ne (not_lt.1 h) hq.symm, rfl, rfl⟩
  have a2 : ∀ q : M3 ℝ × M3 ℝ, q.1.r3.z ≠ 0 → 0 < (fixSign2 q).1.r3.z ∧ (fixSign2 q).1.r1.x = q.1.r1.x ∧
      (fixSign2 q).1.r2.y = q.1.r2.y := by
    intro q hq
    unfold fixSign2
    split
    · rename_i h; exact ⟨by simpa using h, rfl, rfl⟩
    · rename_i h; exact ⟨lt_of_le_of_ne (not_lt.1 h) hq.symm, rfl, rfl⟩
  have b1 := a1 (fixSign0 p) (by rw [a0.2.1]; exact h2)
  have b2 := a2 (fixSign1 (fixSign0 p)) (by rw [b1.2.2, a0.2.2]; exact h3)
  exact ⟨by rw [b2.2.1, b1.2.1]; exact a0.1, by rw [b2.2.2]; exact b1.1, b2.1⟩

theorem solveUpper_spec {K : M3 ℝ} (hK : CalibrationMatrix K) (b : V3 ℝ) : K.mulVec (solveUpper K b) = b := by
  obtain ⟨⟨h1, h2, h3⟩, p1, p2, p3⟩ := hK
  have n1 := p1.ne'
  have n2 := p2.ne'
  have n3 := p3.ne'
  apply V3.ext <;> simp only [solveUpper, M3.mulVec, V3.dot, h1, h2, h3] <;> field_simp <;> ring

/-- A calibration matrix times a vector determines the vector. -/
theorem calibration_injective {K : M3 ℝ} (hK : CalibrationMatrix K) {a b : V3 ℝ} (h : K.mulVec a = K.mulVec b) : a = b := by
  obtain ⟨⟨h1, h2, h3⟩, p1, p2, p3⟩ := hK
  simp only [M3.mulVec, V3.dot, h1, h2, h3, V3.mk.injEq, zero_mul, zero_add] at h
  obtain ⟨e1, e2, e3⟩ := h
  have ez : a.z = b.z := mul_left_cancel₀ p3.ne' e3
  rw [ez] at e2 e1
  have ey : a.y = b.y := mul_left_cancel₀ p2.ne' (by linarith)
  rw [ey] at e1
  exact V3.ext (mul_left_cancel₀ p1.ne' (by linarith)) ey ez

/-- The factors of `K R` are unique. -/
theorem factors_unique {K1 K2 R1 R2 : M3 ℝ} (h1 : CalibrationMatrix K1) (h2 : CalibrationMatrix K2) (r1 : R1.IsRotation)
    (r2 : R2.IsRotation) (h : K1.mul R1 = K2.mul R2) : K1 = K2 ∧ R1 = R2 := by
  have hKK : K1.mul K1.transpose = K2.mul K2.transpose := by
    have e : ∀ {K R : M3 ℝ}, R.IsRotation → (K.mul R).mul (K.mul R).transpose = K.mul K.transpose := by
      intro K R hR
      rw [M3.transpose_mul, M3.mul_assoc, ← M3.mul_assoc R, hR.right, M3.one_mul]
    rw [← e (K := K1) r1, ← e (K := K2) r2, h]
  have hK : K1 = K2 := by
    obtain ⟨⟨u1, u2, u3⟩, p1, p2, p3⟩ := h1
    obtain ⟨⟨v1, v2, v3⟩, q1, q2, q3⟩ := h2
    simp only [M3.mul, M3.transpose, M3.mulVec, V3.dot, M3.mk.injEq, V3.mk.injEq, u1, u2, u3, v1, v2, v3] at hKK
    obtain ⟨⟨a11, a12, a13⟩, ⟨-, a22, a23⟩, -, -, a33⟩ := hKK
    have e33 : K1.r3.z = K2.r3.z := (mul_self_inj p3.le q3.le).1 (by linarith)
    have e23 : K1.r2.z = K2.r2.z := mul_right_cancel₀ q3.ne' (by rw [← e33]; rw [e33]; linarith [e33 ▸ a23])
    have e13 : K1.r1.z = K2.r1.z := mul_right_cancel₀ q3.ne' (by linarith [e33 ▸ a13])
    have e22 : K1.r2.y = K2.r2.y := (mul_self_inj p2.le q2.le).1 (by rw [e23] at a22; linarith)
    have e12 : K1.r1.y = K2.r1.y := mul_right_cancel₀ q2.ne' (by rw [e22, e23, e13] at a12; linarith)
    have e11 : K1.r1.x = K2.r1.x := (mul_self_inj p1.le q1.le).1 (by rw [e12, e13] at a11; linarith)
    apply M3.ext <;> apply V3.ext
    exacts [e11, e12, e13, u1.trans v1.symm, e22, e23, u2.trans v2.symm, u3.trans v3.symm, e33]
  refine ⟨hK, eq_of_mulVec fun v => calibration_injective h2 ?_⟩
  have := congrArg (fun m : M3 ℝ => m.mulVec v) h
  simp only [M3.mulVec_mul] at this
  rw [← this, hK]

/-- The decomposition. -/
theorem decompose_spec {qr svd : M3 ℝ → M3 ℝ × M3 ℝ} {ofM : M3 ℝ → V3 ℝ} {P : P34}
    (hqr : IsQr (reverseColumns P.1.transpose) (qr (reverseColumns P.1.transpose)).1 (qr (reverseColumns P.1.transpose)).2)
    (hsvd : IsSvd (rq qr P.1).2 (svd (rq qr P.1).2).1 (svd (rq qr P.1).2).2) (hd : P.1.det ≠ 0) :
    ∃ K R c, decompose qr svd ofM P = some (K, ofM R, c) ∧ CalibrationMatrix K ∧ R.IsRotation ∧
      SameCamera P.1 P.2 (if 0 < P.1.det then 1 else -1) K R c := by
  obtain ⟨hprod, hup, hrot⟩ := rq_spec hqr
  have hq := projectToRotation_of_rotation hsvd hrot
  have hdet : P.1.det = (rq qr P.1).1.det := by
    rw [← congrArg M3.det hprod, M3.det_mul, hrot.det, mul_one]
  unfold decompose
  simp only
  rw [hq, ← hdet, if_neg hd]
  -- the scaled triangular factor
  obtain ⟨σ, hσ, hσe, hσd, hscale⟩ : ∃ σ : ℝ, σ * σ = 1 ∧ σ = (if 0 < P.1.det then 1 else -1) ∧ 0 < σ * P.1.det ∧
      (if 0 < P.1.det then (rq qr P.1).1 else scale (-1) (rq qr P.1).1) = scale σ (rq qr P.1).1 := by
    by_cases hp : 0 < P.1.det
    · refine ⟨1, by norm_num, by rw [if_pos hp], by linarith, ?_⟩
      rw [if_pos hp]; apply M3.ext <;> apply V3.ext <;> simp [scale, V3.smul]
    · refine ⟨-1, by norm_num, by rw [if_neg hp], ?_, by rw [if_neg hp]⟩
      have := lt_of_le_of_ne (not_lt.1 hp) hd
      linarith
  rw [hscale]
  have hkept := ((fixSign0_kept (scale σ (rq qr P.1).1, (rq qr P.1).2)).trans (fixSign1_kept _)).trans (fixSign2_kept _)
  have hd0 := hd
  rw [hdet, upper_det hup] at hd0
  have hσ0 : σ ≠ 0 := by rintro rfl; norm_num at hσ
  have hdiag := fix_diagonal (scale σ (rq qr P.1).1, (rq qr P.1).2)
    (by simp only [scale, V3.smul]; exact mul_ne_zero hσ0 (fun h => hd0 (by rw [h]; ring)))
    (by simp only [scale, V3.smul]; exact mul_ne_zero hσ0 (fun h => hd0 (by rw [h]; ring)))
    (by simp only [scale, V3.smul]; exact mul_ne_zero hσ0 (fun h => hd0 (by rw [h]; ring)))
  generalize fixSign2 (fixSign1 (fixSign0 (scale σ (rq qr P.1).1, (rq qr P.1).2))) = fixed at hkept hdiag ⊢
  have hupper : UpperTriangular fixed.1 := hkept.upper ⟨by simp [scale, V3.smul, hup.1], by simp [scale, V3.smul, hup.2.1],
    by simp [scale, V3.smul, hup.2.2]⟩
  have hK : CalibrationMatrix fixed.1 := ⟨hupper, hdiag⟩
  have hR : fixed.2.IsRotation := by
    obtain ⟨o1, o2⟩ := hkept.orth (isOrthogonal_of_isRotation hrot)
    refine ⟨o1, o2, ?_⟩
    have hsq := det_sq ⟨o1, o2⟩
    have hpos : 0 < fixed.1.det := by
      rw [upper_det hupper]; exact mul_pos (mul_pos hdiag.1 hdiag.2.1) hdiag.2.2
    have he : fixed.1.det * fixed.2.det = σ * P.1.det := by
      rw [hkept.det, hrot.det, mul_one, hdet]
      simp only [scale, M3.det, V3.dot, V3.cross, V3.smul]
      have : σ * σ * σ = σ := by rw [hσ, one_mul]
      linear_combination ((rq qr P.1).1.r1.x * ((rq qr P.1).1.r2.y * (rq qr P.1).1.r3.z - (rq qr P.1).1.r2.z * (rq qr P.1).1.r3.y)
        + (rq qr P.1).1.r1.y * ((rq qr P.1).1.r2.z * (rq qr P.1).1.r3.x - (rq qr P.1).1.r2.x * (rq qr P.1).1.r3.z)
        + (rq qr P.1).1.r1.z * ((rq qr P.1).1.r2.x * (rq qr P.1).1.r3.y - (rq qr P.1).1.r2.y * (rq qr P.1).1.r3.x)) * this
    have hp2 : 0 < fixed.2.det := by
      by_contra hle
      have := mul_nonneg hpos.le (neg_nonneg.2 (not_lt.1 hle))
      linarith
    nlinarith
  have hM : ∀ X, P.1.mulVec X = (fixed.1.mulVec (fixed.2.mulVec X)).smul σ := by
    intro X
    have h1 := congrArg (fun m : M3 ℝ => m.mulVec X) hkept.prod
    simp only [M3.mulVec_mul] at h1
    have h2 : (scale σ (rq qr P.1).1).mulVec ((rq qr P.1).2.mulVec X) = (P.1.mulVec X).smul σ := by
      rw [← congrArg (fun m : M3 ℝ => m.mulVec X) hprod, M3.mulVec_mul]
      apply V3.ext <;> simp only [scale, M3.mulVec, V3.dot, V3.smul] <;> ring
    rw [h1, h2, V3.smul_smul, hσ, V3.one_smul']
  refine ⟨fixed.1, fixed.2, _, rfl, hK, hR, fun X w => ?_⟩
  rw [← hσe, hM]
  have hc : (if 0 < P.1.det then (fixed.2.transpose.mulVec (solveUpper fixed.1 P.2)).neg
      else fixed.2.transpose.mulVec (solveUpper fixed.1 P.2)) =
      (fixed.2.transpose.mulVec (solveUpper fixed.1 P.2)).smul (-σ) := by
    by_cases hp : 0 < P.1.det
    · rw [hσe, if_pos hp, if_pos hp]; apply V3.ext <;> simp [V3.neg, V3.smul]
    · rw [hσe, if_neg hp, if_neg hp]; apply V3.ext <;> simp [V3.smul]
  rw [hc, M3.mulVec_sub, M3.mulVec_smul, M3.mulVec_smul, hR.mulVec_transpose, M3.mulVec_sub, M3.mulVec_smul, M3.mulVec_smul,
    solveUpper_spec hK]
  have hσw : ∀ x : ℝ, σ * (σ * x) = x := by intro x; rw [← mul_assoc, hσ, one_mul]
  apply V3.ext <;> simp only [V3.add, V3.sub, V3.smul]
  · linear_combination (-(w * P.2.x)) * hσ
  · linear_combination (-(w * P.2.y)) * hσ
  · linear_combination (-(w * P.2.z)) * hσ

end ProjectionMatrix
end Theia
