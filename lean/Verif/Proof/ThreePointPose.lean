import Verif.Model.ThreePointPose
import Verif.Spec.ThreePointPose
import Verif.Proof.TwoPointPose
import Verif.Proof.Svd
import Verif.Props.ProjectionMatrix
import Verif.Spec.Polynomial

/-!
# Proofs about the pose from three points
-/

namespace Theia
namespace ThreePointPose

open Spec AngleAxis ProjectionMatrix
open TwoPointPose (normalized normalized_smul)

section
variable {f1 f2 p1 p2 d b c s cosA sinA : ℝ}

/-- The polynomial is what remains of the two equations for the third point without the angle alpha. -/
theorem eval_coefficients : (poly (coefficients f1 f2 p1 p2 d b)).eval c =
    (1 - c ^ 2) * p2 ^ 2 * ((f1 * p1 + (c * p2 - d * b) * f2) ^ 2 + (c * p2 * f1 - (p1 - d) * f2) ^ 2) -
      ((p1 - d) * p1 + (c * p2 - d * b) * (c * p2)) ^ 2 := by
  simp [poly, coefficients]
  ring

/-- The two equations for the third point: what they mean for the angle alpha. -/
theorem of_equations (h1 : cosA * (p1 - d) + sinA * (c * p2 - d * b) = f1 * s * p2)
    (h2 : -cosA * c * p2 + sinA * p1 = -f2 * s * p2) :
    cosA * ((p1 - d) * p1 + (c * p2 - d * b) * (c * p2)) = s * p2 * (f1 * p1 + (c * p2 - d * b) * f2) ∧
      sinA * ((p1 - d) * p1 + (c * p2 - d * b) * (c * p2)) = s * p2 * (c * p2 * f1 - (p1 - d) * f2) := by
  constructor
  · linear_combination p1 * h1 - (c * p2 - d * b) * h2
  · linear_combination c * p2 * h1 + (p1 - d) * h2

theorem root_of_equations (hs : s ^ 2 = 1 - c ^ 2) (ha : cosA ^ 2 + sinA ^ 2 = 1)
    (h1 : cosA * (p1 - d) + sinA * (c * p2 - d * b) = f1 * s * p2) (h2 : -cosA * c * p2 + sinA * p1 = -f2 * s * p2) :
    (poly (coefficients f1 f2 p1 p2 d b)).eval c = 0 := by
  obtain ⟨e1, e2⟩ := of_equations h1 h2
  rw [eval_coefficients, ← hs]
  generalize (p1 - d) * p1 + (c * p2 - d * b) * (c * p2) = delta at *
  generalize f1 * p1 + (c * p2 - d * b) * f2 = n at *
  generalize c * p2 * f1 - (p1 - d) * f2 = m at *
  linear_combination (-(cosA * delta) - s * p2 * n) * e1 + (-(sinA * delta) - s * p2 * m) * e2 + delta ^ 2 * ha

theorem num_eq (hf : f2 ≠ 0) : -f1 * p1 / f2 - c * p2 + d * b = -(f1 * p1 + (c * p2 - d * b) * f2) / f2 := by
  field_simp
  ring

theorem den_eq (hf : f2 ≠ 0) : -f1 * c * p2 / f2 + p1 - d = -(c * p2 * f1 - (p1 - d) * f2) / f2 := by
  field_simp
  ring

/-- The angle is found again. -/
theorem alpha_of_equations (hf : f2 ≠ 0) (hs : s ≠ 0) (hp : p2 ≠ 0) (ha : cosA ^ 2 + sinA ^ 2 = 1) (hpos : 0 < sinA)
    (hdelta : (p1 - d) * p1 + (c * p2 - d * b) * (c * p2) ≠ 0)
    (h1 : cosA * (p1 - d) + sinA * (c * p2 - d * b) = f1 * s * p2) (h2 : -cosA * c * p2 + sinA * p1 = -f2 * s * p2) :
    alpha f1 f2 p1 p2 d b c = some (sinA, cosA) := by
  obtain ⟨e1, e2⟩ := of_equations h1 h2
  unfold alpha
  rw [if_neg hf]
  simp only
  rw [num_eq hf, den_eq hf]
  generalize (p1 - d) * p1 + (c * p2 - d * b) * (c * p2) = delta at *
  generalize f1 * p1 + (c * p2 - d * b) * f2 = n at *
  generalize c * p2 * f1 - (p1 - d) * f2 = m at *
  have hm : m ≠ 0 := by
    intro hm
    rw [hm, mul_zero] at e2
    exact (mul_eq_zero.1 e2).elim hpos.ne' hdelta
  have hcot : -n / f2 / (-m / f2) = cosA / sinA := by
    have h3 : n * sinA = m * cosA := by
      have : s * p2 * (n * sinA) = s * p2 * (m * cosA) := by linear_combination (-sinA) * e1 + cosA * e2
      exact mul_left_cancel₀ (mul_ne_zero hs hp) this
    have hs' := hpos.ne'
    field_simp
    linear_combination h3
  rw [if_neg (div_ne_zero (neg_ne_zero.2 hm) hf), hcot]
  have hsin : Real.sqrt (1 / (cosA / sinA * (cosA / sinA) + 1)) = sinA := by
    have : 1 / (cosA / sinA * (cosA / sinA) + 1) = sinA ^ 2 := by
      have hs' := hpos.ne'
      have : cosA / sinA * (cosA / sinA) + 1 = 1 / sinA ^ 2 := by
        field_simp
        linarith
      rw [this, one_div_one_div]
    rw [this, Real.sqrt_sq hpos.le]
  rw [hsin]
  have hcos : Real.sqrt (1 - sinA * sinA) = |cosA| := by
    rw [show 1 - sinA * sinA = cosA ^ 2 by linear_combination -ha, Real.sqrt_sq_eq_abs]
  rw [hcos]
  congr 2
  split
  · next h => rw [abs_of_neg ((div_neg_iff.1 h).elim (fun h => absurd h.2 (not_lt.2 hpos.le)) (fun h => h.1)), neg_neg]
  · next h => rw [abs_of_nonneg]
              by_contra hc
              exact h (div_neg_of_neg_of_pos (not_le.1 hc) hpos)

/-- What the angle satisfies. -/
theorem alpha_some (h : alpha f1 f2 p1 p2 d b c = some (sinA, cosA)) :
    0 ≤ sinA ∧ cosA ^ 2 + sinA ^ 2 = 1 ∧
      cosA * (c * p2 * f1 - (p1 - d) * f2) = sinA * (f1 * p1 + (c * p2 - d * b) * f2) ∧
      (f1 * p1 + (c * p2 - d * b) * f2 ≠ 0 ∨ c * p2 * f1 - (p1 - d) * f2 ≠ 0) := by
  unfold alpha at h
  split at h
  · cases h
  next hf =>
    simp only at h
    rw [num_eq hf, den_eq hf] at h
    generalize f1 * p1 + (c * p2 - d * b) * f2 = n at *
    generalize c * p2 * f1 - (p1 - d) * f2 = m at *
    have hz : ∀ {x : ℝ}, -x / f2 = 0 ↔ x = 0 := by
      intro x
      rw [div_eq_zero_iff, neg_eq_zero]
      exact ⟨fun h => h.resolve_right hf, Or.inl⟩
    split at h
    · next hm =>
      have hm := hz.1 hm
      split at h
      · cases h
      next hn =>
        have hn := fun h => hn (hz.2 h)
        cases h
        refine ⟨le_refl _, ?_, by rw [hm]; ring, Or.inl hn⟩
        split <;> norm_num
    next hm =>
      have hm : m ≠ 0 := fun h => hm (hz.2 h)
      cases h
      generalize hc : -n / f2 / (-m / f2) = cot
      have hcn : cot * m = n := by
        rw [← hc]
        field_simp
      have hpos : 0 < cot * cot + 1 := by nlinarith [mul_self_nonneg cot]
      have hs2 : Real.sqrt (1 / (cot * cot + 1)) ^ 2 = 1 / (cot * cot + 1) := Real.sq_sqrt (by positivity)
      have hs0 : 0 < Real.sqrt (1 / (cot * cot + 1)) := Real.sqrt_pos.2 (by positivity)
      generalize Real.sqrt (1 / (cot * cot + 1)) = sinA at *
      have hone : 1 - sinA * sinA = (cot * sinA) ^ 2 := by
        have : (cot * cot + 1) * sinA ^ 2 = 1 := by rw [hs2]; field_simp
        linear_combination -this
      have hcos : (if cot < 0 then -Real.sqrt (1 - sinA * sinA) else Real.sqrt (1 - sinA * sinA)) = cot * sinA := by
        rw [hone, Real.sqrt_sq_eq_abs, abs_mul, abs_of_pos hs0]
        split
        · next h => rw [abs_of_neg h]; ring
        · next h => rw [abs_of_nonneg (not_lt.1 h)]
      rw [hcos]
      refine ⟨hs0.le, by linear_combination -hone, by rw [← hcn]; ring, Or.inr hm⟩

/-- Back to the two equations, up to a sign, from a root of the polynomial. -/
theorem equations_of_root (h : alpha f1 f2 p1 p2 d b c = some (sinA, cosA)) (hs : s ^ 2 = 1 - c ^ 2)
    (hr : (poly (coefficients f1 f2 p1 p2 d b)).eval c = 0) : s = 0 ∨ p2 = 0 ∨
      ∃ e : ℝ, (e = 1 ∨ e = -1) ∧ cosA * (p1 - d) + sinA * (c * p2 - d * b) = e * (f1 * s * p2) ∧
        -cosA * c * p2 + sinA * p1 = -(e * (f2 * s * p2)) := by
  by_cases hs0 : s = 0
  · exact Or.inl hs0
  by_cases hp0 : p2 = 0
  · exact Or.inr (Or.inl hp0)
  refine Or.inr (Or.inr ?_)
  obtain ⟨-, h1, h2, h3⟩ := alpha_some h
  rw [eval_coefficients, ← hs] at hr
  have g1 : (p1 - d) * (f1 * p1 + (c * p2 - d * b) * f2) + (c * p2 - d * b) * (c * p2 * f1 - (p1 - d) * f2) =
      f1 * ((p1 - d) * p1 + (c * p2 - d * b) * (c * p2)) := by ring
  have g2 : -c * p2 * (f1 * p1 + (c * p2 - d * b) * f2) + p1 * (c * p2 * f1 - (p1 - d) * f2) =
      -f2 * ((p1 - d) * p1 + (c * p2 - d * b) * (c * p2)) := by ring
  generalize (p1 - d) * p1 + (c * p2 - d * b) * (c * p2) = delta at *
  generalize c * p2 - d * b = B at *
  generalize f1 * p1 + B * f2 = n at *
  generalize c * p2 * f1 - (p1 - d) * f2 = m at *
  -- `(n, m)` is a multiple of `(cosA, sinA)`
  obtain ⟨k, hk⟩ : ∃ k, k = cosA * n + sinA * m := ⟨_, rfl⟩
  have hn : n = k * cosA := by rw [hk]; linear_combination (-n) * h1 - sinA * h2
  have hm : m = k * sinA := by rw [hk]; linear_combination (-m) * h1 + cosA * h2
  have hk0 : k ≠ 0 := by
    intro h0
    rw [h0, zero_mul] at hn hm
    exact h3.elim (fun h => h hn) (fun h => h hm)
  have hd : (delta - s * p2 * k) * (delta + s * p2 * k) = 0 := by
    rw [hn, hm] at hr
    linear_combination -hr + s ^ 2 * p2 ^ 2 * k ^ 2 * h1
  have hsp : s * p2 * k ≠ 0 := mul_ne_zero (mul_ne_zero hs0 hp0) hk0
  have key : ∀ e : ℝ, e * e = 1 → delta = e * (s * p2 * k) → cosA * (p1 - d) + sinA * B = e * (f1 * s * p2) ∧
      -cosA * c * p2 + sinA * p1 = -(e * (f2 * s * p2)) := by
    intro e _ he
    constructor
    · apply mul_left_cancel₀ hk0
      rw [hn, hm, he] at g1
      linear_combination g1
    · apply mul_left_cancel₀ hk0
      rw [hn, hm, he] at g2
      linear_combination g2
  rcases mul_eq_zero.1 hd with h0 | h0
  · exact ⟨1, Or.inl rfl, key 1 (by norm_num) (by linear_combination h0)⟩
  · exact ⟨-1, Or.inr rfl, key (-1) (by norm_num) (by linear_combination h0)⟩

end

/-! ## The frames -/

theorem frame_spec {a b : V3 ℝ} (ha : a.dot a = 1) (hab : a.cross b ≠ V3.zero) :
    ∃ σ : ℝ, 0 < σ ∧ σ * σ = (a.cross b).dot (a.cross b) ∧ (frame a b).IsRotation ∧ (frame a b).mulVec a = ⟨1, 0, 0⟩ ∧
      (frame a b).mulVec b = ⟨a.dot b, σ, 0⟩ ∧ ∀ v, ((frame a b).mulVec v).x = v.dot a ∧
        σ * ((frame a b).mulVec v).y = v.dot b - a.dot b * v.dot a ∧ σ * ((frame a b).mulVec v).z = v.dot (a.cross b) := by
  obtain ⟨k, hk, hz, hn⟩ := normalized_smul hab
  have hw : (a.cross b).dot (a.cross b) = b.dot b - a.dot b * a.dot b := by rw [V3.cross_self_dot, ha, one_mul]
  have hkw : k * (k * (a.cross b).dot (a.cross b)) = 1 := by rw [← mul_assoc, hn]
  have hx : ∀ v : V3 ℝ, (((a.cross b).smul k).cross a).dot v = k * (v.dot b - a.dot b * v.dot a) := by
    intro v
    simp only [V3.dot] at ha
    simp only [V3.dot, V3.cross, V3.smul]
    linear_combination k * (b.x * v.x + b.y * v.y + b.z * v.z) * ha
  have hzz : ((a.cross b).smul k).dot ((a.cross b).smul k) = 1 := by
    rw [← hn]
    simp only [V3.dot, V3.smul]
    ring
  have haz : a.dot ((a.cross b).smul k) = 0 := by
    simp only [V3.dot, V3.smul, V3.cross]
    ring
  generalize hzd : (a.cross b).smul k = z at *
  have hrot : (⟨a, z.cross a, z⟩ : M3 ℝ).IsRotation := by
    have h := isRotation_of_rows (u := a) (w := z.cross a) ha ?_ ?_
    · have e : a.cross (z.cross a) = z := by
        simp only [V3.dot] at ha haz
        apply V3.ext <;> simp only [V3.cross]
        · linear_combination z.x * ha - a.x * haz
        · linear_combination z.y * ha - a.y * haz
        · linear_combination z.z * ha - a.z * haz
      rw [e] at h
      exact h
    · rw [V3.cross_self_dot, hzz, ha, V3.dot_comm z a, haz]
      norm_num
    · simp only [V3.dot, V3.cross]
      ring
  have hfr : frame a b = ⟨a, z.cross a, z⟩ := by
    unfold frame
    rw [hz]
  have hmul : ∀ v, (frame a b).mulVec v = ⟨v.dot a, k * (v.dot b - a.dot b * v.dot a), k * v.dot (a.cross b)⟩ := by
    intro v
    rw [hfr]
    apply V3.ext
    · exact V3.dot_comm _ _
    · exact hx v
    · show z.dot v = _
      rw [← hzd]
      simp only [V3.dot, V3.smul]
      ring
  have hab0 : a.dot (a.cross b) = 0 := by simp only [V3.dot, V3.cross]; ring
  have hbb0 : b.dot (a.cross b) = 0 := by simp only [V3.dot, V3.cross]; ring
  refine ⟨k * (a.cross b).dot (a.cross b), mul_pos hk (V3.self_pos hab), by linear_combination (a.cross b).dot (a.cross b) * hkw,
    by rw [hfr]; exact hrot, ?_, ?_, fun v => ⟨by rw [hmul], ?_, ?_⟩⟩
  · rw [hmul, ha, hab0]
    apply V3.ext <;> simp
  · rw [hmul, hbb0, V3.dot_comm b a, hw]
    apply V3.ext <;> simp
  · rw [hmul]
    simp only
    linear_combination (v.dot b - a.dot b * v.dot a) * hkw
  · rw [hmul]
    simp only
    linear_combination (v.dot (a.cross b)) * hkw

theorem cotBeta_eq {c σ : ℝ} (hσ : 0 < σ) (h : σ * σ = 1 - c * c) : cotBeta c = c / σ := by
  have e : 1 / (1 - c * c) - 1 = (c / σ) ^ 2 := by
    rw [← h]
    field_simp
    linear_combination -h
  unfold cotBeta
  rw [e, Real.sqrt_sq_eq_abs, abs_div, abs_of_pos hσ]
  split
  · next h => rw [abs_of_neg h]; ring
  · next h => rw [abs_of_nonneg (not_lt.1 h)]

theorem isRotation_turn {cosT sinT cosA sinA : ℝ} (ht : cosT ^ 2 + sinT ^ 2 = 1) (ha : cosA ^ 2 + sinA ^ 2 = 1) :
    (turn cosT sinT cosA sinA).IsRotation := by
  have h := isRotation_of_rows (u := ⟨-cosA, -sinA * cosT, -sinA * sinT⟩) (w := ⟨sinA, -cosA * cosT, -cosA * sinT⟩) ?_ ?_ ?_
  · have e : (⟨⟨-cosA, -sinA * cosT, -sinA * sinT⟩, ⟨sinA, -cosA * cosT, -cosA * sinT⟩,
        V3.cross ⟨-cosA, -sinA * cosT, -sinA * sinT⟩ ⟨sinA, -cosA * cosT, -cosA * sinT⟩⟩ : M3 ℝ) = turn cosT sinT cosA sinA := by
      unfold turn
      congr 1
      apply V3.ext <;> simp only [V3.cross]
      · ring
      · linear_combination (-sinT) * ha
      · linear_combination cosT * ha
    rw [e] at h
    exact h
  · simp only [V3.dot]
    linear_combination ha + sinA ^ 2 * ht
  · simp only [V3.dot]
    linear_combination ha + cosA ^ 2 * ht
  · simp only [V3.dot]
    linear_combination sinA * cosA * ht

/-- A rotation with a zero in the corner. -/
theorem rotation_shape {q : M3 ℝ} (h : q.IsRotation) (h0 : q.r3.x = 0) :
    q = turn q.r3.z (-q.r3.y) (-q.r1.x) q.r2.x ∧ q.r3.z ^ 2 + (-q.r3.y) ^ 2 = 1 ∧ (-q.r1.x) ^ 2 + q.r2.x ^ 2 = 1 := by
  have hr : ∀ a b : V3 ℝ, q.transpose.mulVec (a.cross b) = (q.transpose.mulVec a).cross (q.transpose.mulVec b) :=
    mulVec_cross h.transpose
  have e1 := hr ⟨0, 1, 0⟩ ⟨0, 0, 1⟩
  have e2 := hr ⟨0, 0, 1⟩ ⟨1, 0, 0⟩
  simp only [M3.mulVec, M3.transpose, V3.dot, V3.cross, V3.mk.injEq, mul_zero, mul_one, zero_add, add_zero, sub_zero] at e1 e2
  have hl := congrArg (fun m => m.r1.x) h.left
  have h3 := congrArg (fun m => m.r3.z) h.right
  simp only [M3.mul, M3.mulVec, M3.transpose, M3.one, V3.dot] at hl h3
  rw [h0] at e1 e2 hl h3
  refine ⟨?_, by linear_combination h3, by linear_combination hl⟩
  unfold turn
  apply M3.ext <;> apply V3.ext <;> simp only
  · ring
  · linear_combination e1.2.1
  · linear_combination e1.2.2
  · linear_combination e2.2.1
  · linear_combination e2.2.2
  · exact h0
  · ring

/-! ## The pose -/

/-- The world frame. -/
theorem world_spec {v w : V3 ℝ} (h : v.cross w ≠ V3.zero) : 0 < Real.sqrt (v.dot v) ∧ (frame (normalized v) w).IsRotation ∧
    (frame (normalized v) w).mulVec v = ⟨Real.sqrt (v.dot v), 0, 0⟩ ∧ ∃ p1 p2, 0 < p2 ∧
      (frame (normalized v) w).mulVec w = ⟨p1, p2, 0⟩ := by
  have hv : v ≠ V3.zero := by
    rintro rfl
    exact h (by apply V3.ext <;> simp [V3.cross, V3.zero])
  have hp := Real.sqrt_pos.2 (V3.self_pos hv)
  have hsq := Real.mul_self_sqrt (V3.self_pos hv).le
  have he : normalized v = v.smul (Real.sqrt (v.dot v))⁻¹ := by
    unfold normalized
    rw [if_neg (V3.self_pos hv).ne']
  generalize hd : Real.sqrt (v.dot v) = d at *
  have hu : (normalized v).dot (normalized v) = 1 := by
    rw [he]
    have : (v.smul d⁻¹).dot (v.smul d⁻¹) = d⁻¹ * d⁻¹ * v.dot v := by simp only [V3.dot, V3.smul]; ring
    rw [this, ← hsq]
    field_simp
  have hc : (normalized v).cross w ≠ V3.zero := by
    rw [he]
    intro h0
    apply h
    have : (v.smul d⁻¹).cross w = (v.cross w).smul d⁻¹ := by
      apply V3.ext <;> simp only [V3.cross, V3.smul] <;> ring
    rw [this] at h0
    exact V3.eq_zero_of_smul (inv_ne_zero hp.ne') h0
  obtain ⟨σ, hσ, -, hrot, h1, h2, -⟩ := frame_spec hu hc
  refine ⟨hp, hrot, ?_, _, _, hσ, h2⟩
  have : v = (normalized v).smul d := by
    rw [he, V3.smul_smul, mul_inv_cancel₀ hp.ne', V3.one_smul']
  refine (congrArg _ this).trans ?_
  rw [M3.mulVec_smul, h1]
  apply V3.ext <;> simp [V3.smul]

/-- A point in the camera frame. -/
theorem pose_image {F N Q : M3 ℝ} (hF : F.IsRotation) (hN : N.IsRotation) (x0 c X : V3 ℝ) :
    F.mulVec (((((N.transpose.mul Q.transpose).mul F).transpose).mulVec X).add
      ((((N.transpose.mul Q.transpose).mul F).transpose).mulVec (x0.add (N.transpose.mulVec c))).neg) =
      Q.mulVec ((N.mulVec (X.sub x0)).sub c) := by
  have e : ((N.transpose.mul Q.transpose).mul F).transpose = F.transpose.mul (Q.mul N) := by
    rw [M3.transpose_mul, M3.transpose_mul, M3.transpose_transpose, M3.transpose_transpose]
  have h1 : ∀ a b : V3 ℝ, a.add b.neg = a.sub b := by
    intro a b
    apply V3.ext <;> simp only [V3.add, V3.neg, V3.sub] <;> ring
  rw [e, h1, ← M3.mulVec_sub, M3.mulVec_mul, hF.mulVec_transpose, M3.mulVec_mul]
  congr 1
  have h2 : X.sub (x0.add (N.transpose.mulVec c)) = (X.sub x0).sub (N.transpose.mulVec c) := by
    apply V3.ext <;> simp only [V3.add, V3.sub] <;> ring
  rw [h2, M3.mulVec_sub, hN.mulVec_transpose]

theorem rotation_injective {F : M3 ℝ} (hF : F.IsRotation) {a b : V3 ℝ} (h : F.mulVec a = F.mulVec b) : a = b := by
  rw [← hF.transpose_mulVec a, h, hF.transpose_mulVec]

section
variable {r0 r1 r2 x0 x1 x2 : V3 ℝ}

/-- The circle through the camera and two points, in coordinates. -/
theorem foot_on_circle {σ k l0 l1 X Y m : ℝ} (h0 : r0.dot r0 = 1) (h1 : r1.dot r1 = 1) (hk : r0.dot r1 = k) (hσ : σ ≠ 0)
    (hσk : σ * σ = 1 - k * k) (hl0 : l0 ≠ 0) (hl1 : l1 ≠ 0) (hm : 2 * m * σ = l1 - l0 * k) {x : V3 ℝ} (hx0 : x.dot r0 = X)
    (hx1 : x.dot r1 = X * k + Y * σ) (hc : X * X + Y * Y = l0 * X + 2 * m * Y) : FootOnCircle (r0.smul l0) (r1.smul l1) x := by
  -- the point with coordinates `u` and `v`
  obtain ⟨P, hP⟩ : ∃ P : ℝ → ℝ → V3 ℝ, P = fun u v => (r0.smul (u - v * k / σ)).add (r1.smul (v / σ)) := ⟨_, rfl⟩
  have hdot0 : ∀ u v, (P u v).dot r0 = u := by
    intro u v
    have : (P u v).dot r0 = (u - v * k / σ) * r0.dot r0 + (v / σ) * r0.dot r1 := by
      rw [hP]; simp only [V3.dot, V3.add, V3.smul]; ring
    rw [this, h0, hk]
    field_simp
    ring
  have hdot1 : ∀ u v, (P u v).dot r1 = u * k + v * σ := by
    intro u v
    have : (P u v).dot r1 = (u - v * k / σ) * r0.dot r1 + (v / σ) * r1.dot r1 := by
      rw [hP]; simp only [V3.dot, V3.add, V3.smul]; ring
    rw [this, h1, hk]
    field_simp
    linear_combination (-v) * hσk
  have hdot : ∀ u v u' v', (P u v).dot (P u' v') = u * u' + v * v' := by
    intro u v u' v'
    have : (P u v).dot (P u' v') = (u' - v' * k / σ) * (P u v).dot r0 + (v' / σ) * (P u v).dot r1 := by
      conv_lhs => rw [hP]
      conv_rhs => rw [hP]
      simp only [V3.dot, V3.add, V3.smul]; ring
    rw [this, hdot0, hdot1]
    field_simp
    ring
  have hsub : ∀ a b : V3 ℝ, (a.sub b).dot (a.sub b) = a.dot a - 2 * a.dot b + b.dot b := by
    intro a b
    simp only [V3.dot, V3.sub]
    ring
  have ha : r0.smul l0 = P l0 0 := by
    rw [hP]
    apply V3.ext <;> simp only [V3.smul, V3.add] <;> ring
  have hb : r1.smul l1 = P (l1 * k) (l1 * σ) := by
    rw [hP]
    have e1 : l1 * k - l1 * σ * k / σ = 0 := by field_simp; ring
    have e2 : l1 * σ / σ = l1 := by field_simp
    simp only [e1, e2]
    apply V3.ext <;> simp only [V3.smul, V3.add] <;> ring
  have comb : ∀ u v, P u v = ((r0.smul l0).smul ((u - v * k / σ) / l0)).add ((r1.smul l1).smul (v / σ / l1)) := by
    intro u v
    rw [hP, V3.smul_smul, V3.smul_smul, div_mul_cancel₀ _ hl0, div_mul_cancel₀ _ hl1]
  refine ⟨(l0 / 2 - m * k / σ) / l0, m / σ / l1, (X - Y * k / σ) / l0, Y / σ / l1, ?_⟩
  simp only
  rw [← comb, ← comb]
  refine ⟨?_, ?_, ?_, ?_, ?_⟩
  · rw [ha, hsub, hdot, hdot, hdot]
    ring
  · rw [hb, hsub, hdot, hdot, hdot]
    linear_combination l1 ^ 2 * hσk - l1 * hm
  · rw [hsub, hdot, hdot, hdot]
    linear_combination hc
  · have : (x.sub (P X Y)).dot (r0.smul l0) = l0 * (x.dot r0 - (P X Y).dot r0) := by
      simp only [V3.dot, V3.sub, V3.smul]; ring
    rw [this, hx0, hdot0]
    ring
  · have : (x.sub (P X Y)).dot (r1.smul l1) = l1 * (x.dot r1 - (P X Y).dot r1) := by
      simp only [V3.dot, V3.sub, V3.smul]; ring
    rw [this, hx1, hdot1]
    ring

/-- What `core` works with. -/
structure Setup (r0 r1 r2 x0 x1 x2 : V3 ℝ) : Prop where
  unit0 : r0.dot r0 = 1
  unit1 : r1.dot r1 = 1
  rays : r0.cross r1 ≠ V3.zero
  points : (x1.sub x0).cross (x2.sub x0) ≠ V3.zero
  front : ((frame r0 r1).mulVec r2).z < 0

/-- The pose for one root, if it has no `NaN` in it. -/
noncomputable def poseFor (r0 r1 r2 x0 x1 x2 : V3 ℝ) (c : ℝ) : Option (M3 ℝ × V3 ℝ) :=
  let image := (frame r0 r1).mulVec r2
  let world := frame (normalized (x1.sub x0)) (x2.sub x0)
  backsubstitute world (frame r0 r1) x0 (image.x / image.z) (image.y / image.z) (world.mulVec (x2.sub x0)).x
    (world.mulVec (x2.sub x0)).y (Real.sqrt ((x1.sub x0).dot (x1.sub x0))) (cotBeta (r0.dot r1)) c

/-- The polynomial. -/
noncomputable def polynomial (r0 r1 r2 x0 x1 x2 : V3 ℝ) : List ℝ :=
  let image := (frame r0 r1).mulVec r2
  let world := frame (normalized (x1.sub x0)) (x2.sub x0)
  coefficients (image.x / image.z) (image.y / image.z) (world.mulVec (x2.sub x0)).x
    (world.mulVec (x2.sub x0)).y (Real.sqrt ((x1.sub x0).dot (x1.sub x0))) (cotBeta (r0.dot r1))

theorem core_eq {find : List ℝ → Option (List ℝ)} (h : ((frame r0 r1).mulVec r2).z ≠ 0) :
    core find r0 r1 r2 x0 x1 x2 = match find (polynomial r0 r1 r2 x0 x1 x2) with
      | none => .ok []
      | some cs => .ok (cs.map (poseFor r0 r1 r2 x0 x1 x2)) := by
  unfold core
  simp only
  rw [if_neg h]
  rfl

theorem add_cancel {a b c : V3 ℝ} (h : a.add b = a.add c) : b = c := by
  have hx := congrArg V3.x h
  have hy := congrArg V3.y h
  have hz := congrArg V3.z h
  simp only [V3.add] at hx hy hz
  apply V3.ext <;> linarith

theorem sub_self' (a : V3 ℝ) : a.sub a = V3.zero := by
  apply V3.ext <;> simp [V3.sub, V3.zero]

/-- Every pose is found, except in special positions. -/
theorem poseFor_complete (hs : Setup r0 r1 r2 x0 x1 x2) (hang : ¬ RightAngleAt r0 r1 r2) {R : M3 ℝ} (hR : R.IsRotation) {t : V3 ℝ}
    {l0 l1 l2 : ℝ} (hl0 : 0 < l0) (hl1 : 0 < l1) (hl2 : 0 < l2) (h0 : (R.mulVec x0).add t = r0.smul l0)
    (h1 : (R.mulVec x1).add t = r1.smul l1) (h2 : (R.mulVec x2).add t = r2.smul l2)
    (hcirc : ¬ FootOnCircle (r0.smul l0) (r1.smul l1) (r2.smul l2)) :
    ∃ c, (poly (polynomial r0 r1 r2 x0 x1 x2)).eval c = 0 ∧ poseFor r0 r1 r2 x0 x1 x2 c = some (R, t) := by
  obtain ⟨u0, u1, hrays, hpoints, hfront⟩ := hs
  obtain ⟨σ, hσ, hσσ, hF, hF0, hF1, hFv⟩ := frame_spec u0 hrays
  obtain ⟨hd, hN, hN1, p1, p2, hp2, hN2⟩ := world_spec hpoints
  rw [V3.cross_self_dot, u0, u1, one_mul] at hσσ
  have hb := cotBeta_eq hσ hσσ
  have hy : σ * ((frame r0 r1).mulVec r2).y ≠ 0 := by
    rw [(hFv r2).2.1]
    intro h
    apply hang
    unfold RightAngleAt
    have : (r0.cross r1).dot (r0.cross r2) = r0.dot r0 * r2.dot r1 - r0.dot r1 * r2.dot r0 := by
      simp only [V3.dot, V3.cross]; ring
    rw [this, u0, one_mul]
    exact h
  have hx2 := (hFv r2).1
  unfold polynomial poseFor
  simp only [hN2, hb]
  have hy' : ((frame r0 r1).mulVec r2).y ≠ 0 := fun h => hy (by rw [h, mul_zero])
  obtain ⟨fx, hfx⟩ : ∃ fx, fx = ((frame r0 r1).mulVec r2).x := ⟨_, rfl⟩
  obtain ⟨fy, hfy⟩ : ∃ fy, fy = ((frame r0 r1).mulVec r2).y := ⟨_, rfl⟩
  obtain ⟨fz, hfz⟩ : ∃ fz, fz = ((frame r0 r1).mulVec r2).z := ⟨_, rfl⟩
  have hF2 : (frame r0 r1).mulVec r2 = ⟨fx, fy, fz⟩ := by rw [hfx, hfy, hfz]
  rw [hF2] at hfront hy'
  rw [hF2]
  have hrow2 := (hFv r2)
  rw [hF2] at hrow2
  simp only at hfront hy' hrow2 ⊢
  clear hfx hfy hfz
  generalize frame r0 r1 = F at *
  generalize frame (normalized (x1.sub x0)) (x2.sub x0) = N at *
  generalize Real.sqrt ((x1.sub x0).dot (x1.sub x0)) = d at *
  generalize hk : r0.dot r1 = k at *
  -- the turn and the camera in the frames
  have hQ : ((F.mul R).mul N.transpose).IsRotation := (hF.mul hR).mul hN.transpose
  obtain ⟨Q, hQd⟩ : ∃ Q, Q = (F.mul R).mul N.transpose := ⟨_, rfl⟩
  rw [← hQd] at hQ
  have hQN : ∀ v, Q.mulVec (N.mulVec v) = F.mulVec (R.mulVec v) := by
    intro v
    rw [hQd, M3.mulVec_mul, hN.transpose_mulVec, M3.mulVec_mul]
  have hdiff : ∀ {a b y z : V3 ℝ}, (R.mulVec a).add t = y → (R.mulVec b).add t = z → R.mulVec (a.sub b) = y.sub z := by
    intro a b y z ha hb
    rw [← ha, ← hb, M3.mulVec_sub]
    apply V3.ext <;> simp only [V3.add, V3.sub] <;> ring
  have e1 := hQN (x1.sub x0)
  rw [hN1, hdiff h1 h0, M3.mulVec_sub, M3.mulVec_smul, M3.mulVec_smul, hF0, hF1] at e1
  have e2 := hQN (x2.sub x0)
  rw [hN2, hdiff h2 h0, M3.mulVec_sub, M3.mulVec_smul, M3.mulVec_smul, hF0, hF2] at e2
  simp only [M3.mulVec, V3.dot, V3.sub, V3.smul, V3.mk.injEq, mul_zero, add_zero, mul_one, sub_zero] at e1 e2
  have h31 : Q.r3.x = 0 := (mul_eq_zero.1 e1.2.2).resolve_right hd.ne'
  obtain ⟨hshape, hT, hA⟩ := rotation_shape hQ h31
  obtain ⟨cosT, hcT⟩ : ∃ x, x = Q.r3.z := ⟨_, rfl⟩
  obtain ⟨sinT, hsT⟩ : ∃ x, x = -Q.r3.y := ⟨_, rfl⟩
  obtain ⟨cosA, hcA⟩ : ∃ x, x = -Q.r1.x := ⟨_, rfl⟩
  obtain ⟨sinA, hsA⟩ : ∃ x, x = Q.r2.x := ⟨_, rfl⟩
  rw [← hcT, ← hsT, ← hcA, ← hsA] at hshape
  rw [← hcT, ← hsT] at hT
  rw [← hcA, ← hsA] at hA
  clear hcT hsT hcA hsA
  subst hshape
  simp only [turn] at e1 e2
  obtain ⟨e11, e12, -⟩ := e1
  obtain ⟨e21, e22, e23⟩ := e2
  have hσ0 := hσ.ne'
  have hsA : 0 < sinA := by
    have : sinA * d = l1 * σ := e12
    exact (mul_pos_iff_of_pos_right hd).1 (by rw [this]; positivity)
  have hsT : 0 < sinT := by
    have : sinT * p2 = l2 * (-fz) := by linear_combination (-1 : ℝ) * e23
    exact (mul_pos_iff_of_pos_right hp2).1 (by rw [this]; exact mul_pos hl2 (neg_pos.2 hfront))
  have hl0e : l0 = d * (sinA * (k / σ) + cosA) := by
    field_simp
    linear_combination σ * e11 - k * e12
  have hfz := hfront.ne
  have eq1 : cosA * (p1 - d) + sinA * (cosT * p2 - d * (k / σ)) = fx / fz * sinT * p2 := by
    have : fx / fz * sinT * p2 = -(l2 * fx) := by
      field_simp
      linear_combination (-fx) * e23
    rw [this]
    linear_combination -e21 + hl0e
  have eq2 : -cosA * cosT * p2 + sinA * p1 = -(fy / fz) * sinT * p2 := by
    have : -(fy / fz) * sinT * p2 = l2 * fy := by
      field_simp
      linear_combination e23
    rw [this]
    linear_combination e22
  have hsin : Real.sqrt (1 - cosT * cosT) = sinT := by
    rw [show 1 - cosT * cosT = sinT ^ 2 by linear_combination -hT, Real.sqrt_sq hsT.le]
  have hdelta : (p1 - d) * p1 + (cosT * p2 - d * (k / σ)) * (cosT * p2) ≠ 0 := by
    intro hz
    apply hcirc
    refine foot_on_circle (X := l2 * fx) (Y := l2 * fy) (m := (d * sinA - d * cosA * (k / σ)) / 2) (σ := σ) u0 u1 hk hσ0 hσσ hl0.ne'
      hl1.ne' ?_ ?_ ?_ ?_
    · have hl1e : l1 = d * sinA / σ := by
        field_simp
        linear_combination -e12
      rw [hl0e, hl1e]
      field_simp
      linear_combination sinA * hσσ
    · have : (r2.smul l2).dot r0 = l2 * r2.dot r0 := by simp only [V3.dot, V3.smul]; ring
      rw [this, ← hrow2.1]
    · have : (r2.smul l2).dot r1 = l2 * r2.dot r1 := by simp only [V3.dot, V3.smul]; ring
      rw [this]
      linear_combination (-l2) * hrow2.2.1 - l2 * k * hrow2.1
    · have ex : l2 * fx = l0 - (cosA * p1 + sinA * cosT * p2) := by linear_combination -e21
      have ey : l2 * fy = sinA * p1 - cosA * cosT * p2 := by linear_combination -e22
      rw [ex, ey, hl0e]
      linear_combination hz + (p1 * p1 + cosT * cosT * p2 * p2 - d * (p1 + k / σ * cosT * p2)) * hA
  refine ⟨cosT, root_of_equations (by linear_combination hT) hA eq1 eq2, ?_⟩
  unfold backsubstitute
  rw [if_neg (not_lt.2 (by nlinarith [mul_self_nonneg sinT])),
    alpha_of_equations (div_ne_zero hy' hfz) hsT.ne' hp2.ne' hA hsA hdelta eq1 eq2]
  simp only
  rw [hsin]
  have hRot : ((N.transpose.mul (turn cosT sinT cosA sinA).transpose).mul F).transpose = R := by
    rw [M3.transpose_mul, M3.transpose_mul, M3.transpose_transpose, M3.transpose_transpose, hQd, M3.mul_assoc, hN.left,
      M3.mul_one, ← M3.mul_assoc, hF.left, M3.one_mul]
  have himg := pose_image (Q := turn cosT sinT cosA sinA) hF hN x0 (center d (k / σ) cosT sinT cosA sinA) x0
  rw [hRot] at himg ⊢
  rw [sub_self', show N.mulVec V3.zero = V3.zero by apply V3.ext <;> simp [M3.mulVec, V3.dot, V3.zero]] at himg
  have himg' : (turn cosT sinT cosA sinA).mulVec (V3.zero.sub (center d (k / σ) cosT sinT cosA sinA)) = F.mulVec (r0.smul l0) := by
    rw [M3.mulVec_smul, hF0, hl0e]
    apply V3.ext <;> simp only [turn, center, M3.mulVec, V3.dot, V3.sub, V3.zero, V3.smul]
    · linear_combination d * (sinA * (k / σ) + cosA) * (hA + sinA ^ 2 * hT)
    · linear_combination d * (sinA * (k / σ) + cosA) * sinA * cosA * hT
    · ring
  rw [himg'] at himg
  have := rotation_injective hF himg
  rw [← h0] at this
  rw [add_cancel this]

/-- What a pose without `NaN` does to the points. -/
theorem poseFor_sound (hs : Setup r0 r1 r2 x0 x1 x2) {c : ℝ} {R : M3 ℝ} {t : V3 ℝ}
    (h : poseFor r0 r1 r2 x0 x1 x2 c = some (R, t)) : R.IsRotation ∧ (∃ l0 : ℝ, (R.mulVec x0).add t = r0.smul l0) ∧
      (∃ l1 : ℝ, 0 ≤ l1 ∧ (R.mulVec x1).add t = r1.smul l1) ∧
      ((poly (polynomial r0 r1 r2 x0 x1 x2)).eval c = 0 →
        (∃ l : ℝ, 0 < l ∧ (R.mulVec x2).add t = r2.smul l) ∨
        (∃ l : ℝ, l < 0 ∧ (R.mulVec x2).add t = (mirror (r0.cross r1) r2).smul l) ∨
        ((R.mulVec x2).add t).dot (r0.cross r1) = 0) := by
  obtain ⟨u0, u1, hrays, hpoints, hfront⟩ := hs
  obtain ⟨σ, hσ, hσσ, hF, hF0, hF1, hFv⟩ := frame_spec u0 hrays
  obtain ⟨hd, hN, hN1, p1, p2, hp2, hN2⟩ := world_spec hpoints
  have hnn := hσσ
  rw [V3.cross_self_dot, u0, u1, one_mul] at hσσ
  have hb := cotBeta_eq hσ hσσ
  unfold poseFor at h
  unfold polynomial
  simp only [hN2, hb] at h ⊢
  obtain ⟨fx, hfx⟩ : ∃ fx, fx = ((frame r0 r1).mulVec r2).x := ⟨_, rfl⟩
  obtain ⟨fy, hfy⟩ : ∃ fy, fy = ((frame r0 r1).mulVec r2).y := ⟨_, rfl⟩
  obtain ⟨fz, hfz⟩ : ∃ fz, fz = ((frame r0 r1).mulVec r2).z := ⟨_, rfl⟩
  have hF2 : (frame r0 r1).mulVec r2 = ⟨fx, fy, fz⟩ := by rw [hfx, hfy, hfz]
  rw [hF2] at hfront h ⊢
  have hrow2 := (hFv r2)
  rw [hF2] at hrow2
  simp only at hfront h hrow2 ⊢
  clear hfx hfy hfz
  generalize frame r0 r1 = F at *
  generalize frame (normalized (x1.sub x0)) (x2.sub x0) = N at *
  generalize Real.sqrt ((x1.sub x0).dot (x1.sub x0)) = d at *
  generalize hk : r0.dot r1 = k at *
  have hfz := hfront.ne
  have hσ0 := hσ.ne'
  unfold backsubstitute at h
  split at h
  · cases h
  next hc =>
  split at h
  · cases h
  next sinA cosA hal =>
  simp only [Option.some.injEq, Prod.mk.injEq] at h
  obtain ⟨hR, ht⟩ := h
  obtain ⟨hsA, hA, -⟩ := alpha_some hal
  have hT : c ^ 2 + Real.sqrt (1 - c * c) ^ 2 = 1 := by
    rw [Real.sq_sqrt (not_lt.1 hc)]
    ring
  have hsT := Real.sqrt_nonneg (1 - c * c)
  generalize Real.sqrt (1 - c * c) = sinT at *
  have hQ := isRotation_turn hT hA
  have himg := fun X => pose_image (Q := turn c sinT cosA sinA) hF hN x0 (center d (k / σ) c sinT cosA sinA) X
  simp only [ht] at himg
  rw [hR] at himg
  refine ⟨?_, ⟨d * (sinA * (k / σ) + cosA), ?_⟩, ⟨d * sinA / σ, by positivity, ?_⟩, fun hroot => ?_⟩
  · rw [← hR]
    exact ((hN.transpose.mul hQ.transpose).mul hF).transpose
  · apply rotation_injective hF
    rw [himg, sub_self', show N.mulVec V3.zero = V3.zero by apply V3.ext <;> simp [M3.mulVec, V3.dot, V3.zero], M3.mulVec_smul, hF0]
    apply V3.ext <;> simp only [turn, center, M3.mulVec, V3.dot, V3.sub, V3.zero, V3.smul]
    · linear_combination d * (sinA * (k / σ) + cosA) * (hA + sinA ^ 2 * hT)
    · linear_combination d * (sinA * (k / σ) + cosA) * sinA * cosA * hT
    · ring
  · apply rotation_injective hF
    rw [himg, hN1, M3.mulVec_smul, hF1]
    apply V3.ext <;> simp only [turn, center, M3.mulVec, V3.dot, V3.sub, V3.smul]
    · linear_combination d * (sinA * (k / σ) + cosA) * (hA + sinA ^ 2 * hT)
    · rw [div_mul_cancel₀ _ hσ0]
      linear_combination d * (sinA * (k / σ) + cosA) * sinA * cosA * hT
    · ring
  · have himg2 : F.mulVec ((R.mulVec x2).add t) = ⟨-(cosA * (p1 - d) + sinA * (c * p2 - d * (k / σ))),
        -cosA * c * p2 + sinA * p1, -(sinT * p2)⟩ := by
      rw [himg, hN2]
      apply V3.ext <;> simp only [turn, center, M3.mulVec, V3.dot, V3.sub]
      · linear_combination d * (sinA * (k / σ) + cosA) * (hA + sinA ^ 2 * hT)
      · linear_combination d * (sinA * (k / σ) + cosA) * sinA * cosA * hT
      · ring
    rcases equations_of_root hal (s := sinT) (by linear_combination hT) hroot with h0 | h0 | ⟨e, he, q1, q2⟩
    · right; right
      rw [← (hFv _).2.2, himg2, h0]
      ring
    · exact absurd h0 hp2.ne'
    · rw [q1, q2] at himg2
      rcases eq_or_lt_of_le hsT with h0 | hsT
      · right; right
        rw [← (hFv _).2.2, himg2, ← h0]
        ring
      have hpos : 0 < sinT * p2 / -fz := div_pos (mul_pos hsT hp2) (neg_pos.2 hfront)
      rcases he with rfl | rfl
      · left
        refine ⟨sinT * p2 / -fz, hpos, ?_⟩
        apply rotation_injective hF
        rw [himg2, M3.mulVec_smul, hF2]
        apply V3.ext <;> simp only [V3.smul] <;> field_simp
      · right; left
        refine ⟨-(sinT * p2 / -fz), by linarith, ?_⟩
        apply rotation_injective hF
        have hn : F.mulVec (r0.cross r1) = ⟨0, 0, σ⟩ := by
          obtain ⟨a1, a2, a3⟩ := hFv (r0.cross r1)
          have z0 : (r0.cross r1).dot r0 = 0 := by simp only [V3.dot, V3.cross]; ring
          have z1 : (r0.cross r1).dot r1 = 0 := by simp only [V3.dot, V3.cross]; ring
          rw [z0] at a1 a2
          rw [z1] at a2
          rw [← hnn] at a3
          apply V3.ext
          · exact a1
          · exact (mul_eq_zero.1 (a2.trans (by ring))).resolve_left hσ0
          · exact mul_left_cancel₀ hσ0 a3
        have hm : F.mulVec (mirror (r0.cross r1) r2) = ⟨fx, fy, -fz⟩ := by
          unfold mirror
          rw [M3.mulVec_sub, M3.mulVec_smul, hn, hF2, ← hnn, ← hrow2.2.2]
          apply V3.ext <;> simp only [V3.smul, V3.sub] <;> field_simp <;> ring
        rw [himg2, M3.mulVec_smul, hm]
        apply V3.ext <;> simp only [V3.smul] <;> field_simp

end

end ThreePointPose
end Theia
