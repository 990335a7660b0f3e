import Mathlib.Tactic.FieldSimp
import Mathlib.Tactic.Positivity
import Mathlib.Tactic.Linarith
import Mathlib.Tactic.FinCases
import Mathlib.Data.Matrix.Block
import Mathlib.LinearAlgebra.Matrix.Charpoly.Eigs
import Mathlib.Analysis.Complex.Polynomial.Basic
import Verif.Spec.PartialRotation
import Verif.Proof.LinearSolvers

/-!
# Lemmas for poses with a known axis
-/

namespace Theia
namespace PartialRotation

open Spec LinearSolvers

/-! ### Rotations -/

/-- The rotation of a quaternion that need not have length one, times the square of its length. -/
noncomputable def homog (w : ℝ) (v p : V3 ℝ) : V3 ℝ :=
  ((p.smul (w * w - v.dot v)).add ((v.cross p).smul (2 * w))).add (v.smul (2 * v.dot p))

theorem turn_eq {q : Quaternion} (h : q.w * q.w + q.v.dot q.v = 1) (p : V3 ℝ) : turn q p = homog q.w q.v p := by
  obtain ⟨w, v⟩ := q
  have h' : w * w - v.dot v = 1 - 2 * v.dot v := by simp only at h; linarith
  simp only [turn, homog]
  rw [h']
  ext <;> simp only [V3.add, V3.smul, V3.cross, V3.dot] <;> ring

theorem homog_cross (w : ℝ) (v a b : V3 ℝ) : (homog w v a).cross (homog w v b) = (homog w v (a.cross b)).smul (w * w + v.dot v) := by
  ext <;> simp only [homog, V3.add, V3.smul, V3.cross, V3.dot] <;> ring

theorem norm_pos {axis : V3 ℝ} (h : AxisOk axis) (w : ℝ) : 0 < w * w + axis.dot axis := by
  have h1 := (abs_le.1 h).1
  have : (0:ℝ) < 1 - 1 / 10 ^ 15 := by norm_num
  nlinarith [mul_self_nonneg w]

theorem axisOk_of_unit {axis : V3 ℝ} (h : axis.dot axis = 1) : AxisOk axis := by
  rw [AxisOk, h]; norm_num

theorem normalized_unit {axis : V3 ℝ} {w : ℝ} (h : 0 < w * w + axis.dot axis) :
    (normalized w axis).w * (normalized w axis).w + (normalized w axis).v.dot (normalized w axis).v = 1 := by
  have hs := Real.mul_self_sqrt h.le
  have h0 : Real.sqrt (w * w + axis.dot axis) ≠ 0 := (Real.sqrt_pos.2 h).ne'
  simp only [normalized]
  generalize Real.sqrt (w * w + axis.dot axis) = r at hs h0
  have e : w / r * (w / r) + (axis.smul r⁻¹).dot (axis.smul r⁻¹) = (w * w + axis.dot axis) / (r * r) := by
    simp only [V3.dot, V3.smul]
    field_simp
  rw [e, ← hs, div_self (mul_ne_zero h0 h0)]

theorem turnsAbout_normalized {axis : V3 ℝ} (h : AxisOk axis) (w : ℝ) : TurnsAbout axis (normalized w axis) :=
  ⟨normalized_unit (norm_pos h w), _, rfl⟩

theorem turnsAbout_none (axis : V3 ℝ) : TurnsAbout axis noRotation :=
  ⟨by norm_num [noRotation, V3.dot], 0, by simp [noRotation, V3.smul]⟩

/-- The rotation, as the code writes it. -/
theorem turn_normalized {axis : V3 ℝ} (h : axis.dot axis = 1) (w : ℝ) (p : V3 ℝ) :
    turn (normalized w axis) p = (homog w axis p).smul (w * w + 1)⁻¹ := by
  have hp : 0 < w * w + axis.dot axis := norm_pos (axisOk_of_unit h) w
  rw [turn_eq (normalized_unit hp)]
  have hs := Real.mul_self_sqrt hp.le
  have h0 : Real.sqrt (w * w + axis.dot axis) ≠ 0 := (Real.sqrt_pos.2 hp).ne'
  rw [h] at hs h0
  have e : ((Real.sqrt (w * w + 1))⁻¹) * ((Real.sqrt (w * w + 1))⁻¹) = (w * w + 1)⁻¹ := by rw [← mul_inv, hs]
  simp only [normalized, h]
  simp only [homog]
  generalize hc : (Real.sqrt (w * w + 1))⁻¹ = c at e
  rw [← e, div_eq_mul_inv, hc]
  ext <;> simp only [V3.add, V3.smul, V3.cross, V3.dot] <;> ring

theorem turn_none (p : V3 ℝ) : turn noRotation p = p := by
  ext <;> simp [turn, noRotation, V3.add, V3.smul, V3.cross]

/-! ### The quadratic eigenvalue problem -/

/-- The matrix of the constraints for the parameter `s` of the rotation. -/
noncomputable def quad {n : Nat} (M C K : Matrix (Fin n) (Fin n) ℝ) (s : ℝ) : Matrix (Fin n) (Fin n) ℝ := s ^ 2 • M + s • C + K

theorem constraint_mulVec {n : Nat} (M C K : Matrix (Fin n) (Fin n) ℝ) (x y : Fin n → ℝ) :
    (constraint M C K).mulVec (Sum.elim x y) = Sum.elim (-(M⁻¹.mulVec (C.mulVec x + K.mulVec y))) x := by
  rw [constraint, Matrix.fromBlocks_mulVec]
  simp only [Sum.elim_comp_inl, Sum.elim_comp_inr, Matrix.one_mulVec, Matrix.zero_mulVec, add_zero]
  congr 1
  rw [Matrix.mulVec_add, Matrix.mulVec_mulVec, Matrix.mulVec_mulVec]
  simp only [neg_smul, one_smul, Matrix.neg_mul, Matrix.neg_mulVec]
  abel

theorem quad_mulVec {n : Nat} (M C K : Matrix (Fin n) (Fin n) ℝ) (s : ℝ) (x : Fin n → ℝ) :
    (quad M C K s).mulVec x = s ^ 2 • M.mulVec x + s • C.mulVec x + K.mulVec x := by
  simp only [quad, Matrix.add_mulVec, Matrix.smul_mulVec]

/-- Complex solutions: `s = a + b i`, `z = x + y i`. -/
theorem eigen_of_quad {n : Nat} {M C K : Matrix (Fin n) (Fin n) ℝ} (hM : M.det ≠ 0) {a b : ℝ} {x y : Fin n → ℝ}
    (h1 : (a ^ 2 - b ^ 2) • M.mulVec x - (2 * a * b) • M.mulVec y + a • C.mulVec x - b • C.mulVec y + K.mulVec x = 0)
    (h2 : (a ^ 2 - b ^ 2) • M.mulVec y + (2 * a * b) • M.mulVec x + a • C.mulVec y + b • C.mulVec x + K.mulVec y = 0) :
    (constraint M C K).mulVec (Sum.elim (a • x - b • y) x) = a • Sum.elim (a • x - b • y) x - b • Sum.elim (a • y + b • x) y ∧
    (constraint M C K).mulVec (Sum.elim (a • y + b • x) y) = a • Sum.elim (a • y + b • x) y + b • Sum.elim (a • x - b • y) x := by
  have hinv : ∀ v, M⁻¹.mulVec (M.mulVec v) = v := fun v => by
    rw [Matrix.mulVec_mulVec, Matrix.nonsing_inv_mul _ (isUnit_iff_ne_zero.2 hM), Matrix.one_mulVec]
  have e1 : C.mulVec (a • x - b • y) + K.mulVec x = M.mulVec (-((a ^ 2 - b ^ 2) • x) + (2 * a * b) • y) := by
    simp only [Matrix.mulVec_sub, Matrix.mulVec_add, Matrix.mulVec_neg, Matrix.mulVec_smul]
    rw [← sub_eq_zero, ← h1]; abel
  have e2 : C.mulVec (a • y + b • x) + K.mulVec y = M.mulVec (-((a ^ 2 - b ^ 2) • y) - (2 * a * b) • x) := by
    simp only [Matrix.mulVec_sub, Matrix.mulVec_add, Matrix.mulVec_neg, Matrix.mulVec_smul]
    rw [← sub_eq_zero, ← h2]; abel
  constructor
  · rw [constraint_mulVec, e1, hinv]
    funext i
    cases i <;> simp only [Sum.elim_inl, Sum.elim_inr, Pi.sub_apply, Pi.add_apply, Pi.smul_apply, Pi.neg_apply, smul_eq_mul] <;> ring
  · rw [constraint_mulVec, e2, hinv]
    funext i
    cases i <;> simp only [Sum.elim_inl, Sum.elim_inr, Pi.sub_apply, Pi.add_apply, Pi.smul_apply, Pi.neg_apply, smul_eq_mul] <;> ring

/-- A complex solution is found. -/
theorem found_complex {n : Nat} {eigen : EigenPairs n} (he : EigenPairsOf eigen) {M C K : Matrix (Fin n) (Fin n) ℝ} (hM : M.det ≠ 0)
    {a b : ℝ} {x y : Fin n → ℝ} (hx : x ≠ 0 ∨ y ≠ 0)
    (h1 : (a ^ 2 - b ^ 2) • M.mulVec x - (2 * a * b) • M.mulVec y + a • C.mulVec x - b • C.mulVec y + K.mulVec x = 0)
    (h2 : (a ^ 2 - b ^ 2) • M.mulVec y + (2 * a * b) • M.mulVec x + a • C.mulVec y + b • C.mulVec x + K.mulVec y = 0) :
    ∃ p ∈ eigen (constraint M C K), p.re = a ∧ p.im = b := by
  obtain ⟨k1, k2⟩ := eigen_of_quad hM h1 h2
  refine he.all _ a b _ _ ?_ k1 k2
  refine hx.imp (fun h e => h ?_) (fun h e => h ?_) <;> funext i <;> exact congrFun e (Sum.inr i)

/-- A real solution is found. -/
theorem found {n : Nat} {eigen : EigenPairs n} (he : EigenPairsOf eigen) {M C K : Matrix (Fin n) (Fin n) ℝ} (hM : M.det ≠ 0)
    {s : ℝ} {x : Fin n → ℝ} (hx : x ≠ 0) (h : (quad M C K s).mulVec x = 0) :
    ∃ p ∈ eigen (constraint M C K), p.re = s ∧ p.im = 0 := by
  rw [quad_mulVec] at h
  refine found_complex he hM (x := x) (y := 0) (Or.inl hx) ?_ ?_
  · simpa using h
  · simp

/-- What a real eigenvalue gives. -/
theorem real_pair {n : Nat} {eigen : EigenPairs n} (he : EigenPairsOf eigen) {M C K : Matrix (Fin n) (Fin n) ℝ} (hM : M.det ≠ 0)
    {p : EigenPair n} (hp : p ∈ eigen (constraint M C K)) (h0 : p.im = 0) :
    (quad M C K p.re).mulVec p.tail = 0 ∧ (p.re ^ 2 + 1) * ∑ i, p.tail i ^ 2 = 1 := by
  have h := he.real _ p hp
  rw [h0, constraint_mulVec] at h
  have ht : p.top = p.re • p.tail := by
    funext i
    simpa using congrFun h (Sum.inr i)
  have h1 : -(M⁻¹.mulVec (C.mulVec p.top + K.mulVec p.tail)) = p.re • p.top := by
    funext i
    simpa using congrFun h (Sum.inl i)
  constructor
  · rw [quad_mulVec]
    have := congrArg M.mulVec h1
    rw [Matrix.mulVec_neg, Matrix.mulVec_mulVec, Matrix.mul_nonsing_inv _ (isUnit_iff_ne_zero.2 hM), Matrix.one_mulVec, ht] at this
    simp only [Matrix.mulVec_smul] at this
    rw [pow_two, mul_smul, add_assoc, ← this]
    abel
  · have hu := he.unit _ p hp
    obtain ⟨i1, i2⟩ := he.realVector _ p hp h0
    rw [i1, i2, ht] at hu
    simp only [Fintype.sum_sum_type, Sum.elim_inl, Sum.elim_inr, Pi.smul_apply, Pi.zero_apply, smul_eq_mul] at hu
    refine Eq.trans ?_ hu
    rw [add_mul, one_mul, Finset.mul_sum]
    refine congrArg₂ (· + ·) ?_ ?_
    · exact Finset.sum_congr rfl fun i _ => by ring
    · exact Finset.sum_congr rfl fun i _ => by ring

/-! ### The rows are the constraints -/

theorem directions_iff {axis : V3 ℝ} (h : axis.dot axis = 1) (s : ℝ) (t q1 q2 : V3 ℝ) :
    DirectionsInPlane (normalized s axis) t q1 q2 ↔ q2.dot (t.cross (homog s axis q1)) = 0 := by
  have h0 : (s * s + 1)⁻¹ ≠ 0 := inv_ne_zero (by nlinarith [mul_self_nonneg s])
  rw [DirectionsInPlane, turn_normalized h]
  have : q2.dot (t.cross ((homog s axis q1).smul (s * s + 1)⁻¹)) = (s * s + 1)⁻¹ * q2.dot (t.cross (homog s axis q1)) := by
    simp only [V3.dot, V3.cross, V3.smul]; ring
  rw [this, mul_eq_zero, or_iff_right h0]

theorem rays_iff {axis : V3 ℝ} (h : axis.dot axis = 1) (s : ℝ) (t : V3 ℝ) (k : ℝ) (r1 r2 : Ray) :
    RaysInPlane (normalized s axis) t k r1 r2 ↔
      k * r2.direction.dot (homog s axis r1.moment) + r2.direction.dot (t.cross (homog s axis r1.direction)) +
        (homog s axis r1.direction).dot r2.moment = 0 := by
  have hp : 0 < s * s + 1 := by nlinarith [mul_self_nonneg s]
  have h0 : (s * s + 1)⁻¹ ≠ 0 := inv_ne_zero hp.ne'
  rw [RaysInPlane, turn_normalized h, turn_normalized h]
  have hc := homog_cross s axis r1.origin r1.direction
  rw [h] at hc
  have e : r2.direction.dot (((homog s axis r1.direction).smul (s * s + 1)⁻¹).cross
      (((((homog s axis r1.origin).smul (s * s + 1)⁻¹).smul k).add t).sub r2.origin)) =
      -(s * s + 1)⁻¹ * ((s * s + 1)⁻¹ * k * r2.direction.dot ((homog s axis r1.origin).cross (homog s axis r1.direction)) +
        r2.direction.dot (t.cross (homog s axis r1.direction)) + (homog s axis r1.direction).dot r2.moment) := by
    simp only [V3.dot, V3.cross, V3.smul, V3.add, V3.sub, Ray.moment]; ring
  rw [e, hc, mul_eq_zero, or_iff_right (neg_ne_zero.2 h0)]
  have e2 : (s * s + 1)⁻¹ * k * r2.direction.dot ((homog s axis (r1.origin.cross r1.direction)).smul (s * s + 1)) =
      k * r2.direction.dot (homog s axis r1.moment) := by
    have : r2.direction.dot ((homog s axis (r1.origin.cross r1.direction)).smul (s * s + 1)) =
        (s * s + 1) * r2.direction.dot (homog s axis r1.moment) := by
      simp only [V3.dot, V3.smul, Ray.moment]; ring
    rw [this]; field_simp
  rw [e2]

theorem rays_of_meet {q : Quaternion} {t : V3 ℝ} {k : ℝ} {r1 r2 : Ray} (h : RaysMeet q t k r1 r2) : RaysInPlane q t k r1 r2 := by
  obtain ⟨a, b, h⟩ := h
  have e : turn q (r1.origin.add (r1.direction.smul a)) = (turn q r1.origin).add ((turn q r1.direction).smul a) := by
    ext <;> simp only [turn, V3.add, V3.smul, V3.cross] <;> ring
  rw [e] at h
  rw [RaysInPlane]
  generalize turn q r1.origin = o at h ⊢
  generalize turn q r1.direction = d at h ⊢
  have e2 : ((o.smul k).add t).sub r2.origin = (r2.direction.smul b).sub (d.smul (k * a)) := by
    rw [V3.ext_iff] at h ⊢
    simp only [V3.add, V3.smul, V3.sub] at h ⊢
    obtain ⟨h1, h2, h3⟩ := h
    refine ⟨?_, ?_, ?_⟩
    · linear_combination h1
    · linear_combination h2
    · linear_combination h3
  rw [e2]
  simp only [V3.dot, V3.cross, V3.smul, V3.sub]; ring

theorem quad3_iff {axis : V3 ℝ} (h : axis.dot axis = 1) (q1 q2 : Fin 3 → V3 ℝ) (s : ℝ) (x : Fin 3 → ℝ) :
    (quad (m3 q1 q2) (c3 axis q1 q2) (k3 axis q1 q2) s).mulVec x = 0 ↔
      ∀ i, DirectionsInPlane (normalized s axis) (vec3 (n := 0) x) (q1 i) (q2 i) := by
  rw [funext_iff]
  refine forall_congr' fun i => ?_
  rw [directions_iff h, ← neg_eq_zero, quad_mulVec]
  refine Eq.congr_left ?_
  rw [homog, h]
  simp only [Pi.add_apply, Pi.smul_apply, Matrix.mulVec, dotProduct, Fin.sum_univ_three, m3, c3, k3, head, vec3, V3.dot, V3.cross,
    V3.smul, V3.add, V3.sub, smul_eq_mul, Matrix.cons_val_zero, Matrix.cons_val_one, Matrix.cons_val, Fin.zero_eta, Fin.mk_one, Fin.reduceFinMk]
  ring

theorem quad4_iff {axis : V3 ℝ} (h : axis.dot axis = 1) (r1 r2 : Fin 4 → Ray) (s : ℝ) (t : V3 ℝ) :
    (quad (m4 r1 r2) (c4 axis r1 r2) (k4 axis r1 r2) s).mulVec (row4 t 1) = 0 ↔
      ∀ i, RaysInPlane (normalized s axis) t 1 (r1 i) (r2 i) := by
  rw [funext_iff]
  refine forall_congr' fun i => ?_
  rw [rays_iff h, quad_mulVec]
  refine Eq.congr_left ?_
  rw [homog, homog, h]
  simp only [Pi.add_apply, Pi.smul_apply, Matrix.mulVec, dotProduct, Fin.sum_univ_four, m4, c4, k4, row4, V3.dot, V3.cross,
    V3.smul, V3.add, V3.sub, V3.neg, smul_eq_mul, Matrix.cons_val_zero, Matrix.cons_val_one, Matrix.cons_val]
  ring

theorem quad5_iff {axis : V3 ℝ} (h : axis.dot axis = 1) (r1 r2 : Fin 5 → Ray) (s : ℝ) (t : V3 ℝ) (k : ℝ) :
    (quad (m5 r1 r2) (c5 axis r1 r2) (k5 axis r1 r2) s).mulVec (row5 t k 1) = 0 ↔
      ∀ i, RaysInPlane (normalized s axis) t k (r2 i) (r1 i) := by
  rw [funext_iff]
  refine forall_congr' fun i => ?_
  rw [rays_iff h, ← neg_eq_zero, quad_mulVec]
  refine Eq.congr_left ?_
  rw [homog, homog, h]
  simp only [Pi.add_apply, Pi.smul_apply, Matrix.mulVec, dotProduct, Fin.sum_univ_five, m5, c5, k5, simRow, row5, V3.dot, V3.cross,
    V3.smul, V3.add, V3.sub, V3.neg, Ray.moment, smul_eq_mul, Matrix.cons_val_zero, Matrix.cons_val_one, Matrix.cons_val]
  ring

/-- A rotation about the axis is one of those the code writes. -/
theorem parameter_of {axis : V3 ℝ} (h : axis.dot axis = 1) {q : Quaternion} (hq : TurnsAbout axis q) (h0 : q.v ≠ ⟨0, 0, 0⟩) :
    ∃ s, (s ^ 2 + 1) * q.v.dot q.v = 1 ∧ SameTurn (normalized s axis) q := by
  obtain ⟨w, v⟩ := q
  obtain ⟨hu, c, hc⟩ := hq
  simp only at hu hc h0
  subst hc
  have hc0 : c ≠ 0 := by rintro rfl; exact h0 (by simp [V3.smul])
  have hv : (axis.smul c).dot (axis.smul c) = c * c := by
    have : (axis.smul c).dot (axis.smul c) = c * c * axis.dot axis := by simp only [V3.dot, V3.smul]; ring
    rw [this, h, mul_one]
  have hwc : w * w + c * c = 1 := by rw [← hv]; exact hu
  refine ⟨w / c, ?_, fun p => ?_⟩
  · rw [hv]; field_simp; linarith
  · rw [turn_normalized h, turn_eq hu]
    have e : (w / c * (w / c) + 1)⁻¹ = c * c := by
      refine inv_eq_of_mul_eq_one_left ?_
      field_simp; linarith
    rw [e]
    simp only [homog, hv, h]
    ext <;> simp only [V3.add, V3.smul, V3.cross, V3.dot] <;> field_simp

theorem row4_vec (x : Fin 4 → ℝ) : row4 (vec3 (n := 1) x) (x 3) = x := by
  funext i; fin_cases i <;> rfl

theorem row5_vec (x : Fin 5 → ℝ) : row5 (vec3 (n := 2) x) (x 3) (x 4) = x := by
  funext i; fin_cases i <;> rfl

/-- With a unique translation, the null space is a line. -/
theorem line4 {A : Matrix (Fin 4) (Fin 4) ℝ} {t : V3 ℝ} (ht : A.mulVec (row4 t 1) = 0) (hu : ∀ t', A.mulVec (row4 t' 1) = 0 → t' = t)
    {x : Fin 4 → ℝ} (hx : A.mulVec x = 0) : vec3 (n := 1) x = t.smul (x 3) := by
  obtain ⟨u, w, rfl⟩ : ∃ u w, x = row4 u w := ⟨_, _, (row4_vec x).symm⟩
  change u = t.smul w
  have e : row4 ((t.add u).sub (t.smul w)) 1 = row4 t 1 + (row4 u w - w • row4 t 1) := by
    funext i; fin_cases i <;> simp [row4, V3.add, V3.sub, V3.smul] <;> ring
  have := hu ((t.add u).sub (t.smul w)) (by
    rw [e, Matrix.mulVec_add, Matrix.mulVec_sub, Matrix.mulVec_smul, ht, hx]; simp)
  rw [V3.ext_iff] at this ⊢
  simp only [V3.add, V3.sub, V3.smul] at this ⊢
  obtain ⟨h1, h2, h3⟩ := this
  exact ⟨by linarith, by linarith, by linarith⟩

/-- With a unique translation and scale, the null space is a line. -/
theorem line5 {A : Matrix (Fin 5) (Fin 5) ℝ} {t : V3 ℝ} {k : ℝ} (ht : A.mulVec (row5 t k 1) = 0)
    (hu : ∀ t' k', A.mulVec (row5 t' k' 1) = 0 → t' = t ∧ k' = k)
    {x : Fin 5 → ℝ} (hx : A.mulVec x = 0) : vec3 (n := 2) x = t.smul (x 4) ∧ x 3 = k * x 4 := by
  obtain ⟨u, l, w, rfl⟩ : ∃ u l w, x = row5 u l w := ⟨_, _, _, (row5_vec x).symm⟩
  change u = t.smul w ∧ l = k * w
  have e : row5 ((t.add u).sub (t.smul w)) (k + l - k * w) 1 = row5 t k 1 + (row5 u l w - w • row5 t k 1) := by
    funext i; fin_cases i <;> simp [row5, V3.add, V3.sub, V3.smul] <;> ring
  obtain ⟨h0, h4⟩ := hu ((t.add u).sub (t.smul w)) (k + l - k * w) (by
    rw [e, Matrix.mulVec_add, Matrix.mulVec_sub, Matrix.mulVec_smul, ht, hx]; simp)
  rw [V3.ext_iff] at h0 ⊢
  simp only [V3.add, V3.sub, V3.smul] at h0 ⊢
  obtain ⟨h1, h2, h3⟩ := h0
  exact ⟨⟨by linarith, by linarith, by linarith⟩, by linarith⟩

theorem mem_rows {n : Nat} {M : Matrix (Fin n) (Fin n) ℝ} {r : Fin n → ℝ} : r ∈ rows M ↔ ∃ i, M i = r := by
  rw [rows, List.mem_ofFn']; rfl

/-- The last singular vector of a singular matrix is in its null space. -/
theorem last_null {n : Nat} {last : List (Fin n → ℝ) → Fin n → ℝ} (hl : LastSingularVector last) {M : Matrix (Fin n) (Fin n) ℝ}
    (hM : M.det = 0) : M.mulVec (last (rows M)) = 0 ∧ ∑ i, last (rows M) i ^ 2 = 1 := by
  obtain ⟨h1, h2⟩ := hl (rows M)
  refine ⟨?_, h1⟩
  obtain ⟨v, hv, hMv⟩ := Matrix.exists_mulVec_eq_zero_iff.2 hM
  have hpos : 0 < ∑ i, v i ^ 2 := by
    obtain ⟨i, hi⟩ := Function.ne_iff.1 hv
    exact Finset.sum_pos' (fun i _ => sq_nonneg _) ⟨i, Finset.mem_univ _, by rw [← sq_abs]; exact pow_pos (abs_pos.2 hi) 2⟩
  have hs := Real.mul_self_sqrt hpos.le
  have hr : Real.sqrt (∑ i, v i ^ 2) ≠ 0 := (Real.sqrt_pos.2 hpos).ne'
  generalize Real.sqrt (∑ i, v i ^ 2) = r at hs hr
  have hmin := h2 (fun i => r⁻¹ * v i) (by
    simp only [mul_pow, ← Finset.mul_sum, ← hs]; field_simp)
  have hz : ((rows M).map fun r' => (∑ i, r' i * (r⁻¹ * v i)) ^ 2).sum = 0 := by
    refine List.sum_eq_zero fun y hy => ?_
    obtain ⟨row, hrow, rfl⟩ := List.mem_map.1 hy
    obtain ⟨i, rfl⟩ := mem_rows.1 hrow
    have e : ∑ j, M i j * (r⁻¹ * v j) = r⁻¹ * M.mulVec v i := by
      simp only [Matrix.mulVec, dotProduct, Finset.mul_sum]
      exact Finset.sum_congr rfl fun j _ => by ring
    rw [e, hMv]; simp
  rw [hz] at hmin
  funext i
  have hall : ∀ y ∈ ((rows M).map fun r' => (∑ j, r' j * last (rows M) j) ^ 2), 0 ≤ y := by
    intro y hy
    obtain ⟨row, -, rfl⟩ := List.mem_map.1 hy
    positivity
  have h0 := (List.single_le_sum hall ((∑ j, M i j * last (rows M) j) ^ 2)
    (List.mem_map.2 ⟨M i, mem_rows.2 ⟨i, rfl⟩, rfl⟩)).trans hmin
  exact pow_eq_zero_iff two_ne_zero |>.1 (le_antisymm h0 (sq_nonneg _))

theorem kept5_sub {n : Nat} (o : Option ℝ) (l : List (EigenPair n)) : ∀ p ∈ kept5 o l, p ∈ l ∧ |p.im| ≠ 1 := by
  induction l generalizing o with
  | nil => intro p hp; simp [kept5] at hp
  | cons a l ih =>
    intro p hp
    rw [kept5] at hp
    split at hp
    · exact ⟨List.mem_cons_of_mem _ (ih _ p hp).1, (ih _ p hp).2⟩
    · rename_i h
      rcases List.mem_cons.1 hp with rfl | hp
      · exact ⟨List.mem_cons_self, fun e => h (Or.inl e)⟩
      · exact ⟨List.mem_cons_of_mem _ (ih _ p hp).1, (ih _ p hp).2⟩

theorem kept5_first {n : Nat} {s : ℝ} (before : List (EigenPair n)) {p : EigenPair n} {after : List (EigenPair n)} (hre : p.re = s)
    (him : p.im = 0) (hb : ∀ p' ∈ before, p'.re ≠ s) (o : Option ℝ) (ho : o ≠ some s) : p ∈ kept5 o (before ++ p :: after) := by
  induction before generalizing o with
  | nil =>
    rw [List.nil_append, kept5, if_neg]
    · exact List.mem_cons_self
    · rintro (h | h)
      · rw [him] at h; norm_num at h
      · exact ho (by rw [h, hre])
  | cons a l ih =>
    rw [List.cons_append, kept5]
    have ha : some a.re ≠ some s := fun e => hb a List.mem_cons_self (Option.some.inj e)
    have := ih (fun p' hp' => hb p' (List.mem_cons_of_mem _ hp')) (some a.re) ha
    split
    · exact this
    · exact List.mem_cons_of_mem _ this

/-! ### Eigenpairs exist -/

theorem exists_pairs (n : Nat) : ∃ eigen : EigenPairs n, EigenPairsOf eigen := by
  classical
  have key : ∀ A : Matrix (Fin n ⊕ Fin n) (Fin n ⊕ Fin n) ℝ, ∃ l : List (EigenPair n), l.length = n + n ∧
      (∀ p ∈ l, A.mulVec (Sum.elim p.top p.tail) = p.re • Sum.elim p.top p.tail - p.im • Sum.elim p.topIm p.tailIm ∧
        A.mulVec (Sum.elim p.topIm p.tailIm) = p.re • Sum.elim p.topIm p.tailIm + p.im • Sum.elim p.top p.tail ∧
        ∑ i, (Sum.elim p.top p.tail i ^ 2 + Sum.elim p.topIm p.tailIm i ^ 2) = 1 ∧ (p.im = 0 → p.topIm = 0 ∧ p.tailIm = 0)) ∧
      ∀ (re im : ℝ) (x y : Fin n ⊕ Fin n → ℝ), (x ≠ 0 ∨ y ≠ 0) → A.mulVec x = re • x - im • y → A.mulVec y = re • y + im • x →
        ∃ p ∈ l, p.re = re ∧ p.im = im := by
    intro A
    let B : Matrix (Fin n ⊕ Fin n) (Fin n ⊕ Fin n) ℂ := A.map Complex.ofReal
    have hB : ∀ (v : Fin n ⊕ Fin n → ℂ) i, (B.mulVec v i).re = A.mulVec (fun j => (v j).re) i ∧
        (B.mulVec v i).im = A.mulVec (fun j => (v j).im) i := by
      intro v i
      simp [B, Matrix.mulVec, dotProduct]
    have root : ∀ z : ℂ, z ∈ B.charpoly.roots ↔ ∃ v, v ≠ 0 ∧ B.mulVec v = z • v := by
      intro z
      rw [Polynomial.mem_roots B.charpoly_monic.ne_zero, Polynomial.IsRoot.def, Matrix.eval_charpoly,
        ← Matrix.exists_mulVec_eq_zero_iff]
      refine exists_congr fun v => and_congr_right fun _ => ?_
      rw [Matrix.sub_mulVec, sub_eq_zero, eq_comm]
      simp [Matrix.scalar_apply, Matrix.diagonal_const_mulVec]
    have pair : ∀ z : ℂ, z ∈ B.charpoly.roots → ∃ x y : Fin n ⊕ Fin n → ℝ, (x ≠ 0 ∨ y ≠ 0) ∧ A.mulVec x = z.re • x - z.im • y ∧
        A.mulVec y = z.re • y + z.im • x ∧ (z.im = 0 → y = 0) := by
      intro z hz
      obtain ⟨v, hv, e⟩ := (root z).1 hz
      have h1 : A.mulVec (fun j => (v j).re) = z.re • (fun j => (v j).re) - z.im • fun j => (v j).im := by
        funext i
        rw [← (hB v i).1, e]; simp
      have h2 : A.mulVec (fun j => (v j).im) = z.re • (fun j => (v j).im) + z.im • fun j => (v j).re := by
        funext i
        rw [← (hB v i).2, e]; simp
      have h0 : (fun j => (v j).re) ≠ 0 ∨ (fun j => (v j).im) ≠ 0 := by
        by_contra hh
        push Not at hh
        exact hv (funext fun j => Complex.ext (congrFun hh.1 j) (congrFun hh.2 j))
      by_cases hi : z.im = 0
      · rcases h0 with h0 | h0
        · exact ⟨_, 0, Or.inl h0, by rw [h1, hi]; simp, by simp [hi], fun _ => rfl⟩
        · exact ⟨_, 0, Or.inl h0, by rw [h2, hi]; simp, by simp [hi], fun _ => rfl⟩
      · exact ⟨_, _, h0, h1, h2, fun h => absurd h hi⟩
    have unit : ∀ z : ℂ, z ∈ B.charpoly.roots → ∃ p : EigenPair n, p.re = z.re ∧ p.im = z.im ∧
        A.mulVec (Sum.elim p.top p.tail) = p.re • Sum.elim p.top p.tail - p.im • Sum.elim p.topIm p.tailIm ∧
        A.mulVec (Sum.elim p.topIm p.tailIm) = p.re • Sum.elim p.topIm p.tailIm + p.im • Sum.elim p.top p.tail ∧
        ∑ i, (Sum.elim p.top p.tail i ^ 2 + Sum.elim p.topIm p.tailIm i ^ 2) = 1 ∧ (p.im = 0 → p.topIm = 0 ∧ p.tailIm = 0) := by
      intro z hz
      obtain ⟨x, y, h0, h1, h2, h3⟩ := pair z hz
      have hpos : 0 < ∑ i, (x i ^ 2 + y i ^ 2) := by
        refine Finset.sum_pos' (fun i _ => by positivity) ?_
        rcases h0 with h0 | h0
        · obtain ⟨i, hi⟩ := Function.ne_iff.1 h0
          exact ⟨i, Finset.mem_univ _, by have := pow_pos (abs_pos.2 hi) 2; rw [sq_abs] at this; have := sq_nonneg (y i); simp at *; linarith⟩
        · obtain ⟨i, hi⟩ := Function.ne_iff.1 h0
          exact ⟨i, Finset.mem_univ _, by have := pow_pos (abs_pos.2 hi) 2; rw [sq_abs] at this; have := sq_nonneg (x i); simp at *; linarith⟩
      generalize hN : ∑ i, (x i ^ 2 + y i ^ 2) = N at hpos
      have hs := Real.mul_self_sqrt hpos.le
      have hr : Real.sqrt N ≠ 0 := (Real.sqrt_pos.2 hpos).ne'
      generalize Real.sqrt N = r at hs hr
      have el : ∀ u : Fin n ⊕ Fin n → ℝ, Sum.elim (fun i => r⁻¹ * u (Sum.inl i)) (fun i => r⁻¹ * u (Sum.inr i)) = r⁻¹ • u := by
        intro u; funext i; cases i <;> simp
      refine ⟨⟨z.re, z.im, fun i => r⁻¹ * x (Sum.inl i), fun i => r⁻¹ * x (Sum.inr i), fun i => r⁻¹ * y (Sum.inl i),
        fun i => r⁻¹ * y (Sum.inr i)⟩, rfl, rfl, ?_, ?_, ?_, ?_⟩
      · simp only [el]
        rw [Matrix.mulVec_smul, h1, smul_sub, smul_comm r⁻¹, smul_comm r⁻¹]
      · simp only [el]
        rw [Matrix.mulVec_smul, h2, smul_add, smul_comm r⁻¹, smul_comm r⁻¹]
      · simp only [el, Pi.smul_apply, smul_eq_mul, mul_pow]
        simp only [← mul_add, ← Finset.mul_sum, hN, ← hs]
        field_simp
      · intro h
        have := h3 h
        subst this
        constructor <;> funext i <;> simp
    have hcard : Multiset.card B.charpoly.roots = n + n := by
      rw [IsAlgClosed.card_roots_eq_natDegree, Matrix.charpoly_natDegree_eq_dim]
      simp
    have : Nonempty (EigenPair n) := ⟨⟨0, 0, 0, 0, 0, 0⟩⟩
    choose! g hg using unit
    refine ⟨B.charpoly.roots.toList.map g, ?_, ?_, ?_⟩
    · rw [List.length_map, Multiset.length_toList, hcard]
    · intro p hp
      obtain ⟨z, hz, rfl⟩ := List.mem_map.1 hp
      exact (hg z (Multiset.mem_toList.1 hz)).2.2
    · intro re im x y h0 h1 h2
      have hz : (⟨re, im⟩ : ℂ) ∈ B.charpoly.roots := by
        rw [root]
        refine ⟨fun j => ⟨x j, y j⟩, ?_, ?_⟩
        · intro e
          rcases h0 with h0 | h0
          · exact h0 (funext fun j => congrArg Complex.re (congrFun e j))
          · exact h0 (funext fun j => congrArg Complex.im (congrFun e j))
        · funext i
          have := hB (fun j => (⟨x j, y j⟩ : ℂ)) i
          refine Complex.ext ?_ ?_
          · rw [this.1]
            change A.mulVec x i = _
            rw [h1]; simp
          · rw [this.2]
            change A.mulVec y i = _
            rw [h2]; simp
      obtain ⟨e1, e2, -⟩ := hg _ hz
      exact ⟨_, List.mem_map.2 ⟨_, Multiset.mem_toList.2 hz, rfl⟩, e1, e2⟩
  choose e h1 h2 h3 using key
  exact ⟨e, ⟨h1, fun A p hp => (h2 A p hp).1, fun A p hp => (h2 A p hp).2.1, fun A p hp => (h2 A p hp).2.2.1,
    fun A p hp => (h2 A p hp).2.2.2, h3⟩⟩

/-- A solver that lists the real eigenvalues first. -/
theorem exists_pairs_real_first (n : Nat) : ∃ eigen : EigenPairs n, EigenPairsOf eigen ∧
    ∀ A s, (∃ p ∈ eigen A, p.re = s ∧ p.im = 0) → FirstReal s (eigen A) := by
  classical
  obtain ⟨e, he⟩ := exists_pairs n
  have hmem : ∀ A p, p ∈ ((e A).filter (fun p => p.im = 0) ++ (e A).filter fun p => ¬ p.im = 0) ↔ p ∈ e A := by
    intro A p
    simp only [List.mem_append, List.mem_filter, decide_eq_true_eq]
    tauto
  refine ⟨fun A => (e A).filter (fun p => p.im = 0) ++ (e A).filter fun p => ¬ p.im = 0, ⟨?_, ?_, ?_, ?_, ?_, ?_⟩, ?_⟩
  · intro A
    have := List.length_eq_length_filter_add (l := e A) (fun p => decide (p.im = 0))
    rw [List.length_append, ← he.count A, this]
    simp
  · exact fun A p hp => he.real A p ((hmem A p).1 hp)
  · exact fun A p hp => he.imaginary A p ((hmem A p).1 hp)
  · exact fun A p hp => he.unit A p ((hmem A p).1 hp)
  · exact fun A p hp => he.realVector A p ((hmem A p).1 hp)
  · intro A re im x y h0 h1 h2
    obtain ⟨p, hp, h⟩ := he.all A re im x y h0 h1 h2
    exact ⟨p, (hmem A p).2 hp, h⟩
  · rintro A s ⟨p, hp, h1, h2⟩
    have hp' : p ∈ (e A).filter fun p => p.im = 0 := by
      rw [List.mem_filter]; exact ⟨(hmem A p).1 hp, by simpa using h2⟩
    have gen : ∀ (l r : List (EigenPair n)), (∀ p' ∈ l, p'.im = 0) → p ∈ l → FirstReal s (l ++ r) := by
      intro l r
      induction l with
      | nil => intro _ h; simp at h
      | cons a l ih =>
        intro hl hpl
        by_cases ha : a.re = s
        · exact ⟨[], a, l ++ r, rfl, ha, hl a List.mem_cons_self, by simp⟩
        · rcases List.mem_cons.1 hpl with rfl | hpl
          · exact absurd h1 ha
          · obtain ⟨b, p', a', e1, e2, e3, e4⟩ := ih (fun p' hp' => hl p' (List.mem_cons_of_mem _ hp')) hpl
            refine ⟨a :: b, p', a', by rw [List.cons_append, e1]; rfl, e2, e3, ?_⟩
            intro x hx
            rcases List.mem_cons.1 hx with rfl | hx
            · exact ha
            · exact e4 x hx
    exact gen _ _ (fun p' hp' => by simpa using (List.mem_filter.1 hp').2) hp'

end PartialRotation
end Theia
