import Mathlib.Tactic.Linarith
import Mathlib.Tactic.FieldSimp
import Verif.Proof.CameraModels

/-!
# Helper lemmas on the division, field-of-view and fisheye models and on poses
-/

namespace Theia
namespace CameraModels

open AngleAxis

/-! ## Division -/

theorem divisionScale_ok {eps k r2 q : ℝ} (h1 : ¬|2 * k * r2| < eps) (heps : 0 < eps) (hq : 0 ≤ q)
    (h2 : 1 - 4 * k * r2 = q ^ 2) : divisionScale eps k r2 = 2 / (1 + q) := by
  have hk : 2 * k * r2 ≠ 0 := by
    intro h
    rw [h, abs_zero] at h1
    exact h1 heps
  unfold divisionScale
  rw [if_neg (by
    rintro (h | h)
    · exact h1 h
    · rw [h2] at h
      nlinarith [sq_nonneg q]), h2, Real.sqrt_sq hq]
  have : (1 + q) ≠ 0 := by linarith
  rw [div_eq_div_iff hk this]
  linear_combination h2

theorem divisionScale_tiny {eps k r2 : ℝ} (h1 : |2 * k * r2| < eps) : divisionScale eps k r2 = 1 := if_pos (Or.inl h1)

/-- Distorting and undistorting, away from the tiny case. -/
theorem division_distorted {k x y q : ℝ} (hq : 0 ≤ q) (h : 1 - 4 * k * (x * x + y * y) = q ^ 2) :
    1 + k * (x * (2 / (1 + q)) * (x * (2 / (1 + q))) + y * (2 / (1 + q)) * (y * (2 / (1 + q)))) = 2 / (1 + q) := by
  have : (1 + q) ≠ 0 := by linarith
  field_simp
  linear_combination -h

/-- Undistorting and distorting, away from the tiny case. -/
theorem division_undistorted {k x y t : ℝ} (ht : t = k * (x * x + y * y)) (h1 : 1 + t ≠ 0) :
    1 - 4 * k * (x * (1 / (1 + t)) * (x * (1 / (1 + t))) + y * (1 / (1 + t)) * (y * (1 / (1 + t)))) =
      ((1 - t) / (1 + t)) ^ 2 := by
  field_simp
  linear_combination 4 * ht

/-! ## Field of view -/

theorem sqrt_scaled {F x y r : ℝ} (hF : 0 ≤ F) (hr : r = Real.sqrt (x * x + y * y)) :
    Real.sqrt (F * x * (F * x) + F * y * (F * y)) = F * r := by
  have : F * x * (F * x) + F * y * (F * y) = F ^ 2 * (x * x + y * y) := by ring
  rw [this, Real.sqrt_mul (sq_nonneg _), Real.sqrt_sq hF, hr]

theorem tan_half_pos {omega : ℝ} (h0 : 0 < omega) (h1 : omega < Real.pi) : 0 < Real.tan (omega / 2) :=
  Real.tan_pos_of_pos_of_lt_pi_div_two (by linarith) (by linarith)

theorem sqrt_pos_of_ge {r2 : ℝ} (h : 1 / 1000 ≤ r2) : 0 < Real.sqrt r2 :=
  Real.sqrt_pos.2 (lt_of_lt_of_le (by norm_num) h)

theorem fovDistortFactor_main {omega r2 : ℝ} (h1 : 1 / 1000 ≤ omega) (h2 : 1 / 1000 ≤ r2) :
    fovDistortFactor omega r2 = Real.arctan (2 * Real.sqrt r2 * Real.tan (omega / 2)) / (Real.sqrt r2 * omega) := by
  unfold fovDistortFactor
  rw [if_neg (not_lt.2 h1), if_neg (not_lt.2 h2)]

theorem fovUndistortFactor_main {omega r2 : ℝ} (h1 : 1 / 1000 ≤ omega) (h3 : omega < Real.pi) (h2 : 1 / 1000 ≤ r2) :
    fovUndistortFactor omega r2 =
      .ok (Real.tan (Real.sqrt r2 * omega) / (2 * Real.sqrt r2 * Real.tan (omega / 2))) := by
  unfold fovUndistortFactor
  have hT := tan_half_pos (lt_of_lt_of_le (by norm_num) h1) h3
  have hr := sqrt_pos_of_ge h2
  rw [if_neg (not_lt.2 h1), if_neg (not_lt.2 h2), divide_ok (by positivity)]

theorem fov_undistort_distort {omega : ℝ} (h1 : 1 / 1000 ≤ omega) (h3 : omega < Real.pi) {u : V2}
    (h2 : 1 / 1000 ≤ u.1 * u.1 + u.2 * u.2)
    (h4 : 1 / 1000 ≤ (fovDistort omega u).1 * (fovDistort omega u).1 + (fovDistort omega u).2 * (fovDistort omega u).2) :
    fovUndistort omega (fovDistort omega u) = .ok u := by
  have ho : 0 < omega := lt_of_lt_of_le (by norm_num) h1
  have hT := tan_half_pos ho h3
  have hr := sqrt_pos_of_ge h2
  unfold fovUndistort
  rw [fovUndistortFactor_main h1 h3 h4, Outcome.ok_bind]
  unfold fovDistort
  simp only [fovDistortFactor_main h1 h2]
  generalize hrr : Real.sqrt (u.1 * u.1 + u.2 * u.2) = r at hr
  generalize Real.tan (omega / 2) = T at hT
  have hA : 0 < Real.arctan (2 * r * T) := Real.arctan_pos.2 (by positivity)
  have hF : 0 ≤ Real.arctan (2 * r * T) / (r * omega) := by positivity
  rw [sqrt_scaled hF hrr.symm]
  have e : Real.arctan (2 * r * T) / (r * omega) * r * omega = Real.arctan (2 * r * T) := by field_simp
  rw [e, Real.tan_arctan]
  congr 1
  refine Prod.ext ?_ ?_ <;> simp only <;> field_simp

theorem fov_distort_undistort {omega : ℝ} (h1 : 1 / 1000 ≤ omega) (h3 : omega < Real.pi) {p : V2}
    (h2 : 1 / 1000 ≤ p.1 * p.1 + p.2 * p.2) (h5 : Real.sqrt (p.1 * p.1 + p.2 * p.2) * omega < Real.pi / 2) :
    ∃ u, fovUndistort omega p = .ok u ∧ (1 / 1000 ≤ u.1 * u.1 + u.2 * u.2 → fovDistort omega u = p) := by
  have ho : 0 < omega := lt_of_lt_of_le (by norm_num) h1
  have hT := tan_half_pos ho h3
  have hr := sqrt_pos_of_ge h2
  refine ⟨_, by unfold fovUndistort; rw [fovUndistortFactor_main h1 h3 h2, Outcome.ok_bind], ?_⟩
  intro h4
  unfold fovDistort
  rw [fovDistortFactor_main h1 h4]
  generalize hrr : Real.sqrt (p.1 * p.1 + p.2 * p.2) = r at hr h5
  generalize Real.tan (omega / 2) = T at hT
  have hA : 0 < Real.tan (r * omega) := Real.tan_pos_of_pos_of_lt_pi_div_two (by positivity) h5
  have hF : 0 ≤ Real.tan (r * omega) / (2 * r * T) := by positivity
  simp only
  rw [sqrt_scaled hF hrr.symm]
  have e : 2 * (Real.tan (r * omega) / (2 * r * T) * r) * T = Real.tan (r * omega) := by field_simp
  have hpos : 0 < r * omega := by positivity
  rw [e, Real.arctan_tan (by linarith) h5]
  refine Prod.ext ?_ ?_ <;> simp only <;> field_simp

/-! ## Fisheye -/

theorem fisheyeDistort_far (k : Fisheye) {x y z r : ℝ} (h : 1 / 10 ^ 8 ≤ x * x + y * y) (hr : Real.sqrt (x * x + y * y) = r) :
    fisheyeDistort k ⟨x, y, z⟩ = if z < 0 then (-(k.angle (atan2 r |z|) * x / r), -(k.angle (atan2 r |z|) * y / r))
      else (k.angle (atan2 r |z|) * x / r, k.angle (atan2 r |z|) * y / r) := by
  subst hr
  exact if_neg (not_lt.2 h)

theorem fisheyeDistort_smul (k : Fisheye) {u : V3 ℝ} (hz : u.z ≠ 0) {s : ℝ} (hs : s ≠ 0)
    (h1 : 1 / 10 ^ 8 ≤ u.x * u.x + u.y * u.y) (h2 : 1 / 10 ^ 8 ≤ s * u.x * (s * u.x) + s * u.y * (s * u.y)) :
    fisheyeDistort k (u.smul s) = fisheyeDistort k u := by
  have habs : |s| ≠ 0 := abs_ne_zero.2 hs
  have hza : |u.z| ≠ 0 := abs_ne_zero.2 hz
  have hrs : Real.sqrt (s * u.x * (s * u.x) + s * u.y * (s * u.y)) = |s| * Real.sqrt (u.x * u.x + u.y * u.y) := by
    have : s * u.x * (s * u.x) + s * u.y * (s * u.y) = s ^ 2 * (u.x * u.x + u.y * u.y) := by ring
    rw [this, Real.sqrt_mul (sq_nonneg _), Real.sqrt_sq_eq_abs]
  have hat : atan2 (|s| * Real.sqrt (u.x * u.x + u.y * u.y)) |s * u.z| = atan2 (Real.sqrt (u.x * u.x + u.y * u.y)) |u.z| := by
    unfold atan2
    rw [if_neg (by rw [abs_mul]; exact mul_ne_zero habs hza), if_neg hza, abs_mul, mul_div_mul_left _ _ habs]
  show fisheyeDistort k ⟨s * u.x, s * u.y, s * u.z⟩ = fisheyeDistort k ⟨u.x, u.y, u.z⟩
  rw [fisheyeDistort_far k h1 rfl, fisheyeDistort_far k h2 hrs, hat]
  have hr : 0 < Real.sqrt (u.x * u.x + u.y * u.y) := Real.sqrt_pos.2 (lt_of_lt_of_le (by norm_num) h1)
  generalize Real.sqrt (u.x * u.x + u.y * u.y) = r at hr
  generalize k.angle (atan2 r |u.z|) = d
  rcases lt_or_gt_of_ne hs with hneg | hpos
  · rw [abs_of_neg hneg]
    rcases lt_or_gt_of_ne hz with hzn | hzp
    · rw [if_neg (not_lt.2 (mul_nonneg_of_nonpos_of_nonpos hneg.le hzn.le)), if_pos hzn]
      refine Prod.ext ?_ ?_ <;> simp only <;> field_simp
    · rw [if_pos (mul_neg_of_neg_of_pos hneg hzp), if_neg (not_lt.2 hzp.le)]
      refine Prod.ext ?_ ?_ <;> simp only <;> field_simp
  · rw [abs_of_pos hpos]
    rcases lt_or_gt_of_ne hz with hzn | hzp
    · rw [if_pos (mul_neg_of_pos_of_neg hpos hzn), if_pos hzn]
      refine Prod.ext ?_ ?_ <;> simp only <;> field_simp
    · rw [if_neg (not_lt.2 (mul_pos hpos hzp).le), if_neg (not_lt.2 hzp.le)]
      refine Prod.ext ?_ ?_ <;> simp only <;> field_simp

theorem fisheyeLoop_one {k : Fisheye} {p u : V2} (h1 : 1 / 10 ^ 8 ≤ u.1 * u.1 + u.2 * u.2)
    (hd : k.angle (atan2 (Real.sqrt (u.1 * u.1 + u.2 * u.2)) 1) ≠ 0) (h : fisheyeLoop k p 1 u = .ok u) :
    Real.sqrt (u.1 * u.1 + u.2 * u.2) * p.1 / k.angle (atan2 (Real.sqrt (u.1 * u.1 + u.2 * u.2)) 1) = u.1 ∧
    Real.sqrt (u.1 * u.1 + u.2 * u.2) * p.2 / k.angle (atan2 (Real.sqrt (u.1 * u.1 + u.2 * u.2)) 1) = u.2 := by
  have hr : 1 / 10 ^ 8 ≤ Real.sqrt (u.1 * u.1 + u.2 * u.2) := by
    refine Real.le_sqrt_of_sq_le (le_trans ?_ h1)
    norm_num
  unfold fisheyeLoop at h
  simp only at h
  rw [if_neg (not_lt.2 hr), divide_ok hd, Outcome.ok_bind, divide_ok hd, Outcome.ok_bind] at h
  have h' : (Real.sqrt (u.1 * u.1 + u.2 * u.2) * p.1 / k.angle (atan2 (Real.sqrt (u.1 * u.1 + u.2 * u.2)) 1),
      Real.sqrt (u.1 * u.1 + u.2 * u.2) * p.2 / k.angle (atan2 (Real.sqrt (u.1 * u.1 + u.2 * u.2)) 1)) = u := by
    split at h
    · exact Outcome.ok.inj h
    · exact Outcome.ok.inj h
  exact ⟨congrArg Prod.fst h', congrArg Prod.snd h'⟩

/-- A fixed point of the step is a solution. -/
theorem fisheye_fixed {k : Fisheye} {p u : V2} (h1 : 1 / 10 ^ 8 ≤ u.1 * u.1 + u.2 * u.2)
    (hd : k.angle (atan2 (Real.sqrt (u.1 * u.1 + u.2 * u.2)) 1) ≠ 0)
    (hx : Real.sqrt (u.1 * u.1 + u.2 * u.2) * p.1 / k.angle (atan2 (Real.sqrt (u.1 * u.1 + u.2 * u.2)) 1) = u.1)
    (hy : Real.sqrt (u.1 * u.1 + u.2 * u.2) * p.2 / k.angle (atan2 (Real.sqrt (u.1 * u.1 + u.2 * u.2)) 1) = u.2) :
    fisheyeDistort k ⟨u.1, u.2, 1⟩ = p := by
  have hr : 0 < Real.sqrt (u.1 * u.1 + u.2 * u.2) := Real.sqrt_pos.2 (lt_of_lt_of_le (by norm_num) h1)
  unfold fisheyeDistort
  simp only
  rw [if_neg (not_lt.2 h1), abs_one, if_neg (by norm_num)]
  generalize Real.sqrt (u.1 * u.1 + u.2 * u.2) = r at *
  generalize k.angle (atan2 r 1) = d at *
  rw [div_eq_iff hd] at hx hy
  refine Prod.ext ?_ ?_
  · simp only
    rw [div_eq_iff hr.ne']
    linarith
  · simp only
    rw [div_eq_iff hr.ne']
    linarith

/-! ## Poses -/

/-- The orientation is zero or above Ceres' threshold. -/
theorem rotation_facts {eps : ℝ} (heps : 0 ≤ eps) {w : V3 ℝ} (h : w = V3.zero ∨ eps < w.dot w) :
    (toMatrix eps w).IsRotation ∧ (∀ p, rotate eps w p = (toMatrix eps w).mulVec p) ∧
    (if Real.sqrt (w.dot w) = 0 then M3.one else toM w) = toMatrix eps w := by
  rcases h with rfl | h
  · have h0 : ¬eps < (V3.zero : V3 ℝ).dot V3.zero := by
      simp [V3.dot, V3.zero, heps]
    have e : toMatrix eps V3.zero = M3.one := by
      unfold toMatrix
      rw [if_neg h0]
      simp [M3.one, V3.zero]
    refine ⟨e ▸ M3.IsRotation.one, ?_, ?_⟩
    · intro p
      rw [e, M3.one_mulVec]
      unfold rotate
      rw [if_neg h0]
      apply V3.ext <;> simp [V3.add, V3.cross, V3.zero]
    · rw [e, if_pos (by simp [V3.dot, V3.zero])]
  · have e : toMatrix eps w = toM w := if_pos h
    refine ⟨e ▸ isRotation_toM w, ?_, ?_⟩
    · intro p
      rw [e, rotate_eq_toM h]
    · rw [e, if_neg (Real.sqrt_pos.2 (lt_of_le_of_lt heps h)).ne']

theorem smul_smul' (a b : ℝ) (v : V3 ℝ) : (v.smul a).smul b = v.smul (b * a) := by
  apply V3.ext <;> simp only [V3.smul] <;> ring

end CameraModels
end Theia
