import Mathlib.Tactic.Linarith
import Mathlib.Tactic.FieldSimp
import Verif.Model.CameraModels

/-!
# Helper lemmas on the camera models
-/

namespace Theia
namespace CameraModels

open AngleAxis

theorem divide_ok {a b : ℝ} (h : b ≠ 0) : divide a b = .ok (a / b) := if_neg h

theorem undo_ok {c : Calibration} (hf : c.focal ≠ 0) (ha : c.aspect ≠ 0) (p : V2) :
    ∃ d, c.undo p = .ok d ∧ c.apply d = p := by
  have hfa : c.focal * c.aspect ≠ 0 := mul_ne_zero hf ha
  refine ⟨_, by
    unfold Calibration.undo
    rw [divide_ok hfa]
    simp only [Outcome.ok_bind]
    rw [divide_ok hf]
    rfl, ?_⟩
  unfold Calibration.apply
  refine Prod.ext ?_ ?_
  · simp only
    field_simp
    ring
  · simp only
    field_simp
    ring

theorem undo_apply {c : Calibration} (hf : c.focal ≠ 0) (ha : c.aspect ≠ 0) (d : V2) : c.undo (c.apply d) = .ok d := by
  have hfa : c.focal * c.aspect ≠ 0 := mul_ne_zero hf ha
  unfold Calibration.undo Calibration.apply
  rw [divide_ok hfa]
  simp only [Outcome.ok_bind]
  rw [divide_ok hf]
  simp only [Outcome.ok_bind]
  congr 1
  refine Prod.ext ?_ ?_
  · simp only
    field_simp
    ring
  · simp only
    field_simp
    ring

theorem normalized_ok {q : V3 ℝ} (h : q.z ≠ 0) : normalized q = .ok (q.x / q.z, q.y / q.z) := by
  unfold normalized
  rw [divide_ok h, Outcome.ok_bind, divide_ok h, Outcome.ok_bind]

theorem normalized_one (u : V2) : normalized ⟨u.1, u.2, 1⟩ = .ok u := by
  rw [normalized_ok (by norm_num)]
  simp

theorem normalized_smul {q : V3 ℝ} (h : q.z ≠ 0) {s : ℝ} (hs : s ≠ 0) : normalized (q.smul s) = normalized q := by
  rw [normalized_ok h, normalized_ok (q := q.smul s) (mul_ne_zero hs h)]
  simp only [V3.smul]
  rw [mul_div_mul_left _ _ hs, mul_div_mul_left _ _ hs]

theorem apply_near (c : Calibration) {a b : V2} (h1 : |a.1 - b.1| ≤ 1 / 10 ^ 10) (h2 : |a.2 - b.2| ≤ 1 / 10 ^ 10) :
    |(c.apply a).1 - (c.apply b).1| ≤ (|c.focal| + |c.skew|) / 10 ^ 10 ∧
    |(c.apply a).2 - (c.apply b).2| ≤ |c.focal * c.aspect| / 10 ^ 10 := by
  constructor
  · have e : (c.apply a).1 - (c.apply b).1 = c.focal * (a.1 - b.1) + c.skew * (a.2 - b.2) := by
      simp only [Calibration.apply]; ring
    rw [e]
    refine (abs_add_le _ _).trans ?_
    rw [abs_mul, abs_mul, add_div]
    have := mul_le_mul_of_nonneg_left h1 (abs_nonneg c.focal)
    have := mul_le_mul_of_nonneg_left h2 (abs_nonneg c.skew)
    linarith
  · have e : (c.apply a).2 - (c.apply b).2 = c.focal * c.aspect * (a.2 - b.2) := by
      simp only [Calibration.apply]; ring
    rw [e, abs_mul]
    have := mul_le_mul_of_nonneg_left h2 (abs_nonneg (c.focal * c.aspect))
    linarith

/-! ## The radial fixed-point iteration -/

/-- The next divisor from the last one, `s` the squared radius of the distorted point. -/
noncomputable def nextD (k1 k2 s d : ℝ) : ℝ := 1 + s / d ^ 2 * (k1 + k2 * (s / d ^ 2))

theorem radialFactor_div (k1 k2 : ℝ) (p : V2) (d : ℝ) :
    radialFactor k1 k2 (p.1 / d, p.2 / d) = nextD k1 k2 (p.1 * p.1 + p.2 * p.2) d := by
  unfold radialFactor nextD
  have : p.1 / d * (p.1 / d) + p.2 / d * (p.2 / d) = (p.1 * p.1 + p.2 * p.2) / d ^ 2 := by
    rw [div_mul_div_comm, div_mul_div_comm, ← add_div, pow_two]
  simp only [this]

/-- The interval of the divisors. -/
def Mid (d : ℝ) : Prop := 1 / 2 ≤ d ∧ d ≤ 3 / 2

theorem inv_bounds {d : ℝ} (h : Mid d) : 0 < 1 / d ∧ 1 / d ≤ 2 ∧ 0 < d := by
  have hd : 0 < d := lt_of_lt_of_le (by norm_num) h.1
  refine ⟨by positivity, ?_, hd⟩
  rw [div_le_iff₀ hd]
  linarith [h.1]

theorem nextD_eq (k1 k2 s d : ℝ) : nextD k1 k2 s d = 1 + (s * k1 * (1 / d) ^ 2 + s ^ 2 * k2 * (1 / d) ^ 4) := by
  unfold nextD
  by_cases hd : d = 0
  · simp [hd]
  · field_simp

theorem abs_terms {k1 k2 s a b A B : ℝ} (hs : 0 ≤ s) (ha : |a| ≤ A) (hb : |b| ≤ B) :
    |s * k1 * a + s ^ 2 * k2 * b| ≤ s * |k1| * A + s ^ 2 * |k2| * B := by
  refine (abs_add_le _ _).trans (add_le_add ?_ ?_)
  · rw [abs_mul, abs_mul, abs_of_nonneg hs]
    exact mul_le_mul_of_nonneg_left ha (mul_nonneg hs (abs_nonneg _))
  · rw [abs_mul, abs_mul, abs_of_nonneg (pow_nonneg hs 2)]
    exact mul_le_mul_of_nonneg_left hb (mul_nonneg (pow_nonneg hs 2) (abs_nonneg _))

theorem nextD_mid {k1 k2 s : ℝ} (hs : 0 ≤ s) (hB : 16 * s * |k1| + 128 * s ^ 2 * |k2| ≤ 1 / 2) {d : ℝ} (h : Mid d) :
    Mid (nextD k1 k2 s d) := by
  obtain ⟨h0, h2, _⟩ := inv_bounds h
  rw [nextD_eq]
  generalize 1 / d = x at h0 h2
  have hx2 : |x ^ 2| ≤ 4 := by
    rw [abs_of_nonneg (by positivity)]
    nlinarith
  have hx4 : |x ^ 4| ≤ 16 := by
    rw [abs_of_nonneg (by positivity)]
    nlinarith [abs_le.1 hx2, sq_nonneg (x ^ 2)]
  have h1 := abs_terms (k1 := k1) (k2 := k2) hs hx2 hx4
  have p1 : 0 ≤ s * |k1| := mul_nonneg hs (abs_nonneg _)
  have p2 : 0 ≤ s ^ 2 * |k2| := mul_nonneg (pow_nonneg hs 2) (abs_nonneg _)
  have h2 : |s * k1 * x ^ 2 + s ^ 2 * k2 * x ^ 4| ≤ 1 / 2 := by linarith
  have := abs_le.1 h2
  constructor <;> linarith

theorem nextD_contract {k1 k2 s : ℝ} (hs : 0 ≤ s) (hB : 16 * s * |k1| + 128 * s ^ 2 * |k2| ≤ 1 / 2) {a b : ℝ} (ha : Mid a)
    (hb : Mid b) : |nextD k1 k2 s a - nextD k1 k2 s b| ≤ 1 / 2 * |a - b| := by
  obtain ⟨x0, x2, a0⟩ := inv_bounds ha
  obtain ⟨y0, y2, b0⟩ := inv_bounds hb
  rw [nextD_eq, nextD_eq]
  have hxy : |1 / a - 1 / b| ≤ 4 * |a - b| := by
    have : 1 / a - 1 / b = (1 / a) * (1 / b) * (b - a) := by field_simp
    rw [this, abs_mul, abs_of_nonneg (by positivity), abs_sub_comm]
    have : (1 / a) * (1 / b) ≤ 2 * 2 := mul_le_mul x2 y2 y0.le (by norm_num)
    nlinarith [abs_nonneg (a - b)]
  generalize 1 / a = x at x0 x2 hxy
  generalize 1 / b = y at y0 y2 hxy
  have h2 : |x ^ 2 - y ^ 2| ≤ 16 * |a - b| := by
    have : x ^ 2 - y ^ 2 = (x + y) * (x - y) := by ring
    rw [this, abs_mul, abs_of_nonneg (by positivity)]
    nlinarith [abs_nonneg (x - y)]
  have h4 : |x ^ 4 - y ^ 4| ≤ 128 * |a - b| := by
    have : x ^ 4 - y ^ 4 = (x ^ 2 + y ^ 2) * (x ^ 2 - y ^ 2) := by ring
    rw [this, abs_mul, abs_of_nonneg (by positivity)]
    have : x ^ 2 + y ^ 2 ≤ 8 := by nlinarith
    nlinarith [abs_nonneg (x ^ 2 - y ^ 2), abs_nonneg (a - b)]
  have h := abs_terms (k1 := k1) (k2 := k2) hs h2 h4
  have e : 1 + (s * k1 * x ^ 2 + s ^ 2 * k2 * x ^ 4) - (1 + (s * k1 * y ^ 2 + s ^ 2 * k2 * y ^ 4)) =
      s * k1 * (x ^ 2 - y ^ 2) + s ^ 2 * k2 * (x ^ 4 - y ^ 4) := by ring
  rw [e]
  have hm := mul_le_mul_of_nonneg_right hB (abs_nonneg (a - b))
  linarith

/-- How the iteration ends: it broke off after a small step, or it used all its iterations. -/
theorem loop_radial {k1 k2 : ℝ} {p : V2} (hB : 16 * (p.1 * p.1 + p.2 * p.2) * |k1| +
    128 * (p.1 * p.1 + p.2 * p.2) ^ 2 * |k2| ≤ 1 / 2) (n : Nat) (d : ℝ) (hd : Mid d) (e : ℝ)
    (he : |nextD k1 k2 (p.1 * p.1 + p.2 * p.2) d - d| ≤ e) :
    ∃ d', Mid d' ∧ undistortLoop (pinholeNext k1 k2 p) n (p.1 / d, p.2 / d) = .ok (p.1 / d', p.2 / d') ∧
      ((∃ d'', Mid d'' ∧ d' = nextD k1 k2 (p.1 * p.1 + p.2 * p.2) d'' ∧ |p.1 / d' - p.1 / d''| < 1 / 10 ^ 10 ∧
        |p.2 / d' - p.2 / d''| < 1 / 10 ^ 10) ∨
      |nextD k1 k2 (p.1 * p.1 + p.2 * p.2) d' - d'| ≤ e / 2 ^ n) := by
  have hs : 0 ≤ p.1 * p.1 + p.2 * p.2 := add_nonneg (mul_self_nonneg _) (mul_self_nonneg _)
  induction n generalizing d e with
  | zero => exact ⟨d, hd, rfl, Or.inr (by simpa using he)⟩
  | succ n ih =>
    have hm := nextD_mid hs hB hd
    obtain ⟨_, _, hpos⟩ := inv_bounds hm
    have hnext : pinholeNext k1 k2 p (p.1 / d, p.2 / d) =
        .ok (p.1 / nextD k1 k2 (p.1 * p.1 + p.2 * p.2) d, p.2 / nextD k1 k2 (p.1 * p.1 + p.2 * p.2) d) := by
      unfold pinholeNext
      rw [radialFactor_div, divide_ok hpos.ne', Outcome.ok_bind, divide_ok hpos.ne', Outcome.ok_bind]
    unfold undistortLoop
    rw [hnext, Outcome.ok_bind]
    by_cases hc : |p.1 / nextD k1 k2 (p.1 * p.1 + p.2 * p.2) d - p.1 / d| < 1 / 10 ^ 10 ∧
        |p.2 / nextD k1 k2 (p.1 * p.1 + p.2 * p.2) d - p.2 / d| < 1 / 10 ^ 10
    · refine ⟨_, hm, ?_, Or.inl ⟨d, hd, rfl, hc⟩⟩
      exact if_pos hc
    · obtain ⟨d', h1, h2, h3⟩ := ih _ hm (e / 2) (by
        have := nextD_contract hs hB hm hd
        linarith)
      refine ⟨d', h1, ?_, ?_⟩
      · rw [← h2]
        exact if_neg hc
      · rcases h3 with h3 | h3
        · exact Or.inl h3
        · refine Or.inr (h3.trans (le_of_eq ?_))
          rw [pow_succ, div_div, mul_comm]

theorem mid_one : Mid 1 := by constructor <;> norm_num

theorem first_step {k1 k2 s : ℝ} (hs : 0 ≤ s) (hB : 16 * s * |k1| + 128 * s ^ 2 * |k2| ≤ 1 / 2) :
    |nextD k1 k2 s 1 - 1| ≤ 1 / 2 := by
  have := nextD_mid hs hB mid_one
  rw [abs_le]
  constructor <;> linarith [this.1, this.2]

/-- The result of undistorting, as a quotient. -/
theorem undistort_radial {k1 k2 : ℝ} {p : V2} (hB : 16 * (p.1 * p.1 + p.2 * p.2) * |k1| +
    128 * (p.1 * p.1 + p.2 * p.2) ^ 2 * |k2| ≤ 1 / 2) :
    ∃ d', Mid d' ∧ pinholeUndistort k1 k2 p = .ok (p.1 / d', p.2 / d') ∧
      ((∃ d'', Mid d'' ∧ d' = nextD k1 k2 (p.1 * p.1 + p.2 * p.2) d'' ∧ |p.1 / d' - p.1 / d''| < 1 / 10 ^ 10 ∧
        |p.2 / d' - p.2 / d''| < 1 / 10 ^ 10) ∨
      |nextD k1 k2 (p.1 * p.1 + p.2 * p.2) d' - d'| ≤ 1 / 2 / 2 ^ 100) := by
  have hs : 0 ≤ p.1 * p.1 + p.2 * p.2 := add_nonneg (mul_self_nonneg _) (mul_self_nonneg _)
  have := loop_radial hB 100 1 mid_one _ (first_step hs hB)
  simpa [pinholeUndistort] using this

/-- Distorting the result gives the point within the tolerance. -/
theorem backward_coord {G x d' : ℝ} (hd' : Mid d') (hx : |x| ≤ 10 ^ 9)
    (h : (∃ d'', Mid d'' ∧ |G - d'| ≤ 1 / 2 * |d' - d''| ∧ |x / d' - x / d''| < 1 / 10 ^ 10) ∨ |G - d'| ≤ 1 / 2 / 2 ^ 100) :
    |x / d' * G - x| ≤ 1 / 10 ^ 10 := by
  obtain ⟨i0, i2, dpos⟩ := inv_bounds hd'
  have e : x / d' * G - x = x * (1 / d') * (G - d') := by field_simp
  rw [e, abs_mul, abs_mul, abs_of_pos i0]
  rcases h with ⟨d'', hd'', h1, h2⟩ | h
  · obtain ⟨j0, j2, epos⟩ := inv_bounds hd''
    have e2 : x / d' - x / d'' = x * (1 / d') * (d'' - d') * (1 / d'') := by field_simp
    rw [e2, abs_mul, abs_mul, abs_mul, abs_of_pos i0, abs_of_pos j0, abs_sub_comm d'' d'] at h2
    have h3 : |x| * (1 / d') * |d' - d''| ≤ 1 / 10 ^ 10 * d'' := by
      have := mul_le_mul_of_nonneg_right h2.le epos.le
      have e3 : |x| * (1 / d') * |d' - d''| * (1 / d'') * d'' = |x| * (1 / d') * |d' - d''| := by field_simp
      rwa [e3] at this
    have h4 : |x| * (1 / d') * |G - d'| ≤ |x| * (1 / d') * (1 / 2 * |d' - d''|) :=
      mul_le_mul_of_nonneg_left h1 (mul_nonneg (abs_nonneg _) i0.le)
    have h5 := hd''.2
    have : |x| * (1 / d') * (1 / 2 * |d' - d''|) ≤ 1 / 2 * (1 / 10 ^ 10 * d'') := by linarith
    have h6 : 1 / 2 * (1 / 10 ^ 10 * d'') ≤ (1 : ℝ) / 10 ^ 10 := by
      have : (0 : ℝ) < 1 / 10 ^ 10 := by norm_num
      nlinarith
    linarith
  · have h1 : |x| * (1 / d') ≤ 10 ^ 9 * 2 := mul_le_mul hx i2 i0.le (by norm_num)
    have h2 : |x| * (1 / d') * |G - d'| ≤ 10 ^ 9 * 2 * (1 / 2 / 2 ^ 100) :=
      mul_le_mul h1 h (abs_nonneg _) (by norm_num)
    exact h2.trans (by norm_num)

/-- The result is near the true solution. -/
theorem forward_coord {G x d' ds : ℝ} (hd' : Mid d') (hds : Mid ds) (hx : |x| ≤ 10 ^ 9)
    (hG : |G - ds| ≤ 1 / 2 * |d' - ds|)
    (h : (∃ d'', Mid d'' ∧ |d' - ds| ≤ 1 / 2 * |d'' - ds| ∧ |x / d' - x / d''| < 1 / 10 ^ 10) ∨ |G - d'| ≤ 1 / 2 / 2 ^ 100) :
    |x / d' - x / ds| ≤ 3 / 10 ^ 10 := by
  obtain ⟨i0, i2, dpos⟩ := inv_bounds hd'
  obtain ⟨k0, kk2, spos⟩ := inv_bounds hds
  have e : x / d' - x / ds = x * (1 / d') * (ds - d') * (1 / ds) := by field_simp
  rw [e, abs_mul, abs_mul, abs_mul, abs_of_pos i0, abs_of_pos k0, abs_sub_comm ds d']
  rcases h with ⟨d'', hd'', h1, h2⟩ | h
  · obtain ⟨j0, j2, epos⟩ := inv_bounds hd''
    have e2 : x / d' - x / d'' = x * (1 / d') * (d'' - d') * (1 / d'') := by field_simp
    rw [e2, abs_mul, abs_mul, abs_mul, abs_of_pos i0, abs_of_pos j0, abs_sub_comm d'' d'] at h2
    have h3 : |x| * (1 / d') * |d' - d''| ≤ 1 / 10 ^ 10 * d'' := by
      have := mul_le_mul_of_nonneg_right h2.le epos.le
      have e3 : |x| * (1 / d') * |d' - d''| * (1 / d'') * d'' = |x| * (1 / d') * |d' - d''| := by field_simp
      rwa [e3] at this
    have h4 : |d' - ds| ≤ |d' - d''| := by
      have h5 : |d'' - ds| ≤ |d' - d''| + |d' - ds| := by
        have := abs_sub_le d'' d' ds
        rwa [abs_sub_comm d'' d'] at this
      linarith
    have h6 : |x| * (1 / d') * |d' - ds| ≤ |x| * (1 / d') * |d' - d''| :=
      mul_le_mul_of_nonneg_left h4 (mul_nonneg (abs_nonneg _) i0.le)
    have h7 : |x| * (1 / d') * |d' - ds| ≤ 1 / 10 ^ 10 * (3 / 2) := by
      have : 1 / 10 ^ 10 * d'' ≤ (1 / 10 ^ 10 : ℝ) * (3 / 2) := mul_le_mul_of_nonneg_left hd''.2 (by norm_num)
      linarith
    have h8 : |x| * (1 / d') * |d' - ds| * (1 / ds) ≤ 1 / 10 ^ 10 * (3 / 2) * 2 :=
      mul_le_mul h7 kk2 k0.le (by norm_num)
    exact h8.trans (by norm_num)
  · have h4 : |d' - ds| ≤ 1 / 2 ^ 100 := by
      have h5 := abs_sub_le d' G ds
      rw [abs_sub_comm d' G] at h5
      have : (1 : ℝ) / 2 ^ 100 = 2 * (1 / 2 / 2 ^ 100) := by norm_num
      linarith
    have h1 : |x| * (1 / d') ≤ 10 ^ 9 * 2 := mul_le_mul hx i2 i0.le (by norm_num)
    have h2 : |x| * (1 / d') * |d' - ds| ≤ 10 ^ 9 * 2 * (1 / 2 ^ 100) := mul_le_mul h1 h4 (abs_nonneg _) (by norm_num)
    have h3 : |x| * (1 / d') * |d' - ds| * (1 / ds) ≤ 10 ^ 9 * 2 * (1 / 2 ^ 100) * 2 := mul_le_mul h2 kk2 k0.le (by norm_num)
    exact h3.trans (by norm_num)

/-- Facts on the distorted point of a point with moderate distortion. -/
theorem distorted_facts {k1 k2 : ℝ} {u : V2} (hm : 16 * (2 * (u.1 * u.1 + u.2 * u.2)) * |k1| +
    128 * (2 * (u.1 * u.1 + u.2 * u.2)) ^ 2 * |k2| ≤ 1 / 2) :
    Mid (radialFactor k1 k2 u) ∧
    16 * ((pinholeDistort k1 k2 u).1 * (pinholeDistort k1 k2 u).1 + (pinholeDistort k1 k2 u).2 *
      (pinholeDistort k1 k2 u).2) * |k1| + 128 * ((pinholeDistort k1 k2 u).1 * (pinholeDistort k1 k2 u).1 +
      (pinholeDistort k1 k2 u).2 * (pinholeDistort k1 k2 u).2) ^ 2 * |k2| ≤ 1 / 2 ∧
    nextD k1 k2 ((pinholeDistort k1 k2 u).1 * (pinholeDistort k1 k2 u).1 + (pinholeDistort k1 k2 u).2 *
      (pinholeDistort k1 k2 u).2) (radialFactor k1 k2 u) = radialFactor k1 k2 u ∧
    (pinholeDistort k1 k2 u).1 / radialFactor k1 k2 u = u.1 ∧ (pinholeDistort k1 k2 u).2 / radialFactor k1 k2 u = u.2 := by
  have hr : 0 ≤ u.1 * u.1 + u.2 * u.2 := add_nonneg (mul_self_nonneg _) (mul_self_nonneg _)
  have hd : |radialFactor k1 k2 u - 1| ≤ 1 / 10 := by
    have e : radialFactor k1 k2 u - 1 = (u.1 * u.1 + u.2 * u.2) * k1 * 1 + (u.1 * u.1 + u.2 * u.2) ^ 2 * k2 * 1 := by
      unfold radialFactor; ring
    rw [e]
    refine (abs_terms hr (A := 1) (B := 1) (by simp) (by simp)).trans ?_
    have p1 : 0 ≤ (u.1 * u.1 + u.2 * u.2) * |k1| := by positivity
    have p2 : 0 ≤ (u.1 * u.1 + u.2 * u.2) ^ 2 * |k2| := by positivity
    nlinarith
  have hb := abs_le.1 hd
  have hmid : Mid (radialFactor k1 k2 u) := ⟨by linarith [hb.1], by linarith [hb.2]⟩
  have hpos := (inv_bounds hmid).2.2
  have e1 : (pinholeDistort k1 k2 u).1 / radialFactor k1 k2 u = u.1 := mul_div_cancel_right₀ _ hpos.ne'
  have e2 : (pinholeDistort k1 k2 u).2 / radialFactor k1 k2 u = u.2 := mul_div_cancel_right₀ _ hpos.ne'
  refine ⟨hmid, ?_, ?_, e1, e2⟩
  · have es : (pinholeDistort k1 k2 u).1 * (pinholeDistort k1 k2 u).1 + (pinholeDistort k1 k2 u).2 *
        (pinholeDistort k1 k2 u).2 = (u.1 * u.1 + u.2 * u.2) * radialFactor k1 k2 u ^ 2 := by
      simp only [pinholeDistort]; ring
    have hle : (u.1 * u.1 + u.2 * u.2) * radialFactor k1 k2 u ^ 2 ≤ 2 * (u.1 * u.1 + u.2 * u.2) := by
      have : radialFactor k1 k2 u ^ 2 ≤ 2 := by nlinarith
      nlinarith
    rw [es]
    have h0 : 0 ≤ (u.1 * u.1 + u.2 * u.2) * radialFactor k1 k2 u ^ 2 := by positivity
    refine le_trans (add_le_add ?_ ?_) hm
    · exact mul_le_mul_of_nonneg_right (mul_le_mul_of_nonneg_left hle (by norm_num)) (abs_nonneg _)
    · exact mul_le_mul_of_nonneg_right (mul_le_mul_of_nonneg_left (pow_le_pow_left₀ h0 hle 2) (by norm_num)) (abs_nonneg _)
  · rw [← radialFactor_div, e1, e2]

end CameraModels
end Theia
