import Verif.Model.Gps
import Verif.Spec.Gps
import Mathlib.Tactic.Linarith
import Mathlib.Tactic.Positivity
import Mathlib.Tactic.FieldSimp
import Mathlib.Tactic.Ring
import Mathlib.Tactic.NormNum
import Mathlib.Tactic.LinearCombination

namespace Theia
namespace Gps

open Spec

theorem a_pos : 0 < a := by norm_num [a]
theorem e2_pos : 0 < e2 := by norm_num [e2]
theorem e2_lt : e2 < 1 := by norm_num [e2]

theorem degToRad_eq (x : ℝ) : degToRad x = x * Real.pi / 180 := by unfold degToRad; ring

theorem radToDeg_degToRad (x : ℝ) : radToDeg (degToRad x) = x := by
  unfold radToDeg degToRad
  have := Real.pi_pos.ne'
  field_simp

theorem g_pos (lat : ℝ) : 0 < 1 - e2 * Real.sin lat * Real.sin lat := by
  have h1 := Real.sin_sq_le_one lat
  have h2 := e2_lt
  have h3 := e2_pos
  nlinarith [sq_nonneg (Real.sin lat)]

theorem normalRadius_pos (lat : ℝ) : 0 < normalRadius lat := div_pos a_pos (Real.sqrt_pos.2 (g_pos lat))

theorem normalRadius_sq (lat : ℝ) : normalRadius lat ^ 2 * (1 - e2 * Real.sin lat * Real.sin lat) = a ^ 2 := by
  have h := g_pos lat
  have h2 := Real.sq_sqrt h.le
  unfold normalRadius
  rw [div_pow, h2]
  exact div_mul_cancel₀ _ h.ne'

theorem le_normalRadius (lat : ℝ) : a ≤ normalRadius lat := by
  have h1 := normalRadius_sq lat
  have h2 := normalRadius_pos lat
  have h3 := a_pos
  have h4 := e2_pos
  have h5 : 0 ≤ e2 * Real.sin lat * Real.sin lat := by
    have := mul_self_nonneg (Real.sin lat)
    nlinarith
  nlinarith [sq_nonneg (normalRadius lat)]

theorem upward_eq (lat lon : ℝ) : upward lat lon =
    ⟨Real.cos (degToRad lat) * Real.cos (degToRad lon), Real.cos (degToRad lat) * Real.sin (degToRad lon),
      Real.sin (degToRad lat)⟩ := by
  unfold upward
  rw [degToRad_eq, degToRad_eq]

/-- The point below, and that it is on the ellipsoid. -/
theorem geodetic_iff (lla p : V3 ℝ) : IsGeodetic a e2 lla p ↔ p = llaToECEF lla := by
  have hn := normalRadius_pos (degToRad lla.x)
  have hn2 := normalRadius_sq (degToRad lla.x)
  have ha := a_pos
  have he : 0 < 1 - e2 := by have := e2_lt; linarith
  have hsc := Real.sin_sq_add_cos_sq (degToRad lla.x)
  have hsl := Real.sin_sq_add_cos_sq (degToRad lla.y)
  unfold IsGeodetic OnEllipsoid minorAxisSq
  rw [upward_eq]
  unfold llaToECEF
  simp only
  set n := normalRadius (degToRad lla.x)
  set C := Real.cos (degToRad lla.x)
  set S := Real.sin (degToRad lla.x)
  set cl := Real.cos (degToRad lla.y)
  set sl := Real.sin (degToRad lla.y)
  constructor
  · rintro ⟨s, h1, ⟨k, hk, hx, hy, hz⟩, px, py, pz⟩
    have hb : a ^ 2 * (1 - e2) ≠ 0 := by positivity
    rw [div_eq_iff (by positivity)] at hx hy
    rw [div_eq_iff hb] at hz
    have hkn : k * a ^ 2 = n := by
      rw [hx, hy, hz] at h1
      have h1' : k ^ 2 * a ^ 2 * (C ^ 2 * (cl ^ 2 + sl ^ 2) + (1 - e2) * S ^ 2) = 1 := by
        refine Eq.trans ?_ h1
        field_simp
      rw [add_comm (cl ^ 2), hsl, mul_one] at h1'
      have h2 : C ^ 2 + (1 - e2) * S ^ 2 = 1 - e2 * S * S := by linear_combination hsc
      rw [h2] at h1'
      have h3 : (k * a ^ 2) ^ 2 = n ^ 2 := by
        have hg := g_pos (degToRad lla.x)
        have : (k * a ^ 2) ^ 2 * (1 - e2 * S * S) = n ^ 2 * (1 - e2 * S * S) := by
          rw [hn2]
          linear_combination a ^ 2 * h1'
        exact mul_right_cancel₀ hg.ne' this
      exact (pow_left_inj₀ (by positivity) hn.le (by norm_num)).1 h3
    ext
    · simp only; rw [px, hx]; linear_combination C * cl * hkn
    · simp only; rw [py, hy]; linear_combination C * sl * hkn
    · simp only; rw [pz, hz]; linear_combination S * (1 - e2) * hkn
  · rintro rfl
    refine ⟨⟨n * C * cl, n * C * sl, n * (1 - e2) * S⟩, ?_, ⟨n / a ^ 2, by positivity, ?_, ?_, ?_⟩, ?_, ?_, ?_⟩
    · simp only
      have : ((n * C * cl) ^ 2 + (n * C * sl) ^ 2) / a ^ 2 + (n * (1 - e2) * S) ^ 2 / (a ^ 2 * (1 - e2)) =
          n ^ 2 * (C ^ 2 * (sl ^ 2 + cl ^ 2) + (1 - e2) * S ^ 2) / a ^ 2 := by field_simp; ring
      rw [this, hsl, mul_one, div_eq_one_iff_eq (by positivity), ← hn2]
      linear_combination n ^ 2 * hsc
    · simp only; ring
    · simp only; ring
    · simp only; field_simp
    · simp only; ring
    · simp only; ring
    · simp only; ring

/-- The equation of the distance along the normal has one solution. -/
theorem unique_t {A B W Z t t' : ℝ} (hA : 0 < A) (hB : 0 < B) (hAB : B ≤ A) (ht : -B < t) (ht' : -B < t')
    (h : W * A / (A + t) ^ 2 + Z * B / (B + t) ^ 2 = 1) (h' : W * A / (A + t') ^ 2 + Z * B / (B + t') ^ 2 = 1)
    (hW : 0 ≤ W) (hZ : 0 ≤ Z) : t = t' := by
  have key : ∀ {t t' : ℝ}, -B < t → -B < t' → W * A / (A + t) ^ 2 + Z * B / (B + t) ^ 2 = 1 →
      W * A / (A + t') ^ 2 + Z * B / (B + t') ^ 2 = 1 → ¬ t < t' := by
    intro t t' ht ht' h h' hlt
    have a1 : 0 < A + t := by linarith
    have b1 : 0 < B + t := by linarith
    have a2 : (A + t) ^ 2 < (A + t') ^ 2 := by nlinarith
    have b2 : (B + t) ^ 2 < (B + t') ^ 2 := by nlinarith
    have hx : W * A / (A + t') ^ 2 ≤ W * A / (A + t) ^ 2 :=
      div_le_div_of_nonneg_left (by positivity) (by positivity) a2.le
    have hy : Z * B / (B + t') ^ 2 ≤ Z * B / (B + t) ^ 2 :=
      div_le_div_of_nonneg_left (by positivity) (by positivity) b2.le
    rcases hW.lt_or_eq with hW | rfl
    · have : W * A / (A + t') ^ 2 < W * A / (A + t) ^ 2 :=
        div_lt_div_of_pos_left (by positivity) (by positivity) a2
      linarith
    · rcases hZ.lt_or_eq with hZ | rfl
      · have : Z * B / (B + t') ^ 2 < Z * B / (B + t) ^ 2 :=
          div_lt_div_of_pos_left (by positivity) (by positivity) b2
        linarith
      · simp at h
  rcases lt_trichotomy t t' with hlt | heq | hgt
  · exact absurd hlt (key ht ht' h h')
  · exact heq
  · exact absurd hgt (key ht' ht h' h)

/-- What determines latitude and altitude. -/
theorem meridian {φ h : ℝ} (hh : -(a * (1 - e2)) < h) {W z : ℝ}
    (hW : W = ((normalRadius φ + h) * Real.cos φ) ^ 2) (hz : z = (normalRadius φ * (1 - e2) + h) * Real.sin φ) :
    -(a ^ 2 * (1 - e2)) < h * a ^ 2 / normalRadius φ ∧
    W * a ^ 2 / (a ^ 2 + h * a ^ 2 / normalRadius φ) ^ 2 +
      z ^ 2 * (a ^ 2 * (1 - e2)) / (a ^ 2 * (1 - e2) + h * a ^ 2 / normalRadius φ) ^ 2 = 1 := by
  have hn := normalRadius_pos φ
  have hn2 := normalRadius_sq φ
  have hle := le_normalRadius φ
  have ha := a_pos
  have he : 0 < 1 - e2 := by have := e2_lt; linarith
  have hsc := Real.sin_sq_add_cos_sq φ
  set n := normalRadius φ
  have h1 : 0 < n * (1 - e2) + h := by nlinarith
  have h2 : 0 < n + h := by
    have := e2_pos
    nlinarith
  constructor
  · rw [lt_div_iff₀ hn]
    nlinarith [sq_pos_of_pos ha]
  · have e1 : a ^ 2 + h * a ^ 2 / n = a ^ 2 * (n + h) / n := by field_simp
    have e2' : a ^ 2 * (1 - e2) + h * a ^ 2 / n = a ^ 2 * (n * (1 - e2) + h) / n := by field_simp
    rw [e1, e2', hW, hz]
    have : ((n + h) * Real.cos φ) ^ 2 * a ^ 2 / (a ^ 2 * (n + h) / n) ^ 2 +
        ((n * (1 - e2) + h) * Real.sin φ) ^ 2 * (a ^ 2 * (1 - e2)) / (a ^ 2 * (n * (1 - e2) + h) / n) ^ 2 =
        n ^ 2 * (Real.cos φ ^ 2 + (1 - e2) * Real.sin φ ^ 2) / a ^ 2 := by
      field_simp
    rw [this, div_eq_one_iff_eq (by positivity), ← hn2]
    linear_combination n ^ 2 * hsc

theorem horizontal_sq (lla : V3 ℝ) : (llaToECEF lla).x ^ 2 + (llaToECEF lla).y ^ 2 =
    ((normalRadius (degToRad lla.x) + lla.z) * Real.cos (degToRad lla.x)) ^ 2 := by
  unfold llaToECEF
  simp only
  have := Real.sin_sq_add_cos_sq (degToRad lla.y)
  linear_combination ((normalRadius (degToRad lla.x) + lla.z) * Real.cos (degToRad lla.x)) ^ 2 * this

theorem atan2_of_polar {k θ : ℝ} (hk : 0 < k) (hθ : -Real.pi < θ) (hθ' : θ ≤ Real.pi) :
    atan2 (k * Real.sin θ) (k * Real.cos θ) = θ := by
  unfold atan2
  have : (⟨k * Real.cos θ, k * Real.sin θ⟩ : ℂ) = (k : ℂ) * (Complex.cos θ + Complex.sin θ * Complex.I) := by
    apply Complex.ext
    · simp [Complex.cos_ofReal_re, Complex.sin_ofReal_im, Complex.sin_ofReal_re, Complex.cos_ofReal_im]
    · simp [Complex.cos_ofReal_re, Complex.sin_ofReal_im, Complex.sin_ofReal_re, Complex.cos_ofReal_im]
  rw [this]
  exact Complex.arg_mul_cos_add_sin_mul_I hk ⟨hθ, hθ'⟩

theorem degToRad_lon {x : ℝ} (h : -180 < x) (h' : x ≤ 180) : -Real.pi < degToRad x ∧ degToRad x ≤ Real.pi := by
  have := Real.pi_pos
  rw [degToRad_eq]
  constructor <;> nlinarith

theorem degToRad_lat {x : ℝ} (h : -90 ≤ x) (h' : x ≤ 90) :
    -(Real.pi / 2) ≤ degToRad x ∧ degToRad x ≤ Real.pi / 2 := by
  have := Real.pi_pos
  rw [degToRad_eq]
  constructor <;> nlinarith

theorem degToRad_injective {x y : ℝ} (h : degToRad x = degToRad y) : x = y := by
  rw [← radToDeg_degToRad x, h, radToDeg_degToRad]

theorem radicand_pos {n h : ℝ} (hn : a ≤ n) (hh : -(a * (1 - e2)) < h) : 0 < n * (1 - e2) + h ∧ 0 < n + h := by
  have he : 0 < 1 - e2 := by have := e2_lt; linarith
  have h1 := mul_le_mul_of_nonneg_right hn he.le
  have h2 := mul_pos a_pos e2_pos
  constructor <;> linarith

/-- Latitude and altitude are determined by the place in the meridian. -/
theorem meridian_unique {φ φ' h h' : ℝ} (r1 : -(Real.pi / 2) ≤ φ ∧ φ ≤ Real.pi / 2)
    (r2 : -(Real.pi / 2) ≤ φ' ∧ φ' ≤ Real.pi / 2) (hh : -(a * (1 - e2)) < h) (hh' : -(a * (1 - e2)) < h')
    (hw : ((normalRadius φ + h) * Real.cos φ) ^ 2 = ((normalRadius φ' + h') * Real.cos φ') ^ 2)
    (hz : (normalRadius φ * (1 - e2) + h) * Real.sin φ = (normalRadius φ' * (1 - e2) + h') * Real.sin φ') :
    φ = φ' ∧ h = h' := by
  have k1 := meridian (φ := φ) hh rfl rfl
  have k2 := meridian (φ := φ') hh' rfl rfl
  rw [← hw, ← hz] at k2
  have ha := a_pos
  have he : 0 < 1 - e2 := by have := e2_lt; linarith
  have hb : a ^ 2 * (1 - e2) ≤ a ^ 2 := by nlinarith [e2_pos, sq_pos_of_pos ha]
  have ht := unique_t (by positivity) (by positivity) hb k1.1 k2.1 k1.2 k2.2 (by positivity) (by positivity)
  have hn := normalRadius_pos φ
  have hn' := normalRadius_pos φ'
  obtain ⟨q1, p1⟩ := radicand_pos (le_normalRadius φ) hh
  obtain ⟨q2, p2⟩ := radicand_pos (le_normalRadius φ') hh'
  have c1 := Real.cos_nonneg_of_neg_pi_div_two_le_of_le r1.1 r1.2
  have c2 := Real.cos_nonneg_of_neg_pi_div_two_le_of_le r2.1 r2.2
  have s1 := Real.sin_sq_add_cos_sq φ
  have s2 := Real.sin_sq_add_cos_sq φ'
  clear k1 k2
  generalize normalRadius φ = n at *
  generalize normalRadius φ' = n' at *
  have hq : h / n = h' / n' := by
    have e1 : h * a ^ 2 / n = a ^ 2 * (h / n) := by ring
    have e3 : h' * a ^ 2 / n' = a ^ 2 * (h' / n') := by ring
    rw [e1, e3] at ht
    exact mul_left_cancel₀ (by positivity) ht
  clear ht
  rw [div_eq_div_iff hn.ne' hn'.ne'] at hq
  have hcos : n * Real.cos φ = n' * Real.cos φ' := by
    have hw' : (n + h) * Real.cos φ = (n' + h') * Real.cos φ' :=
      (pow_left_inj₀ (by positivity) (by positivity) (by norm_num)).1 hw
    have : (n' + h') * (n * Real.cos φ) = (n' + h') * (n' * Real.cos φ') := by
      linear_combination n' * hw' - Real.cos φ * hq
    exact mul_left_cancel₀ p2.ne' this
  have hsin : n * Real.sin φ = n' * Real.sin φ' := by
    have : (n' * (1 - e2) + h') * (n * Real.sin φ) = (n' * (1 - e2) + h') * (n' * Real.sin φ') := by
      linear_combination n' * hz - Real.sin φ * hq
    exact mul_left_cancel₀ q2.ne' this
  have hnn : n = n' := by
    refine (pow_left_inj₀ hn.le hn'.le (by norm_num : (2 : ℕ) ≠ 0)).1 ?_
    have e1 : n ^ 2 = (n * Real.sin φ) ^ 2 + (n * Real.cos φ) ^ 2 := by
      linear_combination -(n ^ 2) * s1
    have e3 : n' ^ 2 = (n' * Real.sin φ') ^ 2 + (n' * Real.cos φ') ^ 2 := by
      linear_combination -(n' ^ 2) * s2
    rw [e1, e3, hsin, hcos]
  subst hnn
  exact ⟨Real.injOn_sin r1 r2 (mul_left_cancel₀ hn.ne' hsin), mul_right_cancel₀ hn.ne' hq⟩

/-- On the equatorial plane. -/
theorem ecef_equator {x y k : ℝ} (hk : 0 < k) (h : x * x + y * y = k * k) (hne : k ≠ a - a6 * a) :
    ecefToLLA ⟨x, y, 0⟩ = .ok ⟨0, radToDeg (atan2 y x), k - a⟩ := by
  have hsqrt : Real.sqrt (k * k) = k := Real.sqrt_mul_self hk.le
  have hkk : k * k ≠ 0 := by positivity
  unfold ecefToLLA
  simp only [abs_zero, mul_zero, add_zero, h, hsqrt, if_neg hkk, lt_irrefl, if_false]
  have hguess : firstGuess 0 k k (0 / (k * k)) (k * k / (k * k)) (a2 / k) (a3 - a4 / k) = .ok ⟨0, 0, 1, 0⟩ := by
    unfold firstGuess
    rw [div_self hkk, if_pos (by norm_num)]
    simp
  rw [hguess]
  simp only [Outcome.ok_bind]
  have hrefine : refine 0 k ⟨0, 0, 1, 0⟩ = .ok (0, k - a) := by
    unfold refine
    simp only [mul_zero, sub_zero, Real.sqrt_one, div_one, mul_one, one_mul, zero_mul, add_zero, zero_div]
    rw [if_neg]
    intro e
    apply hne
    linarith
  rw [hrefine]
  simp [radToDeg]

/-- On the axis. -/
theorem ecef_pole {z : ℝ} (hz : z ≠ 0) :
    ecefToLLA ⟨0, 0, z⟩ = .ok ⟨if z < 0 then -90 else 90, 0, |z| - a6 * (a / Real.sqrt (1 - e2))⟩ := by
  have hzz : z * z ≠ 0 := mul_ne_zero hz hz
  have hsqrt : Real.sqrt (z * z) = |z| := Real.sqrt_mul_self_eq_abs z
  unfold ecefToLLA
  simp only [mul_zero, add_zero, zero_add, hsqrt, if_neg hzz, Real.sqrt_zero]
  have hguess : firstGuess |z| 0 |z| (z * z / (z * z)) (0 / (z * z)) (a2 / |z|) (a3 - a4 / |z|) =
      .ok ⟨Real.pi / 2, 1, 0, 1⟩ := by
    unfold firstGuess
    rw [zero_div, if_neg (by norm_num)]
    simp
  rw [hguess]
  simp only [Outcome.ok_bind]
  have he : 0 < 1 - e2 := by have := e2_lt; linarith
  have hrefine : refine |z| 0 ⟨Real.pi / 2, 1, 0, 1⟩ = .ok (Real.pi / 2, |z| - a6 * (a / Real.sqrt (1 - e2))) := by
    unfold refine
    simp only [mul_zero, mul_one, one_mul, zero_mul, zero_add, zero_div, add_zero, sub_self]
    rw [if_neg]
    have h6 : 0 < a6 * (a / Real.sqrt (1 - e2)) := by
      have := a_pos
      have : 0 < a6 := by norm_num [a6]
      have := Real.sqrt_pos.2 he
      positivity
    have h1 : a6 * (a / Real.sqrt (1 - e2)) ≤ a6 * (a / Real.sqrt (1 - e2)) / (1 - e2) := by
      rw [le_div_iff₀ he]
      nlinarith [e2_pos]
    have := abs_pos.2 hz
    linarith
  rw [hrefine]
  simp only [Outcome.ok_bind]
  have h90 : Real.pi / 2 * (180 / Real.pi) = 90 := by
    have := Real.pi_pos.ne'
    field_simp
    norm_num
  have harg : atan2 0 0 = 0 := by
    unfold atan2
    exact Complex.arg_zero
  rw [harg]
  congr 2
  · split
    · unfold radToDeg
      linarith
    · exact h90
  · unfold radToDeg
    ring

end Gps
end Theia
