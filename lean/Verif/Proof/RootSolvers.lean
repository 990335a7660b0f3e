import Verif.Model.RootSolvers
import Mathlib.Analysis.SpecialFunctions.Trigonometric.Bounds
import Mathlib.Tactic.LinearCombination
import Mathlib.Tactic.FieldSimp
import Mathlib.Tactic.Positivity

/-!
# Lemmas on the root solvers
-/

namespace Theia
namespace Roots

open Complex

theorem factor_of_sum_mul {a b c r0 r1 : ℂ} (hs : a * (r0 + r1) = -b) (hp : a * (r0 * r1) = c) (x : ℂ) :
    a * x ^ 2 + b * x + c = a * (x - r0) * (x - r1) := by
  linear_combination x * hs - hp

/-- The two roots in the stable form. -/
theorem stable_roots {a b c s : ℝ} (ha : a ≠ 0) (hs : s ^ 2 = b * b - 4 * a * c) {t : ℝ} (ht : t ≠ 0)
    (htt : t = -b - s ∨ t = -b + s) :
    a * (t / (2 * a) + 2 * c / t) = -b ∧ a * (t / (2 * a) * (2 * c / t)) = c := by
  have h2 : t ^ 2 = -2 * b * t - 4 * a * c := by
    rcases htt with rfl | rfl
    · linear_combination hs
    · linear_combination hs
  constructor
  · field_simp
    linear_combination h2
  · field_simp

theorem omega_sq : omega ^ 2 = -1 - omega := by
  have h3 : Real.sqrt 3 ^ 2 = 3 := Real.sq_sqrt (by norm_num)
  apply Complex.ext
  · simp only [omega, pow_two, mul_re, sub_re, neg_re, one_re]
    nlinarith
  · simp only [omega, pow_two, mul_im, sub_im, neg_im, one_im]
    ring

theorem omega_cube : omega ^ 3 = 1 := by
  linear_combination (omega - 1) * omega_sq

/-- Cardano's formula. -/
theorem cardano {u v p q : ℂ} (h1 : u ^ 3 + v ^ 3 = -q) (h2 : 3 * u * v = -p) (x : ℂ) :
    x ^ 3 + p * x + q =
      (x - (u + v)) * (x - (u * omega + v * omega * omega)) * (x - (u * omega * omega + v * omega)) := by
  have hw := omega_sq
  have hw3 := omega_cube
  have e2 : omega * omega = -1 - omega := by rw [← pow_two]; exact hw
  have expand : (x - (u + v)) * (x - (u * omega + v * omega * omega)) * (x - (u * omega * omega + v * omega)) =
      x ^ 3 - 3 * u * v * x - (u ^ 3 + v ^ 3) := by
    rw [mul_assoc v, mul_assoc u, e2]
    linear_combination (x ^ 2 * 0 + (x * (-u ^ 2 - v ^ 2 + u * v * 2) + (u + v) * (u ^ 2 + v ^ 2 - 2 * u * v)) ) * hw
  rw [expand, h1, h2]
  ring

/-- The value of the depressed cubic at one of the returned numbers. -/
theorem cardano_value {u v p q : ℂ} (h1 : u ^ 3 + v ^ 3 = -q) {k l : ℂ} (hk : k ^ 3 = 1) (hl : l ^ 3 = 1)
    (hkl : k * l = 1) :
    (u * k + v * l) ^ 3 + p * (u * k + v * l) + q = (u * k + v * l) * (3 * u * v + p) := by
  linear_combination h1 + u ^ 3 * hk + v ^ 3 * hl + 3 * u * v * (u * k + v * l) * hkl

theorem cbrt_pow (z : ℂ) : cbrt z ^ 3 = z := by
  unfold cbrt
  simp [one_div]

theorem cbrtSide_pow (below : Bool) (z : ℂ) : cbrtSide below z ^ 3 = z := by
  unfold cbrtSide
  split
  · rw [← map_pow, cbrt_pow, conj_conj]
  · exact cbrt_pow z

theorem sqrt_sq (z : ℂ) : (z ^ (1 / 2 : ℂ)) ^ 2 = z := by
  simp [one_div]

theorem sqrt_of_nonneg {t : ℝ} (ht : 0 ≤ t) : (t : ℂ) ^ (1 / 2 : ℂ) = (Real.sqrt t : ℂ) := by
  rw [Real.sqrt_eq_rpow, Complex.ofReal_cpow ht]
  norm_num

/-- The value on the unit circle with angle 60 degrees. -/
noncomputable def zeta : ℂ := ⟨1 / 2, Real.sqrt 3 / 2⟩

theorem exp_zeta : Complex.exp (Real.pi * I * (1 / 3 : ℂ)) = zeta := by
  have : (Real.pi * I * (1 / 3 : ℂ)) = ((Real.pi / 3 : ℝ) : ℂ) * I := by push_cast; ring
  rw [this, Complex.exp_mul_I, ← Complex.ofReal_cos, ← Complex.ofReal_sin, Real.cos_pi_div_three,
    Real.sin_pi_div_three]
  apply Complex.ext <;> simp [zeta]

theorem cbrt_of_nonneg {r : ℝ} (hr : 0 ≤ r) : ∃ k : ℝ, 0 ≤ k ∧ k ^ 3 = r ∧ cbrt (r : ℂ) = (k : ℂ) := by
  refine ⟨r ^ (1 / 3 : ℝ), Real.rpow_nonneg hr _, ?_, ?_⟩
  · rw [← Real.rpow_natCast, ← Real.rpow_mul hr]
    norm_num
  · unfold cbrt
    rw [Complex.ofReal_cpow hr]
    norm_num

theorem cbrt_of_nonpos {r : ℝ} (hr : r ≤ 0) : ∃ k : ℝ, 0 ≤ k ∧ k ^ 3 = -r ∧ cbrt (r : ℂ) = (k : ℂ) * zeta := by
  obtain ⟨k, hk, hk3, he⟩ := cbrt_of_nonneg (r := -r) (by linarith)
  refine ⟨k, hk, hk3, ?_⟩
  unfold cbrt at he ⊢
  rw [Complex.ofReal_cpow_of_nonpos hr, exp_zeta, ← he]
  push_cast
  rfl

theorem real_cube_injective {x y : ℝ} (h : x ^ 3 = y ^ 3) : x = y := by
  have hodd : Odd 3 := ⟨1, by norm_num⟩
  exact hodd.strictMono_pow.injective h

theorem zeta_mul_conj : zeta * (starRingEnd ℂ) zeta = 1 := by
  have h3 : Real.sqrt 3 * Real.sqrt 3 = 3 := Real.mul_self_sqrt (by norm_num)
  apply Complex.ext
  · simp only [zeta, mul_re, conj_re, conj_im, one_re]
    nlinarith
  · simp only [zeta, mul_im, conj_re, conj_im, one_im]
    ring

/-- If the product of the two cube roots is real it is the right one. -/
theorem product_of_real {p : ℝ} {u v : ℂ} (h : (u * v) ^ 3 = ((-p / 3 : ℝ) : ℂ) ^ 3) (hr : (u * v).im = 0) :
    3 * u * v = -(p : ℂ) := by
  have hx : u * v = ((u * v).re : ℂ) := by
    apply Complex.ext <;> simp [hr]
  rw [hx] at h
  have h' : (u * v).re = -p / 3 := by
    apply real_cube_injective
    exact_mod_cast h
  have : u * v = ((-p / 3 : ℝ) : ℂ) := by rw [hx, h']
  rw [mul_assoc, this]
  push_cast
  ring

/-- The numbers whose cube roots are taken. -/
theorem bases {p q : ℝ} {s : ℂ} (hs : s ^ 2 = ((q * q / 4 + p * p * p / 27 : ℝ) : ℂ)) :
    (((-0.5 * q : ℝ) : ℂ) + s) * (((-0.5 * q : ℝ) : ℂ) - s) = ((-p / 3 : ℝ) : ℂ) ^ 3 ∧
    (((-0.5 * q : ℝ) : ℂ) + s) + (((-0.5 * q : ℝ) : ℂ) - s) = -(q : ℂ) := by
  constructor
  · have : (((-0.5 * q : ℝ) : ℂ) + s) * (((-0.5 * q : ℝ) : ℂ) - s) = ((-0.5 * q : ℝ) : ℂ) ^ 2 - s ^ 2 := by ring
    rw [this, hs]
    push_cast
    norm_num
    ring
  · push_cast
    norm_num
    ring

/-- When the product of the cube roots is right: `p < 0`, and if the cube roots are taken above the cut, unless
both bases are negative. -/
theorem product_right {below : Bool} {p q : ℝ} (hp : p < 0)
    (hside : below = true ∨ q ≤ 0 ∨ q * q / 4 + p * p * p / 27 < 0) :
    3 * cbrt (((-0.5 * q : ℝ) : ℂ) + ((q * q / 4 + p * p * p / 27 : ℝ) : ℂ) ^ (1 / 2 : ℂ)) *
      cbrtSide below (((-0.5 * q : ℝ) : ℂ) - ((q * q / 4 + p * p * p / 27 : ℝ) : ℂ) ^ (1 / 2 : ℂ)) = -(p : ℂ) := by
  set temp := q * q / 4 + p * p * p / 27 with htemp
  have hs := sqrt_sq (temp : ℂ)
  obtain ⟨hb1, hb2⟩ := bases (p := p) (q := q) (s := (temp : ℂ) ^ (1 / 2 : ℂ)) hs
  apply product_of_real
  · rw [mul_pow, cbrt_pow, cbrtSide_pow, hb1]
  · by_cases ht : temp < 0
    · -- conjugate bases
      have hsi : ∃ t : ℝ, t ≠ 0 ∧ (temp : ℂ) ^ (1 / 2 : ℂ) = t * I := by
        have h2 : (((temp : ℂ) ^ (1 / 2 : ℂ))) ^ 2 = (temp : ℂ) := hs
        set s := (temp : ℂ) ^ (1 / 2 : ℂ)
        have hre : s.re * s.im = 0 := by
          have := congrArg Complex.im h2
          simp [pow_two] at this
          linarith
        have hre2 : s.re * s.re - s.im * s.im = temp := by
          have := congrArg Complex.re h2
          simpa [pow_two] using this
        have h0 : s.re = 0 := by
          rcases mul_eq_zero.1 hre with h | h
          · exact h
          · exfalso
            rw [h] at hre2
            nlinarith [mul_self_nonneg s.re]
        refine ⟨s.im, ?_, ?_⟩
        · intro h
          rw [h0, h] at hre2
          linarith
        · apply Complex.ext <;> simp [h0]
      obtain ⟨t, ht0, hst⟩ := hsi
      rw [hst]
      have hconj : ((-0.5 * q : ℝ) : ℂ) - t * I = (starRingEnd ℂ) (((-0.5 * q : ℝ) : ℂ) + t * I) := by
        rw [map_add, map_mul, conj_ofReal, conj_ofReal, conj_I]
        ring
      have hv : cbrtSide below (((-0.5 * q : ℝ) : ℂ) - t * I) =
          (starRingEnd ℂ) (cbrt (((-0.5 * q : ℝ) : ℂ) + t * I)) := by
        rw [hconj]
        unfold cbrtSide
        split
        · rw [conj_conj]
        · unfold cbrt
          rw [Complex.conj_cpow]
          · congr 2
            simp [map_ofNat]
          · intro harg
            rw [Complex.arg_eq_pi_iff] at harg
            apply ht0
            have := harg.2
            simpa using this
      rw [hv, Complex.mul_conj]
      exact Complex.ofReal_im _
    · rw [not_lt] at ht
      rw [sqrt_of_nonneg ht]
      have hsq : Real.sqrt temp * Real.sqrt temp = temp := Real.mul_self_sqrt ht
      have hsn := Real.sqrt_nonneg temp
      have hp3 : p * p * p < 0 := by nlinarith [mul_pos_of_neg_of_neg hp hp]
      have hc1 : ((-0.5 * q : ℝ) : ℂ) + (Real.sqrt temp : ℂ) = ((-0.5 * q + Real.sqrt temp : ℝ) : ℂ) := by
        push_cast; ring
      have hc2 : ((-0.5 * q : ℝ) : ℂ) - (Real.sqrt temp : ℂ) = ((-0.5 * q - Real.sqrt temp : ℝ) : ℂ) := by
        push_cast; ring
      rw [hc1, hc2]
      rcases le_or_gt q 0 with hq | hq
      · -- both bases nonnegative
        have hz : Real.sqrt temp ≤ -0.5 * q := by
          apply Real.sqrt_le_iff.2
          constructor
          · linarith
          · rw [htemp]; nlinarith
        obtain ⟨k, _, _, ek⟩ := cbrt_of_nonneg (r := -0.5 * q + Real.sqrt temp) (by linarith)
        obtain ⟨m, _, _, em⟩ := cbrt_of_nonneg (r := -0.5 * q - Real.sqrt temp) (by linarith)
        have hv : cbrtSide below ((-0.5 * q - Real.sqrt temp : ℝ) : ℂ) = (m : ℂ) := by
          unfold cbrtSide
          split
          · rw [conj_ofReal, em, conj_ofReal]
          · exact em
        rw [ek, hv]
        simp
      · -- both bases negative
        have hb : below = true := by
          rcases hside with h | h | h
          · exact h
          · linarith
          · linarith
        have hz : Real.sqrt temp ≤ 0.5 * q := by
          apply Real.sqrt_le_iff.2
          constructor
          · linarith
          · rw [htemp]; nlinarith
        obtain ⟨k, _, _, ek⟩ := cbrt_of_nonpos (r := -0.5 * q + Real.sqrt temp) (by linarith)
        obtain ⟨m, _, _, em⟩ := cbrt_of_nonpos (r := -0.5 * q - Real.sqrt temp) (by linarith)
        have hv : cbrtSide below ((-0.5 * q - Real.sqrt temp : ℝ) : ℂ) = (m : ℂ) * (starRingEnd ℂ) zeta := by
          rw [hb]
          unfold cbrtSide
          simp only [if_true]
          rw [conj_ofReal, em, map_mul, conj_ofReal]
        rw [ek, hv]
        have : (k : ℂ) * zeta * ((m : ℂ) * (starRingEnd ℂ) zeta) = ((k * m : ℝ) : ℂ) := by
          push_cast
          linear_combination (k * m : ℂ) * zeta_mul_conj
        rw [this]
        exact Complex.ofReal_im _

theorem zeta_im_pos : 0 < zeta.im := by
  unfold zeta
  simp only
  have := Real.sqrt_pos.2 (show (0 : ℝ) < 3 by norm_num)
  linarith

/-- When the product of the cube roots is not real: `p > 0`, or above the cut with both bases negative. -/
theorem product_wrong {below : Bool} {p q : ℝ}
    (h : 0 < p ∨ (below = false ∧ p < 0 ∧ 0 < q ∧ 0 ≤ q * q / 4 + p * p * p / 27)) :
    3 * cbrt (((-0.5 * q : ℝ) : ℂ) + ((q * q / 4 + p * p * p / 27 : ℝ) : ℂ) ^ (1 / 2 : ℂ)) *
      cbrtSide below (((-0.5 * q : ℝ) : ℂ) - ((q * q / 4 + p * p * p / 27 : ℝ) : ℂ) ^ (1 / 2 : ℂ)) + (p : ℂ) ≠ 0 := by
  set temp := q * q / 4 + p * p * p / 27 with htemp
  have ht : 0 ≤ temp := by
    rcases h with h | h
    · have : 0 < p * p * p := by positivity
      nlinarith [mul_self_nonneg q]
    · exact h.2.2.2
  rw [sqrt_of_nonneg ht]
  have hsq : Real.sqrt temp * Real.sqrt temp = temp := Real.mul_self_sqrt ht
  have hsn := Real.sqrt_nonneg temp
  have hc1 : ((-0.5 * q : ℝ) : ℂ) + (Real.sqrt temp : ℂ) = ((-0.5 * q + Real.sqrt temp : ℝ) : ℂ) := by
    push_cast; ring
  have hc2 : ((-0.5 * q : ℝ) : ℂ) - (Real.sqrt temp : ℂ) = ((-0.5 * q - Real.sqrt temp : ℝ) : ℂ) := by
    push_cast; ring
  rw [hc1, hc2]
  have hzi := zeta_im_pos
  have hpos : ∀ {k r : ℝ}, 0 ≤ k → k ^ 3 = r → 0 < r → 0 < k := by
    intro k r h0 h1 h2
    rcases lt_or_eq_of_le h0 with h | h
    · exact h
    · rw [← h] at h1
      norm_num at h1
      linarith
  rcases h with hp | ⟨hb, hp, hq, _⟩
  · have hp3 : 0 < p * p * p := by positivity
    have hz : |0.5 * q| < Real.sqrt temp := by
      apply Real.lt_sqrt_of_sq_lt
      rw [sq_abs, htemp]
      nlinarith
    rw [abs_lt] at hz
    obtain ⟨k, k0, k3, ek⟩ := cbrt_of_nonneg (r := -0.5 * q + Real.sqrt temp) (by linarith)
    obtain ⟨m, m0, m3, em⟩ := cbrt_of_nonpos (r := -0.5 * q - Real.sqrt temp) (by linarith)
    have hk := hpos k0 k3 (by linarith)
    have hm := hpos m0 m3 (by linarith)
    intro hc
    have him := congrArg Complex.im hc
    unfold cbrtSide at him
    split at him
    · rw [conj_ofReal, em, ek] at him
      simp at him
      rcases him with h | h | h <;> linarith
    · rw [em, ek] at him
      simp at him
      rcases him with h | h | h <;> linarith
  · have hp3 : p * p * p < 0 := by nlinarith [mul_pos_of_neg_of_neg hp hp]
    have hz : Real.sqrt temp < 0.5 * q := by
      rw [Real.sqrt_lt' (by linarith), htemp]
      nlinarith
    obtain ⟨k, k0, k3, ek⟩ := cbrt_of_nonpos (r := -0.5 * q + Real.sqrt temp) (by linarith)
    obtain ⟨m, m0, m3, em⟩ := cbrt_of_nonpos (r := -0.5 * q - Real.sqrt temp) (by linarith)
    have hk := hpos k0 k3 (by linarith)
    have hm := hpos m0 m3 (by linarith)
    intro hc
    have him := congrArg Complex.im hc
    rw [hb] at him
    unfold cbrtSide at him
    simp only [Bool.false_eq_true, if_false] at him
    rw [em, ek] at him
    have hzr : zeta.re = 1 / 2 := rfl
    simp [hzr] at him
    have : 0 < k * m * zeta.im := by positivity
    nlinarith

end Roots
end Theia
