import Mathlib.Data.Rat.Floor
import Mathlib.Tactic.Ring
import Mathlib.Tactic.Linarith
import Mathlib.Tactic.Positivity
import Mathlib.Tactic.FieldSimp
import Mathlib.Algebra.Order.Field.Power

/-!
# Rounding to single precision

The result of an operation on `float` is the exact result rounded to 24 significant bits, to the
nearest, and to the even one of two that are equally near.
-/

namespace Theia

/-- The exponent of a rational: the power of two at or below its magnitude. -/
def exponent (x : ℚ) : ℤ :=
  let e : ℤ := (Nat.log2 x.num.natAbs : ℤ) - (Nat.log2 x.den : ℤ)
  if (2 : ℚ) ^ e ≤ |x| then e else e - 1

/-- The nearest integer, the even one of two. -/
def roundEven (y : ℚ) : ℤ :=
  let f := y.floor
  let r := y - f
  if r < 1 / 2 then f
  else if 1 / 2 < r then f + 1
  else if f % 2 = 0 then f else f + 1

/-- The result of an operation on floats: the exact result rounded to 24 significant bits, to the
nearest and to even.  Simplification: the exponent is not bounded. -/
def roundFloat (x : ℚ) : ℚ :=
  if x = 0 then 0
  else
    let unit : ℚ := 2 ^ (exponent x - 23)
    roundEven (x / unit) * unit

theorem exponent_le {x : ℚ} (hx : x ≠ 0) : (2 : ℚ) ^ exponent x ≤ |x| := by
  unfold exponent
  simp only
  split_ifs with h
  · exact h
  · have hn : x.num.natAbs ≠ 0 := by simpa using hx
    have h1 : 2 ^ Nat.log2 x.num.natAbs ≤ x.num.natAbs := Nat.log2_self_le hn
    have h2 : x.den < 2 ^ (Nat.log2 x.den + 1) := Nat.lt_log2_self
    have hd : (0 : ℚ) < x.den := by exact_mod_cast x.pos
    have hax : |x| = (x.num.natAbs : ℚ) / x.den := by
      conv_lhs => rw [← Rat.num_div_den x]
      rw [abs_div, Nat.abs_cast]
      congr 1
      rw [← Int.cast_abs, Int.abs_eq_natAbs]
      rfl
    rw [hax, le_div_iff₀ hd]
    have h1' : ((2 : ℚ) ^ Nat.log2 x.num.natAbs) ≤ x.num.natAbs := by exact_mod_cast h1
    have h2' : (x.den : ℚ) ≤ 2 ^ (Nat.log2 x.den + 1) := by exact_mod_cast h2.le
    calc (2 : ℚ) ^ ((Nat.log2 x.num.natAbs : ℤ) - (Nat.log2 x.den : ℤ) - 1) * x.den
        ≤ (2 : ℚ) ^ ((Nat.log2 x.num.natAbs : ℤ) - (Nat.log2 x.den : ℤ) - 1) *
          2 ^ (Nat.log2 x.den + 1) := by
          exact mul_le_mul_of_nonneg_left h2' (zpow_nonneg (by norm_num) _)
      _ = 2 ^ Nat.log2 x.num.natAbs := by
          rw [← zpow_natCast, ← zpow_natCast, ← zpow_add₀ (by norm_num)]
          congr 1
          push_cast
          ring
      _ ≤ _ := h1'

theorem roundEven_near (y : ℚ) : |(roundEven y : ℚ) - y| ≤ 1 / 2 := by
  have h1 : (y.floor : ℚ) ≤ y := Rat.floor_le y
  have h2 : y < (y.floor : ℚ) + 1 := by
    have := Rat.lt_floor_add_one y
    exact_mod_cast this
  unfold roundEven
  simp only
  rw [abs_le]
  split_ifs <;> push_cast <;> constructor <;> linarith

theorem roundFloat_near (x : ℚ) : |roundFloat x - x| ≤ |x| / 2 ^ 24 := by
  unfold roundFloat
  split_ifs with h
  · simp [h]
  · have hu : (0 : ℚ) < 2 ^ (exponent x - 23) := zpow_pos (by norm_num) _
    have hr := roundEven_near (x / 2 ^ (exponent x - 23))
    have he := exponent_le h
    have hs : (2 : ℚ) ^ exponent x = 2 ^ (exponent x - 23) * 2 ^ 23 := by
      rw [← zpow_natCast, ← zpow_add₀ (by norm_num)]
      congr 1
      ring
    rw [hs] at he
    simp only
    generalize (2 : ℚ) ^ (exponent x - 23) = u at *
    have hx : (roundEven (x / u) : ℚ) * u - x = ((roundEven (x / u) : ℚ) - x / u) * u := by
      field_simp
    rw [hx, abs_mul, abs_of_pos hu]
    have := mul_le_mul_of_nonneg_right hr hu.le
    rw [le_div_iff₀ (by positivity)]
    nlinarith

theorem roundFloat_nonneg {x : ℚ} (hx : 0 ≤ x) : 0 ≤ roundFloat x := by
  have h := (abs_le.1 (roundFloat_near x)).1
  rw [abs_of_nonneg hx] at h
  have : x / 2 ^ 24 ≤ x := div_le_self hx (by norm_num)
  linarith

theorem Rat.floor_natCast' (n : Nat) : Rat.floor (n : ℚ) = n := by
  change ⌊(n : ℚ)⌋ = _
  exact Int.floor_natCast n

/-- Integers of up to 24 bits are floats. -/
theorem roundFloat_natCast {n : Nat} (hn : n < 2 ^ 24) : roundFloat (n : ℚ) = n := by
  by_cases h0 : n = 0
  · subst h0; simp [roundFloat]
  have hq : (n : ℚ) ≠ 0 := by exact_mod_cast h0
  have hlog : Nat.log2 n ≤ 23 := by
    have : Nat.log2 n < 24 := (Nat.log2_lt h0).2 hn
    omega
  have he : exponent (n : ℚ) = Nat.log2 n := by
    unfold exponent
    have h1 : ((n : ℚ).num).natAbs = n := by simp
    have h2 : (n : ℚ).den = 1 := by simp
    rw [h1, h2]
    have h3 : Nat.log2 1 = 0 := by decide
    simp only [h3, Nat.cast_zero, sub_zero]
    rw [if_pos]
    rw [abs_of_nonneg (by positivity), zpow_natCast]
    exact_mod_cast Nat.log2_self_le h0
  unfold roundFloat
  rw [if_neg hq]
  simp only
  rw [he]
  obtain ⟨d, hd⟩ := Nat.exists_eq_add_of_le hlog
  have hu : (2 : ℚ) ^ ((Nat.log2 n : ℤ) - 23) = 1 / 2 ^ d := by
    have : ((Nat.log2 n : ℤ) - 23) = -(d : ℤ) := by omega
    rw [this, zpow_neg, zpow_natCast, one_div]
  rw [hu]
  have hy : (n : ℚ) / (1 / 2 ^ d) = ((n * 2 ^ d : ℕ) : ℚ) := by
    push_cast
    field_simp
  rw [hy]
  have hr : roundEven ((n * 2 ^ d : ℕ) : ℚ) = ((n * 2 ^ d : ℕ) : ℤ) := by
    unfold roundEven
    have hf : Rat.floor ((n * 2 ^ d : ℕ) : ℚ) = ((n * 2 ^ d : ℕ) : ℤ) :=
      Rat.floor_natCast' _
    simp only [hf]
    rw [if_pos]
    push_cast
    norm_num
  rw [hr]
  push_cast
  field_simp

/-- The mean of up to 65535 bytes, rounded to single precision, has the same whole part. -/
theorem floor_roundFloat_div {s n : Nat} (hn : 0 < n) (hn' : n < 2 ^ 16) (hs : s ≤ 255 * n) :
    (roundFloat ((s : ℚ) / n)).floor = ((s / n : ℕ) : ℤ) := by
  have hnq : (0 : ℚ) < n := by exact_mod_cast hn
  have hdiv := Nat.div_add_mod s n
  have hmod := Nat.mod_lt s hn
  have hq255 : s / n ≤ 255 := by
    rw [Nat.div_le_iff_le_mul_add_pred hn]
    have : n * 255 = 255 * n := Nat.mul_comm _ _
    omega
  by_cases h0 : s % n = 0
  · have : (s : ℚ) / n = ((s / n : ℕ) : ℚ) := by
      rw [div_eq_iff hnq.ne']
      have : s = s / n * n := by
        rw [h0, Nat.add_zero] at hdiv
        rw [Nat.mul_comm]
        exact hdiv.symm
      exact_mod_cast this
    rw [this, roundFloat_natCast (by omega), Rat.floor_natCast']
  · have hnear := abs_le.1 (roundFloat_near ((s : ℚ) / n))
    have hq0 : (0 : ℚ) ≤ (s : ℚ) / n := by positivity
    rw [abs_of_nonneg hq0] at hnear
    have hle : (s : ℚ) / n ≤ 255 := by
      rw [div_le_iff₀ hnq]
      exact_mod_cast hs
    have herr : (s : ℚ) / n / 2 ^ 24 ≤ 255 / 2 ^ 24 := by
      rw [div_le_div_iff_of_pos_right (by norm_num)]
      exact hle
    have hsmall : (255 : ℚ) / 2 ^ 24 * n < 1 := by
      have : (n : ℚ) ≤ 65536 := by
        have : n ≤ 65536 := by omega
        exact_mod_cast this
      norm_num
      linarith
    have hsq : (s : ℚ) = n * ((s / n : ℕ) : ℚ) + ((s % n : ℕ) : ℚ) := by exact_mod_cast hdiv.symm
    have hm1 : (1 : ℚ) ≤ ((s % n : ℕ) : ℚ) := by
      have : 1 ≤ s % n := by omega
      exact_mod_cast this
    have hm2 : ((s % n : ℕ) : ℚ) + 1 ≤ n := by
      have : s % n + 1 ≤ n := by omega
      exact_mod_cast this
    have h1 : ((s / n : ℕ) : ℚ) + 1 / n ≤ (s : ℚ) / n := by
      rw [le_div_iff₀ hnq, add_mul, one_div, inv_mul_cancel₀ hnq.ne']
      linarith
    have h2 : (s : ℚ) / n ≤ ((s / n : ℕ) : ℚ) + 1 - 1 / n := by
      rw [div_le_iff₀ hnq, sub_mul, add_mul, one_div, inv_mul_cancel₀ hnq.ne']
      linarith
    have h3 : (255 : ℚ) / 2 ^ 24 < 1 / n := by rwa [lt_div_iff₀ hnq]
    have h4 : ((s / n : ℕ) : ℚ) ≤ roundFloat ((s : ℚ) / n) := by linarith
    have h5 : roundFloat ((s : ℚ) / n) < ((s / n : ℕ) : ℚ) + 1 := by linarith
    change ⌊roundFloat ((s : ℚ) / n)⌋ = _
    rw [Int.floor_eq_iff]
    exact ⟨by exact_mod_cast h4, by exact_mod_cast h5⟩

end Theia
