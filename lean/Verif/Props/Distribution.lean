import Mathlib.Probability.Distributions.Gaussian.Real
import Mathlib.MeasureTheory.Integral.IntervalIntegral.Basic
import Mathlib.Tactic.FieldSimp
import Mathlib.Tactic.Ring
import Verif.Model.Distribution

/-!
# C113: normal and uniform distributions
-/

namespace Theia

open Distr MeasureTheory ProbabilityTheory

namespace Distr

theorem normal_eval {mean sigma : ℝ} (hs : 0 < sigma) {d : Normal} (h : Normal.new mean sigma = .ok d) (v : NNReal)
    (hv : (v : ℝ) = sigma ^ 2) (x : ℝ) : d.eval x = gaussianPDFReal mean v x := by
  unfold Normal.new at h
  rw [if_pos hs] at h
  cases h
  simp only [Normal.eval, gaussianPDFReal, hv]
  have h1 : Real.sqrt (2 * Real.pi * sigma ^ 2) = sigma * Real.sqrt (2 * Real.pi) := by
    rw [Real.sqrt_mul (by positivity), Real.sqrt_sq hs.le, mul_comm]
  rw [h1, one_div]
  congr 2
  field_simp

end Distr

/-- **C113.** The constructors end the program exactly if the standard deviation is not positive or the left end is not
left of the right end. -/
theorem C113_abort (a b : ℝ) : (Normal.new a b = .abort ↔ b ≤ 0) ∧ (Uniform.new a b = .abort ↔ b ≤ a) ∧
    Normal.new a b ≠ .ub ∧ Uniform.new a b ≠ .ub := by
  refine ⟨?_, ?_, ?_, ?_⟩
  · unfold Normal.new
    by_cases h : b > 0
    · simp [h]
    · simp [h, not_lt.1 h]
  · unfold Uniform.new
    by_cases h : a < b
    · simp [h, h.ne']
    · simp [h, not_lt.1 h]
  · unfold Normal.new
    split <;> simp
  · unfold Uniform.new
    split
    · split <;> simp
    · simp

/-- **C113.** The normal distribution is a probability density: the one of the Gaussian law with the given mean and the
square of the given standard deviation as variance. -/
theorem C113_normal (mean sigma : ℝ) (hs : 0 < sigma) : ∃ d, Normal.new mean sigma = .ok d ∧
    (∀ x, 0 < d.eval x) ∧ ∫ x, d.eval x = 1 ∧ ∫ x, x * d.eval x = mean ∧ ∫ x, (x - mean) ^ 2 * d.eval x = sigma ^ 2 := by
  have hd : Normal.new mean sigma = .ok ⟨1 / (sigma * Real.sqrt (2 * Real.pi)), -1 / (2 * sigma * sigma), mean⟩ := by
    unfold Normal.new
    rw [if_pos hs]
  refine ⟨_, hd, ?_⟩
  obtain ⟨v, hv'⟩ : ∃ v : NNReal, (v : ℝ) = sigma ^ 2 := ⟨(sigma ^ 2).toNNReal, Real.coe_toNNReal _ (sq_nonneg _)⟩
  have he := normal_eval hs hd v hv'
  have hv : v ≠ 0 := by
    rintro rfl
    rw [NNReal.coe_zero] at hv'
    exact (pow_pos hs 2).ne hv'
  have hm : ∀ f : ℝ → ℝ, ∫ x, f x * gaussianPDFReal mean v x = ∫ x, f x ∂gaussianReal mean v := by
    intro f
    rw [integral_gaussianReal_eq_integral_smul hv]
    simp only [smul_eq_mul, mul_comm]
  refine ⟨?_, ?_, ?_, ?_⟩
  · intro x
    rw [he]
    exact gaussianPDFReal_pos _ _ _ hv
  · simp only [he]
    exact integral_gaussianPDFReal_eq_one _ hv
  · simp only [he]
    rw [hm fun x => x]
    exact integral_id_gaussianReal
  · simp only [he]
    rw [hm fun x => (x - mean) ^ 2, ← hv']
    have := variance_fun_id_gaussianReal (μ := mean) (v := v)
    rw [variance_eq_integral (by fun_prop)] at this
    simpa only [integral_id_gaussianReal] using this

/-- **C113.** The normal distribution is symmetric about its mean and decreases with the distance from it. -/
theorem C113_normal_shape (mean sigma : ℝ) (d : Normal) (h : Normal.new mean sigma = .ok d) (x y : ℝ) :
    d.eval x < d.eval y ↔ |y - mean| < |x - mean| := by
  unfold Normal.new at h
  split at h
  · rename_i hs
    cases h
    have hs : 0 < sigma := hs
    simp only [Normal.eval]
    have ha : 0 < 1 / (sigma * Real.sqrt (2 * Real.pi)) := by positivity
    rw [mul_lt_mul_iff_right₀ ha, Real.exp_lt_exp, ← sq_lt_sq]
    have e : ∀ t : ℝ, -1 / (2 * sigma * sigma) * t * t = -(t ^ 2) / (2 * sigma * sigma) := fun t => by ring
    rw [e, e, div_lt_div_iff_of_pos_right (by positivity), neg_lt_neg_iff]
  · cases h

/-- **C113.** The uniform distribution is a probability density: an interval inside the span has the probability of its
share of the length, nothing has a probability outside. -/
theorem C113_uniform (left right : ℝ) (h : left < right) : ∃ d, Uniform.new left right = .ok d ∧
    (∀ x, 0 ≤ d.eval x) ∧ ∫ x, d.eval x = 1 ∧ (∀ x, x < left ∨ right < x → d.eval x = 0) ∧
    ∀ a b, left ≤ a → a ≤ b → b ≤ right → ∫ x in a..b, d.eval x = (b - a) / (right - left) := by
  have hd : Uniform.new left right = .ok ⟨left, right, 1 / (right - left)⟩ := by
    unfold Uniform.new
    rw [if_pos h, if_neg h.ne', if_neg h.ne]
  have hp : 0 < right - left := sub_pos.2 h
  refine ⟨_, hd, ?_, ?_, ?_, ?_⟩
  · intro x
    unfold Uniform.eval
    split
    · exact (one_div_pos.2 hp).le
    · exact le_rfl
  · have : (Uniform.eval ⟨left, right, 1 / (right - left)⟩) = Set.indicator (Set.Icc left right) fun _ => 1 / (right - left) := by
      ext x
      simp only [Uniform.eval, Set.indicator, Set.mem_Icc]
    rw [this, integral_indicator measurableSet_Icc]
    simp [hp.le, hp.ne']
  · intro x hx
    unfold Uniform.eval
    rw [if_neg]
    rintro ⟨h1, h2⟩
    simp only at h1 h2
    rcases hx with hx | hx
    · exact absurd h1 (not_le.2 hx)
    · exact absurd h2 (not_le.2 hx)
  · intro a b ha hab hb
    have : ∫ x in a..b, Uniform.eval ⟨left, right, 1 / (right - left)⟩ x = ∫ _ in a..b, 1 / (right - left) := by
      apply intervalIntegral.integral_congr
      intro x hx
      rw [Set.uIcc_of_le hab] at hx
      simp only [Uniform.eval]
      rw [if_pos ⟨ha.trans hx.1, hx.2.trans hb⟩]
    rw [this, intervalIntegral.integral_const, smul_eq_mul]
    ring

section Examples

/-- The standard normal distribution exists, and the one with deviation zero does not. -/
example : (∃ d, Normal.new 0 1 = .ok d) ∧ Normal.new 0 0 = .abort :=
  ⟨⟨_, (C113_normal 0 1 one_pos).choose_spec.1⟩, (C113_abort 0 0).1.2 le_rfl⟩

/-- A quarter of the span has the probability 1/4. -/
example : ∃ d, Uniform.new 2 6 = .ok d ∧ ∫ x in (3 : ℝ)..4, d.eval x = 1 / 4 := by
  obtain ⟨d, hd, -, -, -, h⟩ := C113_uniform 2 6 (by norm_num)
  exact ⟨d, hd, by rw [h 3 4 (by norm_num) (by norm_num) (by norm_num)]; norm_num⟩

end Examples

end Theia
