import Verif.Proof.RootSolvers

/-!
# C37: closed-form root solvers

"All roots" is stated as a factorisation, so that it includes multiplicities: `a x² + b x + c` equals
`a (x - r0) (x - r1)` for every complex `x`.
-/

namespace Theia

open Roots Complex

/-- A quadratic, other than `a x²`, gets its two complex roots with multiplicities. -/
theorem C37_quadratic (a b c : ℝ) (ha : a ≠ 0) (hbc : b ≠ 0 ∨ c ≠ 0) :
    ∃ r0 r1 : ℂ, solveQuadratic a b c = .ok [r0, r1] ∧
      ∀ x : ℂ, a * x ^ 2 + b * x + c = a * (x - r0) * (x - r1) := by
  have ha' : (a : ℂ) ≠ 0 := by exact_mod_cast ha
  unfold solveQuadratic
  rw [if_neg ha]
  simp only
  by_cases hD : b * b - 4 * a * c ≥ 0
  · rw [if_pos hD, abs_of_nonneg hD]
    have hs := Real.sq_sqrt hD
    have hs0 := Real.sqrt_nonneg (b * b - 4 * a * c)
    set s := Real.sqrt (b * b - 4 * a * c)
    by_cases hb : b ≥ 0
    · have ht : -b - s ≠ 0 := by
        intro h
        have hb0 : b = 0 := by linarith
        have hs00 : s = 0 := by linarith
        rw [hs00, hb0] at hs
        have : a * c = 0 := by linarith
        rcases mul_eq_zero.1 this with h | h
        · exact ha h
        · rcases hbc with h' | h'
          · exact h' hb0
          · exact h' h
      rw [if_pos hb, if_neg ht]
      obtain ⟨h1, h2⟩ := stable_roots ha hs ht (Or.inl rfl)
      refine ⟨_, _, rfl, factor_of_sum_mul ?_ ?_⟩
      · exact_mod_cast h1
      · exact_mod_cast h2
    · have ht : -b + s ≠ 0 := by
        intro h
        linarith
      rw [if_neg hb, if_neg ht]
      obtain ⟨h1, h2⟩ := stable_roots ha hs ht (Or.inr rfl)
      refine ⟨_, _, rfl, factor_of_sum_mul ?_ ?_⟩
      · rw [add_comm] at h1
        exact_mod_cast h1
      · rw [mul_comm (_ / _)] at h2
        exact_mod_cast h2
  · rw [if_neg hD]
    rw [ge_iff_le, not_le] at hD
    rw [abs_of_neg hD]
    have hs := Real.sq_sqrt (le_of_lt (neg_pos.2 hD))
    set s := Real.sqrt (-(b * b - 4 * a * c))
    refine ⟨_, _, rfl, factor_of_sum_mul ?_ ?_⟩
    · apply Complex.ext
      · simp
        field_simp
        ring
      · simp
        right
        ring
    · apply Complex.ext
      · simp
        field_simp
        nlinarith
      · simp
        right
        ring

/-- A linear equation gets its root. -/
theorem C37_linear (b c : ℝ) (hb : b ≠ 0) :
    ∃ r : ℂ, solveQuadratic 0 b c = .ok [r] ∧ ∀ x : ℂ, b * x + c = b * (x - r) := by
  have hb' : (b : ℂ) ≠ 0 := by exact_mod_cast hb
  unfold solveQuadratic
  rw [if_pos rfl, if_neg hb]
  refine ⟨_, rfl, fun x => ?_⟩
  push_cast
  field_simp
  ring

/-- `a x² = 0` gives 0/0: not a number for one of the roots. -/
theorem C37_double_zero_counterexample (a : ℝ) (ha : a ≠ 0) : solveQuadratic a 0 0 = .ub := by
  unfold solveQuadratic
  rw [if_neg ha]
  simp

/-- The vector interface agrees with the other one on every quadratic with a nonzero leading coefficient. -/
theorem C37_find_quadratic (a b c : ℝ) (ha : a ≠ 0) :
    (∀ re im, findQuadratic [a, b, c] = .ok (re, im) →
      solveQuadratic a b c = .ok (List.zipWith Complex.mk re im)) ∧
    (findQuadratic [a, b, c] = .ub ↔ solveQuadratic a b c = .ub) := by
  have h2a : 2 * a ≠ 0 := by simpa using ha
  unfold findQuadratic solveQuadratic
  simp only [if_neg ha, h2a, false_or, if_false]
  have hmk : ∀ x : ℝ, (x : ℂ) = ⟨x, 0⟩ := fun x => rfl
  split
  · split
    · split
      · simp
      · simp only [Outcome.ok.injEq, Prod.mk.injEq, and_imp]
        refine ⟨?_, by simp⟩
        rintro re im rfl rfl
        simp [hmk]
    · split
      · simp
      · simp only [Outcome.ok.injEq, Prod.mk.injEq, and_imp]
        refine ⟨?_, by simp⟩
        rintro re im rfl rfl
        simp [hmk]
  · simp only [Outcome.ok.injEq, Prod.mk.injEq, and_imp]
    refine ⟨?_, by simp⟩
    rintro re im rfl rfl
    simp

/-- With a positive tolerance, the real version returns every real root of a list of complex roots, and nothing but real
parts of roots whose imaginary part is smaller than the tolerance in absolute value; without one it also returns the real
parts of roots that are not real, as for `x² + 1`. -/
theorem C37_reals (t : ℝ) (ht : 0 < t) (roots : List ℂ) :
    (∀ x : ℝ, (x : ℂ) ∈ roots → x ∈ reals (some t) roots) ∧
    (∀ x ∈ reals (some t) roots, ∃ z ∈ roots, z.re = x ∧ |z.im| < t) := by
  unfold reals
  simp only [List.mem_map, List.mem_filter, decide_eq_true_eq]
  refine ⟨fun x hx => ⟨(x : ℂ), ⟨hx, by simpa using ht⟩, by simp⟩, ?_⟩
  rintro x ⟨z, ⟨hz, him⟩, rfl⟩
  exact ⟨z, hz, rfl, him⟩

/-- The roots `1` and `-i`: only the first is real. -/
example : reals (some (1 / 2)) [1, -Complex.I] = [1] := by
  simp [reals]
  norm_num

/-- The vector interface finds the root of a linear polynomial. -/
theorem C37_find_linear (a b : ℝ) (ha : a ≠ 0) :
    ∃ r, findLinear [a, b] = .ok ([r], [0]) ∧ ∀ x : ℂ, a * x + b = a * (x - r) := by
  have ha' : (a : ℂ) ≠ 0 := by exact_mod_cast ha
  refine ⟨-b / a, by unfold findLinear; simp only [if_neg ha], fun x => ?_⟩
  push_cast
  field_simp
  ring

/-- Without a tolerance every root is kept, so `x² + 1` gets two real roots. -/
theorem C37_reals_counterexample : ∃ roots, solveQuadratic 1 0 1 = .ok roots ∧
    reals none roots = [0, 0] ∧ ∀ x : ℝ, x ^ 2 + 1 ≠ 0 := by
  refine ⟨_, by
    unfold solveQuadratic
    rw [if_neg one_ne_zero]
    simp only
    rw [if_neg (by norm_num)], ?_, ?_⟩
  · simp [reals]
  · intro x h
    nlinarith [sq_nonneg x]

/-! ## Cubics -/

/-- The coefficients of the depressed cubic. -/
noncomputable def cubicP (a b c : ℝ) : ℝ := (3 * a * c - b * b) / (3 * a * a)
noncomputable def cubicQ (a b c d : ℝ) : ℝ :=
  (2 * b * b * b - 9 * a * b * c + 27 * a * a * d) / (27 * a * a * a)

/-- A cubic with `3 a c < b²` gets its three complex roots with multiplicities. This uses that the second cube
root is taken below the branch cut; taken above, it needs `q ≤ 0` or three different real roots. -/
theorem C37_cubic_partial (below : Bool) (a b c d : ℝ) (ha : a ≠ 0) (h : 3 * a * c < b * b)
    (hside : below = true ∨ cubicQ a b c d ≤ 0 ∨
      cubicQ a b c d * cubicQ a b c d / 4 + cubicP a b c * cubicP a b c * cubicP a b c / 27 < 0) :
    ∃ r0 r1 r2 : ℂ, solveCubic below a b c d = .ok [r0, r1, r2] ∧
      ∀ x : ℂ, a * x ^ 3 + b * x ^ 2 + c * x + d = a * (x - r0) * (x - r1) * (x - r2) := by
  have ha' : (a : ℂ) ≠ 0 := by exact_mod_cast ha
  have haa : 0 < a * a := mul_self_pos.2 ha
  have hp : cubicP a b c < 0 := by
    unfold cubicP
    apply div_neg_of_neg_of_pos
    · linarith
    · nlinarith
  unfold solveCubic depressedCubic
  rw [if_neg ha]
  simp only [← cubicP.eq_1, ← cubicQ.eq_1]
  rw [if_neg (ne_of_lt hp)]
  have hprod := product_right hp hside
  have hs := sqrt_sq ((cubicQ a b c d * cubicQ a b c d / 4 + cubicP a b c * cubicP a b c * cubicP a b c / 27 : ℝ) : ℂ)
  obtain ⟨_, hsum⟩ := bases (p := cubicP a b c) (q := cubicQ a b c d) hs
  have hcubes := congrArg (fun z => z) hsum
  rw [← cbrt_pow (((-0.5 * cubicQ a b c d : ℝ) : ℂ) + _), ← cbrtSide_pow below (((-0.5 * cubicQ a b c d : ℝ) : ℂ) - _)] at hcubes
  refine ⟨_, _, _, rfl, fun x => ?_⟩
  have key := cardano hcubes hprod (x + ((b / (3 * a) : ℝ) : ℂ))
  have hl : (a : ℂ) * x ^ 3 + b * x ^ 2 + c * x + d =
      a * ((x + ((b / (3 * a) : ℝ) : ℂ)) ^ 3 + (cubicP a b c : ℂ) * (x + ((b / (3 * a) : ℝ) : ℂ)) +
        (cubicQ a b c d : ℂ)) := by
    unfold cubicP cubicQ
    push_cast
    field_simp
    ring
  rw [hl, key]
  ring

/-- With `3 a c > b²` (and `-b/(3a)` not a root), none of the three numbers returned is a root of the cubic. -/
theorem C37_cubic_counterexample (below : Bool) (a b c d : ℝ) (ha : a ≠ 0) (h : b * b < 3 * a * c)
    (hq : 2 * b * b * b - 9 * a * b * c + 27 * a * a * d ≠ 0) :
    ∃ r0 r1 r2 : ℂ, solveCubic below a b c d = .ok [r0, r1, r2] ∧
      ∀ r ∈ [r0, r1, r2], a * r ^ 3 + b * r ^ 2 + c * r + d ≠ 0 := by
  have ha' : (a : ℂ) ≠ 0 := by exact_mod_cast ha
  have haa : 0 < a * a := mul_self_pos.2 ha
  have hp : 0 < cubicP a b c := by
    unfold cubicP
    apply div_pos
    · linarith
    · nlinarith
  have hq' : cubicQ a b c d ≠ 0 := by
    unfold cubicQ
    apply div_ne_zero hq
    simp [ha]
  have hqc : (cubicQ a b c d : ℂ) ≠ 0 := by exact_mod_cast hq'
  unfold solveCubic depressedCubic
  rw [if_neg ha]
  simp only [← cubicP.eq_1, ← cubicQ.eq_1]
  rw [if_neg (ne_of_gt hp)]
  have hprod := product_wrong (below := below) (q := cubicQ a b c d) (Or.inl hp)
  have hs := sqrt_sq ((cubicQ a b c d * cubicQ a b c d / 4 + cubicP a b c * cubicP a b c * cubicP a b c / 27 : ℝ) : ℂ)
  obtain ⟨_, hsum⟩ := bases (p := cubicP a b c) (q := cubicQ a b c d) hs
  have hcubes := congrArg (fun z => z) hsum
  rw [← cbrt_pow (((-0.5 * cubicQ a b c d : ℝ) : ℂ) + _), ← cbrtSide_pow below (((-0.5 * cubicQ a b c d : ℝ) : ℂ) - _)] at hcubes
  refine ⟨_, _, _, rfl, ?_⟩
  revert hprod hcubes
  generalize cbrt (((-0.5 * cubicQ a b c d : ℝ) : ℂ) + _) = u
  generalize cbrtSide below (((-0.5 * cubicQ a b c d : ℝ) : ℂ) - _) = v
  intro hprod hcubes
  have hl : ∀ t : ℂ, (a : ℂ) * (t - ((b / (3 * a) : ℝ) : ℂ)) ^ 3 + b * (t - ((b / (3 * a) : ℝ) : ℂ)) ^ 2 +
      c * (t - ((b / (3 * a) : ℝ) : ℂ)) + d =
      a * (t ^ 3 + (cubicP a b c : ℂ) * t + (cubicQ a b c d : ℂ)) := by
    intro t
    unfold cubicP cubicQ
    push_cast
    field_simp
    ring
  have hgen : ∀ k l : ℂ, k ^ 3 = 1 → l ^ 3 = 1 → k * l = 1 →
      (a : ℂ) * ((u * k + v * l) - ((b / (3 * a) : ℝ) : ℂ)) ^ 3 + b * ((u * k + v * l) - ((b / (3 * a) : ℝ) : ℂ)) ^ 2 +
      c * ((u * k + v * l) - ((b / (3 * a) : ℝ) : ℂ)) + d ≠ 0 := by
    intro k l hk hl' hkl
    rw [hl, cardano_value hcubes hk hl' hkl]
    refine mul_ne_zero ha' (mul_ne_zero ?_ hprod)
    intro h0
    apply hqc
    have h1 : (u * k) ^ 3 = -(v * l) ^ 3 := by
      rw [eq_neg_of_add_eq_zero_left h0]
      ring
    have h2 : u ^ 3 = -v ^ 3 := by
      linear_combination h1 - u ^ 3 * hk - v ^ 3 * hl'
    linear_combination hcubes - h2
  have hw3 := omega_cube
  have hw33 : (omega * omega) ^ 3 = 1 := by
    linear_combination (omega ^ 3 + 1) * hw3
  have hww : omega * (omega * omega) = 1 := by linear_combination hw3
  have hww' : omega * omega * omega = 1 := by linear_combination hw3
  intro r hr
  simp only [List.mem_cons, List.not_mem_nil, or_false] at hr
  rcases hr with rfl | rfl | rfl
  · have := hgen 1 1 (by norm_num) (by norm_num) (by norm_num)
    simpa only [mul_one] using this
  · have := hgen omega (omega * omega) hw3 hw33 hww
    simpa only [mul_assoc] using this
  · have := hgen (omega * omega) omega hw33 hw3 hww'
    simpa only [mul_assoc] using this

/-- `x³ + 3x - 4` is such a cubic: its root 1 is not found. -/
example : ((0 : ℝ) * 0 < 3 * 1 * 3) ∧ (2 * (0 : ℝ) * 0 * 0 - 9 * 1 * 0 * 3 + 27 * 1 * 1 * (-4) ≠ 0) ∧
    (1 : ℝ) ^ 3 + 3 * 1 - 4 = 0 := by norm_num

/-- `x³ - 6x² + 11x - 6` satisfies the condition of the theorem before. -/
example : 3 * (1 : ℝ) * 11 < (-6) * (-6) := by norm_num

/-- With `3 a c = b²` one root is returned, and if `q > 0` it is not a number. -/
theorem C37_cubic_single (below : Bool) (a b c d : ℝ) (ha : a ≠ 0) (h : 3 * a * c = b * b) :
    (cubicQ a b c d ≤ 0 → ∃ r : ℂ, solveCubic below a b c d = .ok [r] ∧ a * r ^ 3 + b * r ^ 2 + c * r + d = 0) ∧
    (0 < cubicQ a b c d → solveCubic below a b c d = .ub) := by
  have ha' : (a : ℂ) ≠ 0 := by exact_mod_cast ha
  have hp : cubicP a b c = 0 := by
    unfold cubicP
    rw [h]
    simp
  unfold solveCubic depressedCubic
  rw [if_neg ha]
  simp only [← cubicP.eq_1, ← cubicQ.eq_1]
  rw [if_pos hp]
  constructor
  · intro hq
    rw [if_neg (by linarith)]
    refine ⟨_, rfl, ?_⟩
    have hr : (Real.rpow (-1 * cubicQ a b c d) (1 / 3)) ^ 3 = -cubicQ a b c d := by
      have h0 : (0 : ℝ) ≤ -1 * cubicQ a b c d := by linarith
      have := Real.rpow_mul_natCast h0 (1 / 3) 3
      rw [Real.rpow_eq_pow, ← this]
      norm_num
    generalize Real.rpow (-1 * cubicQ a b c d) (1 / 3) = r at hr
    have hrc : (r : ℂ) ^ 3 = -(cubicQ a b c d : ℂ) := by exact_mod_cast hr
    have hpc : (cubicP a b c : ℂ) = 0 := by exact_mod_cast hp
    have hl : (a : ℂ) * ((r : ℂ) - ((b / (3 * a) : ℝ) : ℂ)) ^ 3 + b * ((r : ℂ) - ((b / (3 * a) : ℝ) : ℂ)) ^ 2 +
        c * ((r : ℂ) - ((b / (3 * a) : ℝ) : ℂ)) + d =
        a * ((r : ℂ) ^ 3 + (cubicP a b c : ℂ) * r + (cubicQ a b c d : ℂ)) := by
      unfold cubicP cubicQ
      push_cast
      field_simp
      ring
    rw [hl, hrc, hpc]
    ring
  · intro hq
    rw [if_pos (by linarith)]

/-! ## Quartics -/

/-- Ferrari's method: for any choice of complex square and cube roots, if the auxiliary number `U` is zero or
its real part is at least 1e-8 in size, the four numbers returned are the four roots with multiplicities. -/
theorem C37_quartic (csqrt cpow : ℂ → ℂ) (hsqrt : ∀ z, csqrt z ^ 2 = z) (hpow : ∀ z, cpow z ^ 3 = z)
    (a b c d e : ℝ)
    (hU : qU csqrt cpow (qP (qAlpha a b c) (qGamma a b c d e))
        (qQ (qAlpha a b c) (qBeta a b c d) (qGamma a b c d e)) = 0 ∨
      1e-8 ≤ |(qU csqrt cpow (qP (qAlpha a b c) (qGamma a b c d e))
        (qQ (qAlpha a b c) (qBeta a b c d) (qGamma a b c d e))).re|)
    {l : List ℂ} (hl : solveQuartic csqrt cpow a b c d e = .ok l) :
    ∃ r0 r1 r2 r3, l = [r0, r1, r2, r3] ∧ ∀ x : ℂ, a * x ^ 4 + b * x ^ 3 + c * x ^ 2 + d * x + e =
      a * (x - r0) * (x - r1) * (x - r2) * (x - r3) := by
  unfold solveQuartic at hl
  split at hl
  · cases hl
  · rename_i ha
    have ha' : (a : ℂ) ≠ 0 := by exact_mod_cast ha
    simp only at hl
    split at hl
    · cases hl
    · rename_i hw
      simp only [Outcome.ok.injEq] at hl
      subst hl
      obtain ⟨al, hal⟩ : ∃ al, al = qAlpha a b c := ⟨_, rfl⟩
      obtain ⟨be, hbe⟩ : ∃ be, be = qBeta a b c d := ⟨_, rfl⟩
      obtain ⟨ga, hga⟩ : ∃ ga, ga = qGamma a b c d e := ⟨_, rfl⟩
      rw [← hal, ← hbe, ← hga] at hU hw ⊢
      obtain ⟨P, hP⟩ : ∃ P, P = qP al ga := ⟨_, rfl⟩
      obtain ⟨Q, hQ⟩ : ∃ Q, Q = qQ al be ga := ⟨_, rfl⟩
      rw [← hP, ← hQ] at hU hw ⊢
      obtain ⟨U, hUe⟩ : ∃ U, U = qU csqrt cpow P Q := ⟨_, rfl⟩
      rw [← hUe] at hU hw ⊢
      obtain ⟨y, hy⟩ : ∃ y, y = qY cpow al P Q U := ⟨_, rfl⟩
      rw [← hy] at hw ⊢
      -- the resolvent cubic
      have hS := hsqrt (Q ^ 2 / 4 + P ^ 3 / 27)
      have hU3 : U ^ 3 = -Q / 2 + csqrt (Q ^ 2 / 4 + P ^ 3 / 27) := by rw [hUe, qU, hpow]
      have hR : (U ^ 3) ^ 2 + Q * U ^ 3 - P ^ 3 / 27 = 0 := by
        rw [hU3]
        linear_combination hS
      have ht : (y + 5 * al / 6) ^ 3 + P * (y + 5 * al / 6) + Q = 0 := by
        rcases hU with h0 | h0
        · have hP0 : P = 0 := by
            rw [h0] at hR
            have : P ^ 3 = 0 := by linear_combination -27 * hR
            exact pow_eq_zero_iff (by norm_num) |>.1 this
          have hyy : y = -5 * al / 6 - cpow Q := by
            rw [hy, qY, if_pos]
            rw [h0]
            norm_num
          rw [hyy, hP0]
          linear_combination -hpow Q
        · have hU0 : U ≠ 0 := by
            intro h
            rw [h] at h0
            norm_num at h0
          have hyy : y = -5 * al / 6 - P / (3 * U) + U := by
            rw [hy, qY, if_neg (not_lt.2 h0)]
          have h3 : (y + 5 * al / 6) = U - P / (3 * U) := by rw [hyy]; ring
          rw [h3]
          field_simp
          linear_combination 27 * hR
      have hres : 4 * (al + 2 * y) * ((al + y) ^ 2 - ga) = (be : ℂ) ^ 2 := by
        have hPv : P = -(al : ℂ) ^ 2 / 12 - ga := by rw [hP, qP]; push_cast; ring
        have hQv : Q = -(al : ℂ) ^ 3 / 108 + al * ga / 3 - (be : ℂ) ^ 2 / 8 := by rw [hQ, qQ]; push_cast; ring
        rw [hPv, hQv] at ht
        linear_combination 8 * ht
      have hw2 := hsqrt (al + 2 * y)
      generalize csqrt (al + 2 * y) = w at hw hw2
      have hs1 := hsqrt (-(3 * al + 2 * y + 2 * be / w))
      have hs2 := hsqrt (-(3 * al + 2 * y - 2 * be / w))
      refine ⟨_, _, _, _, rfl, fun x => ?_⟩
      generalize csqrt (-(3 * al + 2 * y + 2 * be / w)) = s1 at hs1
      generalize csqrt (-(3 * al + 2 * y - 2 * be / w)) = s2 at hs2
      obtain ⟨X, hX⟩ : ∃ X, X = x + (b : ℂ) / (4 * a) := ⟨_, rfl⟩
      have e1 : (x - (-(b / (4 * a) : ℂ) + 0.5 * (w + s1))) * (x - (-(b / (4 * a) : ℂ) + 0.5 * (w - s1))) =
          X ^ 2 - w * X + (al + y + be / (2 * w)) := by
        rw [hX]
        have : (be : ℂ) / (2 * w) = (2 * be / w) / 4 := by field_simp; norm_num
        rw [this]
        linear_combination (-1 / 4) * hs1 + (1 / 4) * hw2
      have e2 : (x - (-(b / (4 * a) : ℂ) + 0.5 * (-w + s2))) * (x - (-(b / (4 * a) : ℂ) + 0.5 * (-w - s2))) =
          X ^ 2 + w * X + (al + y - be / (2 * w)) := by
        rw [hX]
        have : (be : ℂ) / (2 * w) = (2 * be / w) / 4 := by field_simp; norm_num
        rw [this]
        linear_combination (-1 / 4) * hs2 + (1 / 4) * hw2
      have hdep : (a : ℂ) * x ^ 4 + b * x ^ 3 + c * x ^ 2 + d * x + e =
          a * (X ^ 4 + al * X ^ 2 + be * X + ga) := by
        rw [hX, hal, hbe, hga]
        unfold qAlpha qBeta qGamma
        push_cast
        field_simp
        ring
      have hga' : (ga : ℂ) = (al + y) ^ 2 - be ^ 2 / (4 * w ^ 2) := by
        have hw2' : w ^ 2 ≠ 0 := pow_ne_zero 2 hw
        rw [hw2] at hw2' ⊢
        have : (be : ℂ) ^ 2 / (4 * (al + 2 * y)) = (al + y) ^ 2 - ga := by
          rw [div_eq_iff (mul_ne_zero (by norm_num) hw2')]
          linear_combination -hres
        rw [this]
        ring
      have hfin : (X ^ 2 - w * X + (al + y + be / (2 * w))) * (X ^ 2 + w * X + (al + y - be / (2 * w))) =
          X ^ 4 + al * X ^ 2 + be * X + ga := by
        rw [hga']
        field_simp
        linear_combination (-16 * X ^ 2 * w ^ 2) * hw2
      rw [hdep, ← hfin, ← e1, ← e2]
      ring

/-- Small coefficients break it: `x⁴ = 1e-16`, whose real roots are ±1e-4, gives a division by zero, for any
choice of complex square and cube roots. -/
theorem C37_quartic_counterexample (csqrt cpow : ℂ → ℂ) (hsqrt : ∀ z, csqrt z ^ 2 = z)
    (hpow : ∀ z, cpow z ^ 3 = z) : solveQuartic csqrt cpow 1 0 0 0 (-1e-16) = .ub := by
  have h0 : cpow 0 = 0 := by
    have := hpow 0
    exact pow_eq_zero_iff (by norm_num) |>.1 this
  have hs0 : csqrt 0 = 0 := by
    have := hsqrt 0
    exact pow_eq_zero_iff (by norm_num) |>.1 this
  have hal : qAlpha 1 0 0 = 0 := by norm_num [qAlpha]
  have hbe : qBeta 1 0 0 0 = 0 := by norm_num [qBeta]
  have hga : qGamma 1 0 0 0 (-1e-16) = -1e-16 := by norm_num [qGamma]
  have hP : qP 0 (-1e-16) = ((1e-16 : ℝ) : ℂ) := by norm_num [qP]
  have hQ : qQ 0 0 (-1e-16) = 0 := by norm_num [qQ]
  unfold solveQuartic
  rw [if_neg one_ne_zero]
  simp only [hal, hbe, hga, hP, hQ]
  have hU6 : (qU csqrt cpow ((1e-16 : ℝ) : ℂ) 0) ^ 6 = ((1e-48 / 27 : ℝ) : ℂ) := by
    have h1 := hsqrt ((0 : ℂ) ^ 2 / 4 + ((1e-16 : ℝ) : ℂ) ^ 3 / 27)
    have h2 := hpow (-0 / 2 + csqrt ((0 : ℂ) ^ 2 / 4 + ((1e-16 : ℝ) : ℂ) ^ 3 / 27))
    have : (qU csqrt cpow ((1e-16 : ℝ) : ℂ) 0) ^ 6 = ((qU csqrt cpow ((1e-16 : ℝ) : ℂ) 0) ^ 3) ^ 2 := by ring
    rw [this, qU, h2]
    have h3 : (-0 / 2 + csqrt ((0 : ℂ) ^ 2 / 4 + ((1e-16 : ℝ) : ℂ) ^ 3 / 27)) ^ 2 =
        csqrt ((0 : ℂ) ^ 2 / 4 + ((1e-16 : ℝ) : ℂ) ^ 3 / 27) ^ 2 := by ring
    rw [h3, h1]
    push_cast
    norm_num
  have hnorm : ‖qU csqrt cpow ((1e-16 : ℝ) : ℂ) 0‖ ^ 6 = 1e-48 / 27 := by
    rw [← norm_pow, hU6, Complex.norm_real, Real.norm_of_nonneg (by norm_num)]
  have hlt : ‖qU csqrt cpow ((1e-16 : ℝ) : ℂ) 0‖ < 1e-8 := by
    by_contra hc
    rw [not_lt] at hc
    have := pow_le_pow_left₀ (by norm_num) hc 6
    rw [hnorm] at this
    norm_num at this
  have hre : |(qU csqrt cpow ((1e-16 : ℝ) : ℂ) 0).re| < 1e-8 := lt_of_le_of_lt (Complex.abs_re_le_norm _) hlt
  have hy : qY cpow 0 ((1e-16 : ℝ) : ℂ) 0 (qU csqrt cpow ((1e-16 : ℝ) : ℂ) 0) = 0 := by
    rw [qY, if_pos hre, h0]
    simp
  rw [hy, if_pos]
  simpa using hs0

/-- The conditions are met, for example, by `x⁴ - 1`. -/
example (csqrt cpow : ℂ → ℂ) (hsqrt : ∀ z, csqrt z ^ 2 = z) (hpow : ∀ z, cpow z ^ 3 = z)
    (hre : ∀ z, z ≠ 0 → ‖cpow z‖ / 2 ≤ |(cpow z).re|) :
    1e-8 ≤ |(qU csqrt cpow (qP 0 (-1)) (qQ 0 0 (-1))).re| := by
  have hP : qP 0 (-1) = 1 := by norm_num [qP]
  have hQ : qQ 0 0 (-1) = 0 := by norm_num [qQ]
  rw [hP, hQ]
  have h1 := hsqrt ((0 : ℂ) ^ 2 / 4 + 1 ^ 3 / 27)
  have hR : (-0 / 2 + csqrt ((0 : ℂ) ^ 2 / 4 + 1 ^ 3 / 27)) ^ 2 = 1 / 27 := by
    have h3 : (-0 / 2 + csqrt ((0 : ℂ) ^ 2 / 4 + 1 ^ 3 / 27)) ^ 2 =
        csqrt ((0 : ℂ) ^ 2 / 4 + 1 ^ 3 / 27) ^ 2 := by ring
    rw [h3, h1]
    norm_num
  have hne : -0 / 2 + csqrt ((0 : ℂ) ^ 2 / 4 + 1 ^ 3 / 27) ≠ 0 := by
    intro h
    rw [h] at hR
    norm_num at hR
  have hU6 : ‖qU csqrt cpow 1 0‖ ^ 6 = 1 / 27 := by
    have : (qU csqrt cpow 1 0) ^ 6 = ((qU csqrt cpow 1 0) ^ 3) ^ 2 := by ring
    rw [← norm_pow, this, qU, hpow, hR]
    norm_num
  have h2 := hre _ hne
  have hbig : 1e-7 ≤ ‖qU csqrt cpow 1 0‖ := by
    by_contra hc
    rw [not_le] at hc
    have := pow_le_pow_left₀ (norm_nonneg _) (le_of_lt hc) 6
    rw [hU6] at this
    norm_num at this
  calc (1e-8 : ℝ) ≤ 1e-7 / 2 := by norm_num
    _ ≤ ‖qU csqrt cpow 1 0‖ / 2 := by linarith
    _ ≤ _ := h2

end Theia
