import Verif.Proof.L1Solver

/-!
# C66: the L1 solver finds a minimiser of the sum of absolute residuals

`L1Solver` (`math/l1_solver.h`) over the exact reals.  `Spec.MinimizesL1 A b x` says that no vector
has a smaller sum of absolute residuals than `x`.
-/

namespace Theia

open Matrix L1Solver

/-- The constructor ends the program when the columns of the matrix are dependent, and only then. -/
theorem C66_construct {m n : ℕ} (o : Options) (A : Matrix (Fin m) (Fin n) ℝ) :
    (Spec.IndependentColumns A → ∃ s, construct o A = .ok s) ∧
      (¬Spec.IndependentColumns A → construct o A = .abort) :=
  ⟨fun h => ⟨_, construct_ok h⟩, fun h => construct_abort h⟩

/-- A system with an exact solution is solved exactly, by any number of iterations from one on. -/
theorem C66_exact {m n : ℕ} {o : Options} {A : Matrix (Fin m) (Fin n) ℝ} {s : Solver m n}
    (hs : construct o A = .ok s) (hρ : 0 < o.rho) (hk : 1 ≤ o.maxNumIterations)
    (x x0 : Fin n → ℝ) : s.solve (A *ᵥ x) x0 = x := by
  obtain ⟨hA, rfl⟩ := construct_inv hs
  have hfix : ∀ k, arg o A (A *ᵥ x) k = 0 := by
    intro k
    induction k with
    | zero => rfl
    | succ k ih =>
      rw [arg_succ, ih]
      unfold Admm.dr Admm.proj
      rw [Admm.prox_zero _ hρ, Admm.lsq_unique (injective_of_kernel hA) (x := x)]
      · simp
      · simp
  have hx : ∀ k, ((fun t => (iteration { options := o, a := A, factor := Aᵀ * A } (A *ᵥ x) t).1)^[k
      + 1] { x := x0, z := 0, u := 0 }).x = x := by
    intro k
    rw [iterate_eq hρ]
    simp only [hfix, Admm.prox_zero _ hρ]
    apply Admm.lsq_unique (injective_of_kernel hA)
    simp
  rw [solve_eq]
  obtain ⟨K, hK⟩ : ∃ K, o.maxNumIterations.toNat = K + 1 := ⟨o.maxNumIterations.toNat - 1, by omega⟩
  simp only [hK]
  obtain ⟨j, hj⟩ := Admm.runLoop_exists (iteration { options := o, a := A, factor := Aᵀ * A }
    (A *ᵥ x)) K { x := x0, z := 0, u := 0 }
  rw [hj]
  exact hx j

/-- With the tolerances at zero the answer converges to a minimiser as the limit on the number of
iterations grows. -/
theorem C66_converges {m n : ℕ} {o : Options} {A : Matrix (Fin m) (Fin n) ℝ} {s : Solver m n}
    (hs : construct o A = .ok s) (hρ : 0 < o.rho) (h0 : 0 < o.alpha) (h2 : o.alpha < 2)
    (habs : o.absoluteTolerance = 0) (hrel : o.relativeTolerance = 0)
    (b : Fin m → ℝ) (x0 : Fin n → ℝ) :
    ∃ x, Spec.MinimizesL1 A b x ∧
      ∀ ε > 0, ∃ N : ℤ, ∀ k ≥ N, ∀ i, |(s.setMaxIterations k).solve b x0 i - x i| < ε := by
  obtain ⟨hA, rfl⟩ := construct_inv hs
  obtain ⟨x, hx, ht⟩ := tendsto_minimizer hA hρ h0 h2 b x0
  refine ⟨x, hx, fun ε hε => ?_⟩
  obtain ⟨N, hN⟩ := (Metric.tendsto_atTop.mp ht) ε hε
  refine ⟨N, fun k hk i => ?_⟩
  rw [solve_limit, Admm.runLoop_never]
  · have h := hN k.toNat (by omega)
    rw [dist_pi_lt_iff hε] at h
    exact h i
  · intro j _ hj
    simp only [iteration, habs, hrel, mul_zero, zero_mul, add_zero] at hj
    exact absurd hj.1 (not_lt.mpr (norm_nonneg _))

/-- With a positive absolute tolerance the loop ends by itself: beyond some number of iterations the
limit no longer matters.  Without over-relaxation the answer is then as good as the tolerances
promise: its objective exceeds that of any vector `y` by no more than the residuals allow. -/
theorem C66_stops {m n : ℕ} {o : Options} {A : Matrix (Fin m) (Fin n) ℝ} {s : Solver m n}
    (hs : construct o A = .ok s) (hρ : 0 < o.rho) (h0 : 0 < o.alpha) (h2 : o.alpha < 2)
    (habs : 0 < o.absoluteTolerance) (hrel : 0 ≤ o.relativeTolerance)
    (b : Fin m → ℝ) (x0 : Fin n → ℝ) :
    ∃ x, (∃ N : ℤ, ∀ k ≥ N, (s.setMaxIterations k).solve b x0 = x) ∧
      (o.alpha = 1 → o.relativeTolerance < 1 → ∀ y,
        (1 - o.relativeTolerance) *
            (Spec.sumAbs (A *ᵥ x - b) - Spec.sumAbs (A *ᵥ y - b)) ≤
          2 * √m * (√m * o.absoluteTolerance +
            o.relativeTolerance * (Spec.length (A *ᵥ x) + Spec.length b)) +
          √n * o.absoluteTolerance * Spec.length (y - x)) := by
  obtain ⟨hA, rfl⟩ := construct_inv hs
  by_cases hn : n = 0
  · subst hn
    refine ⟨x0, ⟨0, fun k _ => Subsingleton.elim _ _⟩, fun _ _ y => ?_⟩
    rw [Subsingleton.elim y x0, sub_self, mul_zero]
    have := Real.sqrt_nonneg (m : ℝ)
    unfold Spec.length
    positivity
  obtain ⟨K, hK, hstop⟩ := Admm.runLoop_stops _ _ (exists_break hA hρ h0 h2 habs hrel hn b x0)
  refine ⟨((fun t => (iteration { options := o, a := A, factor := Aᵀ * A } b t).1)^[K + 1]
    { x := x0, z := 0, u := 0 }).x, ⟨K + 1, fun k hk => ?_⟩, fun h1 hr1 y => ?_⟩
  · rw [solve_limit, hstop _ (by omega)]
  · have := break_accuracy hA hρ h1 hrel hr1 b _ hK y
    rw [Function.iterate_succ_apply', ← norm_eq, ← norm_eq, ← norm_eq]
    exact this

/-- Without iterations the caller's vector stays as it is. -/
theorem C66_no_iterations {m n : ℕ} (s : Solver m n) (b : Fin m → ℝ) (x0 : Fin n → ℝ) {k : ℤ}
    (hk : k ≤ 0) : (s.setMaxIterations k).solve b x0 = x0 := by
  have : k.toNat = 0 := by omega
  simp [Solver.solve, Solver.setMaxIterations, this, loop]

/-! The hypotheses are met: one unknown, three equations `x = 0`, `x = 1`, `x = 5`; the minimiser is
the median. -/

example : Spec.IndependentColumns (fun _ _ => 1 : Matrix (Fin 3) (Fin 1) ℝ) := by
  intro x hx
  funext i
  have := congrFun hx 0
  simpa [mulVec, dotProduct, Fin.fin_one_eq_zero i] using this

example : ¬Spec.IndependentColumns (fun _ _ => 1 : Matrix (Fin 3) (Fin 2) ℝ) := by
  intro h
  have := h ![1, -1] (by funext i; simp [mulVec, dotProduct])
  have := congrFun this 0
  simp at this

example : Spec.MinimizesL1 (fun _ _ => 1 : Matrix (Fin 3) (Fin 1) ℝ) ![0, 1, 5] (fun _ => 1) := by
  intro y
  simp only [Spec.sumAbs, Fin.sum_univ_three, mulVec, dotProduct, Finset.univ_unique,
    Fin.default_eq_zero, Finset.sum_singleton, one_mul, Pi.sub_apply, Matrix.cons_val_zero,
    Matrix.cons_val_one, Matrix.cons_val]
  have h1 := le_abs_self (y 0 - 0)
  have h2 := neg_le_abs (y 0 - 5)
  norm_num at *
  linarith [abs_nonneg (y 0 - 1)]

example : ∃ s, construct (m := 3) (n := 1) { absoluteTolerance := 0, relativeTolerance := 0 }
    (fun _ _ => 1) = .ok s :=
  (C66_construct _ _).1 (by
    intro x hx
    funext i
    have := congrFun hx 0
    simpa [mulVec, dotProduct, Fin.fin_one_eq_zero i] using this)

end Theia
