import Verif.Proof.ConstrainedL1Solver

/-!
# C67: the constrained L1 solver finds a constrained minimiser

`ConstrainedL1Solver` (`math/constrained_l1_solver.{h,cc}`) over the exact reals.
`Spec.MinimizesL1Subject A b C d x` says that `C x ≥ d` and that no other such vector has a smaller
sum of absolute residuals.
-/

namespace Theia

open Matrix ConstrainedL1Solver

/-- The constructor ends the program when some nonzero vector is sent to zero by both matrices, and
only then. -/
theorem C67_construct {m k n : ℕ} (o : Options) (A : Matrix (Fin m) (Fin n) ℝ) (b : Fin m → ℝ)
    (C : Matrix (Fin k) (Fin n) ℝ) (d : Fin k → ℝ) :
    ((∀ x, A *ᵥ x = 0 → C *ᵥ x = 0 → x = 0) → ∃ s, construct o A b C d = .ok s) ∧
      ((∃ x, A *ᵥ x = 0 ∧ C *ᵥ x = 0 ∧ x ≠ 0) → construct o A b C d = .abort) := by
  constructor
  · intro h
    exact ⟨_, construct_ok fun x hx => by
      obtain ⟨h1, h2⟩ := (stacked_kernel A C x).mp hx
      exact h x h1 h2⟩
  · rintro ⟨x, h1, h2, h3⟩
    exact construct_abort fun h => h3 (h x ((stacked_kernel A C x).mpr ⟨h1, h2⟩))

/-- If the constraints can be met at all then, with the tolerances at zero, the answer converges to
a constrained minimiser as the limit on the number of iterations grows. -/
theorem C67_converges {m k n : ℕ} {o : Options} {A : Matrix (Fin m) (Fin n) ℝ} {b : Fin m → ℝ}
    {C : Matrix (Fin k) (Fin n) ℝ} {d : Fin k → ℝ}
    (hρ : 0 < o.rho) (h0 : 0 < o.alpha) (h2 : o.alpha < 2)
    (habs : o.absoluteTolerance = 0) (hrel : o.relativeTolerance = 0)
    (hM : ∀ x, A *ᵥ x = 0 → C *ᵥ x = 0 → x = 0) (hf : ∃ x, ∀ j, d j ≤ (C *ᵥ x) j)
    (x0 : Fin n → ℝ) :
    ∃ x, Spec.MinimizesL1Subject A b C d x ∧
      ∀ ε > 0, ∃ N : ℤ, ∀ l ≥ N,
        ∃ s, construct { o with maxNumIterations := l } A b C d = .ok s ∧
          ∀ i, |s.solve x0 i - x i| < ε := by
  have hK : ∀ x, fromRows A C *ᵥ x = 0 → x = 0 := fun x hx => by
    obtain ⟨h1, h2⟩ := (stacked_kernel A C x).mp hx
    exact hM x h1 h2
  obtain ⟨x, hx, ht⟩ := tendsto_minimizer (b := b) hK hρ h0 h2 hf x0
  refine ⟨x, hx, fun ε hε => ?_⟩
  obtain ⟨N, hN⟩ := (Metric.tendsto_atTop.mp ht) ε hε
  refine ⟨N, fun l hl => ⟨_, construct_ok hK, fun i => ?_⟩⟩
  rw [solve_eq, Admm.runLoop_never]
  · have h := hN l.toNat (by omega)
    rw [dist_pi_lt_iff hε] at h
    exact h i
  · intro j _ hj
    simp only [iteration, habs, hrel, mul_zero, zero_mul, add_zero] at hj
    exact absurd hj.1 (not_lt.mpr (norm_nonneg _))

/-- If the constraints can be met and the absolute tolerance is positive, the loop ends by itself:
beyond some number of iterations the limit no longer matters.  The answer then violates no
constraint by more than the tolerances allow. -/
theorem C67_stops {m k n : ℕ} {o : Options} {A : Matrix (Fin m) (Fin n) ℝ} {b : Fin m → ℝ}
    {C : Matrix (Fin k) (Fin n) ℝ} {d : Fin k → ℝ}
    (hρ : 0 < o.rho) (h0 : 0 < o.alpha) (h2 : o.alpha < 2)
    (habs : 0 < o.absoluteTolerance) (hrel : 0 ≤ o.relativeTolerance)
    (hrel1 : o.relativeTolerance ≤ 1) (hn : n ≠ 0)
    (hM : ∀ x, A *ᵥ x = 0 → C *ᵥ x = 0 → x = 0) (hf : ∃ x, ∀ j, d j ≤ (C *ᵥ x) j)
    (x0 : Fin n → ℝ) :
    ∃ x, (∃ N : ℤ, ∀ l ≥ N, ∃ s, construct { o with maxNumIterations := l } A b C d = .ok s ∧
        s.solve x0 = x) ∧
      ∀ j, (1 - o.relativeTolerance) * (d j - (C *ᵥ x) j) ≤
        √((m + k : ℕ) : ℝ) * o.absoluteTolerance + o.relativeTolerance *
          (√(Spec.length (A *ᵥ x) ^ 2 + Spec.length (C *ᵥ x) ^ 2) +
            √(Spec.length b ^ 2 + Spec.length d ^ 2)) := by
  have hK : ∀ x, fromRows A C *ᵥ x = 0 → x = 0 := fun x hx => by
    obtain ⟨h1, h2⟩ := (stacked_kernel A C x).mp hx
    exact hM x h1 h2
  obtain ⟨K, hb, hstop⟩ := Admm.runLoop_stops _ _
    (exists_break (b := b) hK hρ h0 h2 hf habs hrel hn x0)
  refine ⟨((fun t => (iteration (made o (fromRows A C) (Sum.elim b d)) t).1)^[K + 1]
    { x := x0, z := 0, u := 0 }).x, ⟨K + 1, fun l hl => ⟨_, construct_ok hK, ?_⟩⟩, fun j => ?_⟩
  · rw [solve_eq]
    exact congrArg State.x (hstop l.toNat (by omega))
  · have := break_violation (fromRows A C) (Sum.elim b d) hρ hrel hrel1 _ hb j
    rw [Function.iterate_succ_apply', ← norm_sumElim, ← norm_sumElim, ← fromRows_mulVec]
    rw [Sum.elim_inr] at this
    have e : ∀ y, (fromRows A C *ᵥ y) (.inr j) = (C *ᵥ y) j := fun y => by
      rw [fromRows_mulVec, Sum.elim_inr]
    rw [e] at this
    exact this

/-- **The answer may violate the constraints.**  The vector returned is the one of the least squares
step, not its projection to the constraints, so it meets them only up to the tolerances.  Here
`|x|` is to be minimised under `x ≥ 1` with absolute tolerance 1: the solver accepts its first
iterate and returns `1/2`. -/
theorem C67_violation_counterexample {l : ℤ} (hl : 1 ≤ l) (x0 : Fin 1 → ℝ) :
    ∃ s, construct (m := 1) (k := 1) (n := 1)
        { maxNumIterations := l, rho := 1, alpha := 1, absoluteTolerance := 1,
          relativeTolerance := 0 } (fun _ _ => 1) (fun _ => 0) (fun _ _ => 1) (fun _ => 1) = .ok s ∧
      s.solve x0 0 = 1 / 2 ∧ ∃ x, Spec.MinimizesL1Subject (m := 1) (k := 1) (n := 1)
        (fun _ _ => 1) (fun _ => 0) (fun _ _ => 1) (fun _ => 1) x := by
  have hker : ∀ x : Fin 1 → ℝ,
      fromRows (fun _ _ => 1 : Matrix (Fin 1) (Fin 1) ℝ) (fun _ _ => 1 : Matrix (Fin 1) (Fin 1) ℝ)
        *ᵥ x = 0 → x = 0 := by
    intro x hx
    have := congrFun ((stacked_kernel _ _ x).mp hx).1 0
    funext i
    simpa [mulVec, dotProduct, Fin.fin_one_eq_zero i] using this
  refine ⟨_, construct_ok hker, ?_, fun _ => 1, ?_, ?_⟩
  · rw [solve_eq]
    obtain ⟨K, hK⟩ : ∃ K, l.toNat = K + 1 := ⟨l.toNat - 1, by omega⟩
    have h := violation_iteration (o := ⟨l, 1, 1, 1, 0⟩) rfl rfl rfl rfl
      (M := fromRows (fun _ _ => 1) fun _ _ => 1) (by rintro (i | i) j <;> rfl) rfl x0
    simp only [hK]
    rw [Admm.runLoop, if_pos h.1, h.2]
  · intro j
    simp [mulVec, dotProduct]
  · intro y hy
    have := hy 0
    simp only [mulVec, dotProduct, Finset.univ_unique, Fin.default_eq_zero, Finset.sum_singleton,
      one_mul] at this
    simp only [Spec.sumAbs, Finset.univ_unique, Fin.default_eq_zero, Finset.sum_singleton,
      Pi.sub_apply, mulVec, dotProduct, one_mul, sub_zero, abs_one]
    exact this.trans (le_abs_self _)

/-! The hypotheses are met: two unknowns, `A` measures the first and the constraint bounds the
second. -/

example : (∀ x : Fin 2 → ℝ, (!![1, 0] : Matrix (Fin 1) (Fin 2) ℝ) *ᵥ x = 0 →
    (!![1, 1] : Matrix (Fin 1) (Fin 2) ℝ) *ᵥ x = 0 → x = 0) ∧
    ∃ x : Fin 2 → ℝ, ∀ j : Fin 1, (fun _ => 3) j ≤ ((!![1, 1] : Matrix (Fin 1) (Fin 2) ℝ) *ᵥ x) j := by
  constructor
  · intro x h1 h2
    have a := congrFun h1 0
    have b := congrFun h2 0
    simp [mulVec, dotProduct, Fin.sum_univ_two] at a b
    rw [a, zero_add] at b
    funext i
    fin_cases i <;> simp [a, b]
  · refine ⟨![1, 2], fun j => ?_⟩
    simp [mulVec, dotProduct, Fin.sum_univ_two]
    norm_num

end Theia
