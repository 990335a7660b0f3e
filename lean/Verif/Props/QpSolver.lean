import Verif.Proof.QpSolver

/-!
# C68: the quadratic program solver

`QPSolver` (`math/qp_solver.{h,cc}`) over the exact reals.  `Spec.MinimizesQuadratic P q lb ub x`
says that `x` lies between the bounds and that no other such vector has a smaller value of
`½ xᵀ P x + qᵀ x`.
-/

namespace Theia

open Matrix QpSolver

private theorem solve_some {n : ℕ} {s : Solver n} (hc : ∀ i, ¬crossed (s.lb i) (s.ub i)) :
    s.solve = some (Admm.runLoop (iteration s) s.options.maxNumIterations.toNat
      { x := 0, z := 0, u := 0 }).x := by
  unfold Solver.solve
  rw [if_neg (fun ⟨i, hi⟩ => hc i hi), loop_eq]

private theorem not_crossed {n : ℕ} {lb ub : Fin n → Option ℝ}
    (h : ∀ i l u, lb i = some l → ub i = some u → l ≤ u) (i : Fin n) : ¬crossed (lb i) (ub i) := by
  have := h i
  cases hl : lb i with
  | none => exact fun h => h
  | some l =>
    cases hu : ub i with
    | none => exact fun h => h
    | some u =>
      have := this l u hl hu
      intro h'
      unfold crossed at h'
      linarith

private theorem symmetric_eq {n : ℕ} {P : Matrix (Fin n) (Fin n) ℝ} (hP : ∀ i j, P i j = P j i) :
    SparseCholesky.symmetric P = P := by
  funext i j
  unfold SparseCholesky.symmetric
  split
  · rfl
  · exact hP j i

/-- A symmetric matrix is accepted exactly if `P + rho I` is positive definite; in particular every
positive semidefinite one is, for positive `rho`.  Otherwise the constructor ends the program. -/
theorem C68_construct {n : ℕ} (o : Options) {P : Matrix (Fin n) (Fin n) ℝ} (q : Fin n → ℝ)
    (hP : ∀ i j, P i j = P j i) :
    ((∀ x, x ≠ 0 → 0 < o.rho * (x ⬝ᵥ x) + x ⬝ᵥ (P *ᵥ x)) → ∃ s, construct o P q = .ok s) ∧
      ((∃ x, x ≠ 0 ∧ o.rho * (x ⬝ᵥ x) + x ⬝ᵥ (P *ᵥ x) ≤ 0) → construct o P q = .abort) := by
  have he : ∀ x : Fin n → ℝ, x ⬝ᵥ ((o.rho • (1 : Matrix (Fin n) (Fin n) ℝ) + P) *ᵥ x) =
      o.rho * (x ⬝ᵥ x) + x ⬝ᵥ (P *ᵥ x) := fun x => by
    rw [add_mulVec, smul_mulVec, one_mulVec, dotProduct_add, dotProduct_smul, smul_eq_mul]
  constructor
  · intro h
    have hpd : (o.rho • (1 : Matrix (Fin n) (Fin n) ℝ) + P).PosDef := by
      apply Matrix.PosDef.of_dotProduct_mulVec_pos
      · apply Matrix.IsHermitian.ext
        intro i j
        show star (o.rho * (1 : Matrix (Fin n) (Fin n) ℝ) j i + P j i) =
          o.rho * (1 : Matrix (Fin n) (Fin n) ℝ) i j + P i j
        rw [star_trivial, hP j i, one_apply, one_apply]
        simp only [eq_comm]
      · intro x hx
        rw [star_trivial, he]
        exact h x hx
    unfold construct SparseCholesky.compute
    rw [symmetric_shift, symmetric_eq hP, if_pos hpd]
    exact ⟨_, rfl⟩
  · rintro ⟨x, hx, h⟩
    unfold construct SparseCholesky.compute
    rw [symmetric_shift, symmetric_eq hP, if_neg]
    intro hpd
    have := hpd.dotProduct_mulVec_pos hx
    rw [star_trivial, he] at this
    linarith

/-- `Solve` answers false exactly if some lower bound exceeds the upper bound. -/
theorem C68_bounds {n : ℕ} (s : Solver n) (lb ub : Fin n → Option ℝ) :
    ((s.setLowerBound lb).setUpperBound ub).solve = none ↔
      ∃ i l u, lb i = some l ∧ ub i = some u ∧ u < l := by
  unfold Solver.solve Solver.setUpperBound Solver.setLowerBound
  constructor
  · intro h
    by_contra hne
    push Not at hne
    have := not_crossed (lb := lb) (ub := ub) fun i l u hl hu => hne i l u hl hu
    rw [if_neg (fun ⟨i, hi⟩ => this i hi)] at h
    exact absurd h (by simp)
  · rintro ⟨i, l, u, hl, hu, h⟩
    rw [if_pos]
    refine ⟨i, ?_⟩
    simp only [hl, hu, crossed]
    linarith

private theorem converges {n : ℕ} {o : Options} {P S : Matrix (Fin n) (Fin n) ℝ} {q : Fin n → ℝ}
    (hS : ∀ i j, S i j = S j i) (hp : ∀ x, 0 ≤ x ⬝ᵥ (S *ᵥ x))
    (hρ : 0 < o.rho) (h0 : 0 < o.alpha) (h2 : o.alpha < 2)
    (habs : o.absoluteTolerance = 0) (hrel : o.relativeTolerance = 0)
    {lb ub : Fin n → Option ℝ} (hm : ∃ x, Spec.MinimizesQuadratic S q lb ub x) :
    ∃ x, Spec.MinimizesQuadratic S q lb ub x ∧
      ∀ ε > 0, ∃ N : ℤ, ∀ k ≥ N, ∃ y, ((made o P S q lb ub).setMaxIterations k).solve = some y ∧
        ∀ i, |y i - x i| < ε := by
  have hc : ∀ i, ¬crossed (lb i) (ub i) := not_crossed fun i l u hl hu => by
    obtain ⟨x, hx, -⟩ := hm
    exact ((hx i).1 l hl).trans ((hx i).2 u hu)
  obtain ⟨x, hx, ht, -⟩ := qp_tendsto hS hp hρ h0 h2 hc hm
  refine ⟨x, hx, fun ε hε => ?_⟩
  obtain ⟨N, hN⟩ := (Metric.tendsto_atTop.mp ht) ε hε
  refine ⟨N + 2, fun k hk => ⟨_, solve_some hc, fun i => ?_⟩⟩
  have hit : iteration ((made o P S q lb ub).setMaxIterations k) = iteration (made o P S q lb ub) :=
    rfl
  rw [hit, Admm.runLoop_never]
  · obtain ⟨K, hK⟩ : ∃ K, k.toNat = K + 1 + 1 := ⟨k.toNat - 2, by omega⟩
    have h := hN K (by omega)
    rw [dist_pi_lt_iff hε] at h
    show |((fun t => (iteration (made o P S q lb ub) t).1)^[k.toNat] _).x i - x i| < ε
    rw [hK, iterate_eq]
    exact h i
  · intro j _ hj
    simp only [iteration, habs, hrel, mul_zero, zero_mul, add_zero] at hj
    exact absurd hj.1 (not_lt.mpr (QpSolver.norm_nonneg _))

/-- For a symmetric positive semidefinite matrix and a program that has a minimiser at all: with the
tolerances at zero the answer converges to a minimiser as the limit on the number of iterations
grows. -/
theorem C68_converges {n : ℕ} {o : Options} {P : Matrix (Fin n) (Fin n) ℝ} {q : Fin n → ℝ}
    (hP : ∀ i j, P i j = P j i) (hp : ∀ x, 0 ≤ x ⬝ᵥ (P *ᵥ x))
    (hρ : 0 < o.rho) (h0 : 0 < o.alpha) (h2 : o.alpha < 2)
    (habs : o.absoluteTolerance = 0) (hrel : o.relativeTolerance = 0)
    {lb ub : Fin n → Option ℝ} (hm : ∃ x, Spec.MinimizesQuadratic P q lb ub x) :
    ∃ s, construct o P q = .ok s ∧ ∃ x, Spec.MinimizesQuadratic P q lb ub x ∧
      ∀ ε > 0, ∃ N : ℤ, ∀ k ≥ N, ∃ y,
        (((s.setLowerBound lb).setUpperBound ub).setMaxIterations k).solve = some y ∧
          ∀ i, |y i - x i| < ε := by
  refine ⟨_, construct_ok hρ (by rw [symmetric_eq hP]; exact hp), ?_⟩
  rw [symmetric_eq hP]
  exact converges hP hp hρ h0 h2 habs hrel hm

/-- With a positive absolute tolerance the loop ends by itself: beyond some number of iterations the
limit no longer matters.  The answer then exceeds no bound by more than the tolerances allow. -/
theorem C68_stops {n : ℕ} {o : Options} {P : Matrix (Fin n) (Fin n) ℝ} {q : Fin n → ℝ}
    (hP : ∀ i j, P i j = P j i) (hp : ∀ x, 0 ≤ x ⬝ᵥ (P *ᵥ x))
    (hρ : 0 < o.rho) (h0 : 0 < o.alpha) (h2 : o.alpha < 2)
    (habs : 0 < o.absoluteTolerance) (hrel : 0 ≤ o.relativeTolerance)
    (hrel1 : o.relativeTolerance ≤ 1) (hn : n ≠ 0)
    {lb ub : Fin n → Option ℝ} (hm : ∃ x, Spec.MinimizesQuadratic P q lb ub x) :
    ∃ s, construct o P q = .ok s ∧ ∃ x,
      (∃ N : ℤ, ∀ k ≥ N,
        (((s.setLowerBound lb).setUpperBound ub).setMaxIterations k).solve = some x) ∧
      ∀ i, (∀ l, lb i = some l → (1 - o.relativeTolerance) * (l - x i) ≤
          √n * o.absoluteTolerance + o.relativeTolerance * Spec.length x) ∧
        ∀ u, ub i = some u → (1 - o.relativeTolerance) * (x i - u) ≤
          √n * o.absoluteTolerance + o.relativeTolerance * Spec.length x := by
  refine ⟨_, construct_ok hρ (by rw [symmetric_eq hP]; exact hp), ?_⟩
  rw [symmetric_eq hP]
  have hc : ∀ i, ¬crossed (lb i) (ub i) := not_crossed fun i l u hl hu => by
    obtain ⟨x, hx, -⟩ := hm
    exact ((hx i).1 l hl).trans ((hx i).2 u hu)
  obtain ⟨K, hK, hstop⟩ := Admm.runLoop_stops _ _
    (exists_break hP hp hρ h0 h2 hc hm habs hrel hn P)
  refine ⟨((fun t => (iteration (made o P P q lb ub) t).1)^[K + 1] { x := 0, z := 0, u := 0 }).x,
    ⟨K + 1, fun k hk => ?_⟩, fun i => ?_⟩
  · have h := solve_some (s := ((made o P P q lb ub).setMaxIterations k)) hc
    have hit : iteration ((made o P P q lb ub).setMaxIterations k) =
      iteration (made o P P q lb ub) := rfl
    rw [hit, show ((made o P P q lb ub).setMaxIterations k).options.maxNumIterations.toNat =
      k.toNat from rfl, hstop k.toNat (by omega)] at h
    exact h
  · have := break_violation (s := made o P P q lb ub) hc hrel hrel1 _ hK i
    rw [Function.iterate_succ_apply', ← QpSolver.norm_eq]
    exact this

/-! ### What does not hold -/

private theorem solve_scalar {c : ℝ} (hc : c ≠ 0) {F : Matrix (Fin 1) (Fin 1) ℝ} (hF : F 0 0 = c)
    (v : Fin 1 → ℝ) : SparseCholesky.solve F v = fun _ => v 0 / c := by
  have hu : IsUnit F.det := by
    rw [det_fin_one, hF]
    exact isUnit_iff_ne_zero.mpr hc
  have hx : F *ᵥ (fun _ => v 0 / c) = v := by
    funext i
    rw [Fin.fin_one_eq_zero i]
    simp only [mulVec, dotProduct, Finset.univ_unique, Fin.default_eq_zero, Finset.sum_singleton,
      hF]
    field_simp
  unfold SparseCholesky.solve
  conv_lhs => rw [← hx]
  rw [mulVec_mulVec, nonsing_inv_mul _ hu, one_mulVec]

/-- **The answer may lie outside the bounds.**  The vector returned is the one of the quadratic
step, not its projection to the bounds.  For `½ x² + x` under `x ≥ 0` every answer, whatever the
tolerances and the limit (of at least one iteration), is negative. -/
theorem C68_violation_counterexample {k : ℤ} (hk : 1 ≤ k) (a r : ℝ) :
    ∃ s, construct (n := 1)
        { maxNumIterations := k, rho := 1, alpha := 1, absoluteTolerance := a,
          relativeTolerance := r } (fun _ _ => 1) (fun _ => 1) = .ok s ∧
      ∃ x, (s.setLowerBound (fun _ => some 0)).solve = some x ∧ x 0 < 0 := by
  have hsym : SparseCholesky.symmetric (fun _ _ => 1 : Matrix (Fin 1) (Fin 1) ℝ) =
      fun _ _ => 1 := symmetric_eq fun _ _ => rfl
  refine ⟨_, construct_ok (by norm_num) ?_, ?_⟩
  · rw [hsym]
    intro x
    simp only [mulVec, dotProduct, Finset.univ_unique, Fin.default_eq_zero, Finset.sum_singleton,
      one_mul]
    exact mul_self_nonneg _
  rw [hsym]
  set s := made (n := 1) ⟨k, 1, 1, a, r⟩ (fun _ _ => 1) (fun _ _ => 1) (fun _ => 1)
    (fun _ => some 0) (fun _ => none) with hs
  have hF : s.factor 0 0 = 2 := by
    show (1 : ℝ) • (1 : Matrix (Fin 1) (Fin 1) ℝ) 0 0 + 1 = 2
    norm_num
  have hstep : ∀ t : State 1, t.z = 0 → -1 < t.u 0 → t.u 0 ≤ 0 →
      (iteration s t).1.z = 0 ∧ -1 < (iteration s t).1.u 0 ∧ (iteration s t).1.u 0 ≤ 0 ∧
        (iteration s t).1.x 0 < 0 := by
    intro t hz h1 h2
    have hx : (iteration s t).1.x = fun _ => (-(t.u 0) - 1) / 2 := by
      show SparseCholesky.solve s.factor _ = _
      rw [solve_scalar (by norm_num) hF]
      funext _
      show ((1 : ℝ) • (t.z - t.u) - (fun _ => 1 : Fin 1 → ℝ)) 0 / 2 = _
      rw [hz]
      simp
    have harg : ∀ i, ((1 : ℝ) • (iteration s t).1.x + (1 - 1 : ℝ) • t.z + t.u) i =
        (t.u 0 - 1) / 2 := by
      intro i
      rw [hx, hz, Fin.fin_one_eq_zero i]
      simp only [Pi.add_apply, Pi.smul_apply, Pi.zero_apply, smul_eq_mul]
      ring
    have hz' : (iteration s t).1.z = 0 := by
      funext i
      show clamp (some 0) none (((1 : ℝ) • (iteration s t).1.x + (1 - 1 : ℝ) • t.z + t.u) i) = 0
      rw [harg]
      show max 0 ((t.u 0 - 1) / 2) = 0
      rw [max_eq_left]
      linarith
    have hu : (iteration s t).1.u 0 = (t.u 0 - 1) / 2 := by
      show (t.u + ((1 : ℝ) • (iteration s t).1.x + (1 - 1 : ℝ) • t.z - (iteration s t).1.z)) 0 = _
      have := harg 0
      rw [hz']
      simp only [Pi.add_apply, Pi.sub_apply, Pi.zero_apply] at this ⊢
      linarith
    refine ⟨hz', ?_, ?_, ?_⟩
    · rw [hu]; linarith
    · rw [hu]; linarith
    · rw [hx]
      show (-(t.u 0) - 1) / 2 < 0
      linarith
  have hiter : ∀ j, ((fun t => (iteration s t).1)^[j + 1] ⟨0, 0, 0⟩).z = 0 ∧
      -1 < ((fun t => (iteration s t).1)^[j + 1] ⟨0, 0, 0⟩).u 0 ∧
      ((fun t => (iteration s t).1)^[j + 1] ⟨0, 0, 0⟩).u 0 ≤ 0 ∧
      ((fun t => (iteration s t).1)^[j + 1] ⟨0, 0, 0⟩).x 0 < 0 := by
    intro j
    induction j with
    | zero => exact hstep ⟨0, 0, 0⟩ rfl (by simp) (by simp)
    | succ j ih =>
      rw [Function.iterate_succ_apply']
      exact hstep _ ih.1 ih.2.1 ih.2.2.1
  refine ⟨_, solve_some (s := s) (fun i h => h), ?_⟩
  obtain ⟨K, hK⟩ : ∃ K, s.options.maxNumIterations.toNat = K + 1 :=
    ⟨k.toNat - 1, show k.toNat = k.toNat - 1 + 1 by omega⟩
  rw [hK]
  obtain ⟨j, hj⟩ := Admm.runLoop_exists (iteration s) K ⟨0, 0, 0⟩
  rw [hj]
  exact (hiter j).2.2.2

/-- **A maximum may be returned as the solution.**  The constructor accepts every matrix with
`P + rho I` positive definite, so also programs that are not convex.  For `-x²/4` between `-1` and
`2` it succeeds, and `Solve` answers true with `x = 0`, where the objective is largest; the
minimum is at `x = 2`. -/
theorem C68_nonconvex_counterexample (k : ℤ) (a r : ℝ) :
    ∃ s, construct (n := 1)
        { maxNumIterations := k, rho := 1, alpha := 1, absoluteTolerance := a,
          relativeTolerance := r } (fun _ _ => -1 / 2) 0 = .ok s ∧
      ((s.setLowerBound (fun _ => some (-1))).setUpperBound (fun _ => some 2)).solve = some 0 ∧
      (∀ y, Spec.Within (fun _ => some (-1)) (fun _ => some 2) y →
        Spec.quadratic (fun _ _ => -1 / 2 : Matrix (Fin 1) (Fin 1) ℝ) 0 y ≤
          Spec.quadratic (n := 1) (fun _ _ => -1 / 2) 0 0) ∧
      Spec.MinimizesQuadratic (n := 1) (fun _ _ => -1 / 2) 0 (fun _ => some (-1))
        (fun _ => some 2) (fun _ => 2) := by
  have hq : ∀ y : Fin 1 → ℝ, Spec.quadratic (fun _ _ => -1 / 2 : Matrix (Fin 1) (Fin 1) ℝ) 0 y =
      -(y 0 * y 0) / 4 := by
    intro y
    simp only [Spec.quadratic, mulVec, dotProduct, Finset.univ_unique, Fin.default_eq_zero,
      Finset.sum_singleton, Pi.zero_apply]
    ring
  obtain ⟨s, hs⟩ := (C68_construct (n := 1) ⟨k, 1, 1, a, r⟩ (P := fun _ _ => -1 / 2) 0
    (fun _ _ => rfl)).1 (by
      intro x hx
      have hx0 : x 0 ≠ 0 := fun h => hx (by funext i; rw [Fin.fin_one_eq_zero i, h]; rfl)
      have := mul_self_pos.mpr hx0
      simp only [mulVec, dotProduct, Finset.univ_unique, Fin.default_eq_zero,
        Finset.sum_singleton]
      linarith)
  have hs' : s = ⟨⟨k, 1, 1, a, r⟩, fun _ _ => -1 / 2, 0, fun _ => none, fun _ => none, s.factor⟩ := by
    unfold construct at hs
    split at hs
    · exact absurd hs (by simp)
    · rw [← Outcome.ok.inj hs]
  refine ⟨s, hs, ?_, ?_, ?_, ?_⟩
  · rw [solve_some]
    · have hfix : ∀ t : State 1, t = ⟨0, 0, 0⟩ → (iteration ((s.setLowerBound
          (fun _ => some (-1))).setUpperBound (fun _ => some 2)) t).1 = ⟨0, 0, 0⟩ := by
        rintro t rfl
        have hcl : (fun _ : Fin 1 => clamp (some (-1)) (some 2) 0) = 0 := by
          funext i
          show min 2 (max (-1) 0) = (0 : ℝ)
          norm_num
        have hsol : ∀ F : Matrix (Fin 1) (Fin 1) ℝ, SparseCholesky.solve F 0 = 0 := fun F =>
          mulVec_zero _
        rw [hs']
        simp only [iteration, Solver.setLowerBound, Solver.setUpperBound, sub_zero, smul_zero,
          hsol, add_zero, Pi.zero_apply, hcl]
      have hall : ∀ m, Admm.runLoop (iteration ((s.setLowerBound
          (fun _ => some (-1))).setUpperBound (fun _ => some 2))) m ⟨0, 0, 0⟩ = ⟨0, 0, 0⟩ := by
        intro m
        induction m with
        | zero => rfl
        | succ m ih =>
          rw [Admm.runLoop, hfix _ rfl, ih]
          split <;> rfl
      rw [hall]
    · intro i h
      have : (2 : ℝ) - -1 < 0 := h
      linarith
  · intro y _
    rw [hq, hq]
    simp only [Pi.zero_apply]
    nlinarith [mul_self_nonneg (y 0)]
  · intro i
    constructor
    · intro l hl
      rw [← Option.some.inj hl]
      norm_num
    · intro u hu
      rw [← Option.some.inj hu]
  · intro y hy
    have h1 := (hy 0).1 _ rfl
    have h2 := (hy 0).2 _ rfl
    rw [hq, hq]
    nlinarith

/-- **A matrix that is not symmetric is accepted, and read only above the diagonal.**  The check
"P must be a symmetric matrix" compares the numbers of rows and columns.  For
`x² + x y + y² - 2 x`, given as `P = [[2, 0], [2, 2]]`, the answers converge to `(1, 0)`, which is
not the minimiser. -/
theorem C68_asymmetric_counterexample :
    ∃ s, construct (n := 2)
        { rho := 1, alpha := 1, absoluteTolerance := 0, relativeTolerance := 0 } !![2, 0; 2, 2] ![-2, 0] = .ok s ∧
      (∀ ε > 0, ∃ N : ℤ, ∀ k ≥ N, ∃ y, (s.setMaxIterations k).solve = some y ∧
        |y 0 - 1| < ε ∧ |y 1| < ε) ∧
      Spec.MinimizesQuadratic !![2, 0; 2, 2] ![-2, 0] (fun _ => none) (fun _ => none)
        ![4 / 3, -2 / 3] ∧
      ¬Spec.MinimizesQuadratic !![2, 0; 2, 2] ![-2, 0] (fun _ => none) (fun _ => none) ![1, 0] := by
  have hsym : SparseCholesky.symmetric (!![2, 0; 2, 2] : Matrix (Fin 2) (Fin 2) ℝ) =
      !![2, 0; 0, 2] := by
    funext i j
    unfold SparseCholesky.symmetric
    fin_cases i <;> fin_cases j <;> simp
  have hd : ∀ x : Fin 2 → ℝ, x ⬝ᵥ ((!![2, 0; 0, 2] : Matrix (Fin 2) (Fin 2) ℝ) *ᵥ x) =
      2 * (x 0 * x 0) + 2 * (x 1 * x 1) := by
    intro x
    simp [mulVec, dotProduct, Fin.sum_univ_two]
    ring
  have hq1 : ∀ x : Fin 2 → ℝ, Spec.quadratic !![2, 0; 0, 2] ![-2, 0] x =
      x 0 * x 0 + x 1 * x 1 - 2 * x 0 := by
    intro x
    unfold Spec.quadratic
    rw [hd]
    simp [dotProduct, Fin.sum_univ_two]
    ring
  have hq2 : ∀ x : Fin 2 → ℝ, Spec.quadratic !![2, 0; 2, 2] ![-2, 0] x =
      x 0 * x 0 + x 0 * x 1 + x 1 * x 1 - 2 * x 0 := by
    intro x
    simp [Spec.quadratic, mulVec, dotProduct, Fin.sum_univ_two]
    ring
  have hw : ∀ x : Fin 2 → ℝ, Spec.Within (fun _ => none) (fun _ => none) x := fun x i =>
    ⟨fun _ h => absurd h (by simp), fun _ h => absurd h (by simp)⟩
  have hp : ∀ x : Fin 2 → ℝ, 0 ≤ x ⬝ᵥ ((!![2, 0; 0, 2] : Matrix (Fin 2) (Fin 2) ℝ) *ᵥ x) := by
    intro x
    rw [hd]
    nlinarith [mul_self_nonneg (x 0), mul_self_nonneg (x 1)]
  refine ⟨_, construct_ok (by norm_num) (by rw [hsym]; exact hp), ?_, ⟨hw _, fun y _ => ?_⟩, ?_⟩
  · rw [hsym]
    obtain ⟨x, hx, hlim⟩ := converges (P := !![2, 0; 2, 2]) (S := !![2, 0; 0, 2]) (q := ![-2, 0])
      (o := { rho := 1, alpha := 1, absoluteTolerance := 0, relativeTolerance := 0 })
      (lb := fun _ => none) (ub := fun _ => none)
      (by intro i j; fin_cases i <;> fin_cases j <;> rfl) hp one_pos one_pos (by norm_num) rfl rfl
      ⟨![1, 0], hw _, fun y _ => by
        rw [hq1, hq1]
        simp
        nlinarith [mul_self_nonneg (y 0 - 1), mul_self_nonneg (y 1)]⟩
    have h := hx.2 ![1, 0] (hw _)
    rw [hq1, hq1] at h
    simp at h
    have hx0 : x 0 = 1 := by
      have : (x 0 - 1) * (x 0 - 1) = 0 :=
        le_antisymm (by nlinarith [mul_self_nonneg (x 1)]) (mul_self_nonneg _)
      linarith [mul_self_eq_zero.mp this]
    have hx1 : x 1 = 0 := by
      have : x 1 * x 1 = 0 := le_antisymm (by rw [hx0] at h; linarith) (mul_self_nonneg _)
      exact mul_self_eq_zero.mp this
    intro ε hε
    obtain ⟨N, hN⟩ := hlim ε hε
    refine ⟨N, fun k hk => ?_⟩
    obtain ⟨y, hy, hyx⟩ := hN k hk
    refine ⟨y, hy, ?_, ?_⟩
    · have := hyx 0
      rwa [hx0] at this
    · have := hyx 1
      rwa [hx1, sub_zero] at this
  · rw [hq2, hq2]
    simp
    nlinarith [mul_self_nonneg (2 * (y 1 + 2 / 3) + (y 0 - 4 / 3)), mul_self_nonneg (y 0 - 4 / 3)]
  · intro h
    have := h.2 ![4 / 3, -2 / 3] (hw _)
    rw [hq2, hq2] at this
    norm_num at this

/-! The hypotheses are met: `½ x² + x` under `x ≥ 0` has the minimiser 0. -/

example : (∀ x : Fin 1 → ℝ, 0 ≤ x ⬝ᵥ ((fun _ _ => 1 : Matrix (Fin 1) (Fin 1) ℝ) *ᵥ x)) ∧
    Spec.MinimizesQuadratic (n := 1) (fun _ _ => 1) (fun _ => 1) (fun _ => some 0) (fun _ => none)
      0 := by
  constructor
  · intro x
    simp only [mulVec, dotProduct, Finset.univ_unique, Fin.default_eq_zero, Finset.sum_singleton,
      one_mul]
    exact mul_self_nonneg _
  · refine ⟨fun i => ⟨fun l hl => ?_, fun _ h => absurd h (by simp)⟩, fun y hy => ?_⟩
    · rw [← Option.some.inj hl]
      exact le_rfl
    · have := (hy 0).1 0 rfl
      simp only [Spec.quadratic, mulVec, dotProduct, Finset.univ_unique, Fin.default_eq_zero,
        Finset.sum_singleton, one_mul, Pi.zero_apply, mul_zero]
      nlinarith [mul_self_nonneg (y 0)]

end Theia
