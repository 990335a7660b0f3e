import Verif.Model.L1Solver
import Verif.Spec.L1Minimization
import Verif.Proof.AdmmL1
import Verif.Proof.BreakLoop

/-!
# Lemmas about the L1 solver
-/

namespace Theia.L1Solver

open Matrix Filter Topology Theia.Admm

variable {m n : ℕ}

theorem symmetric_of_symm {M : Matrix (Fin n) (Fin n) ℝ} (h : ∀ i j, M i j = M j i) :
    SparseCholesky.symmetric M = M := by
  funext i j
  unfold SparseCholesky.symmetric
  split
  · rfl
  · exact h j i

theorem gram_symm {ι : Type} [Fintype ι] (A : Matrix ι (Fin n) ℝ) (i j : Fin n) :
    (Aᵀ * A) i j = (Aᵀ * A) j i := by
  simp only [mul_apply, transpose_apply]
  exact Finset.sum_congr rfl fun _ _ => mul_comm _ _

theorem injective_of_kernel {ι : Type} [Fintype ι] {A : Matrix ι (Fin n) ℝ}
    (h : ∀ x, A *ᵥ x = 0 → x = 0) : Function.Injective A.mulVec := by
  intro x y e
  have := h (x - y) (by rw [mulVec_sub]; exact sub_eq_zero.mpr e)
  exact sub_eq_zero.mp this

theorem kernel_of_posDef {ι : Type} [Fintype ι] {A : Matrix ι (Fin n) ℝ} (h : (Aᵀ * A).PosDef) :
    ∀ x, A *ᵥ x = 0 → x = 0 := by
  intro x hx
  have hu : IsUnit (Aᵀ * A).det := (Matrix.isUnit_iff_isUnit_det _).mp h.isUnit
  have : (Aᵀ * A)⁻¹ *ᵥ ((Aᵀ * A) *ᵥ x) = x := by
    rw [mulVec_mulVec, nonsing_inv_mul _ hu, one_mulVec]
  rw [← this, ← mulVec_mulVec, hx]
  simp

theorem construct_ok {o : Options} {A : Matrix (Fin m) (Fin n) ℝ}
    (h : ∀ x, A *ᵥ x = 0 → x = 0) :
    construct o A = .ok { options := o, a := A, factor := Aᵀ * A } := by
  unfold construct SparseCholesky.compute
  rw [symmetric_of_symm (gram_symm A), if_pos (gram_posDef (injective_of_kernel h))]

theorem construct_abort {o : Options} {A : Matrix (Fin m) (Fin n) ℝ}
    (h : ¬∀ x, A *ᵥ x = 0 → x = 0) : construct o A = .abort := by
  unfold construct SparseCholesky.compute
  rw [symmetric_of_symm (gram_symm A), if_neg fun hp => h (kernel_of_posDef hp)]

theorem construct_inv {o : Options} {A : Matrix (Fin m) (Fin n) ℝ} {s : Solver m n}
    (h : construct o A = .ok s) :
    (∀ x, A *ᵥ x = 0 → x = 0) ∧ s = { options := o, a := A, factor := Aᵀ * A } := by
  by_cases hk : ∀ x, A *ᵥ x = 0 → x = 0
  · rw [construct_ok hk] at h
    exact ⟨hk, (Outcome.ok.inj h).symm⟩
  · rw [construct_abort hk] at h
    exact absurd h (by simp)

theorem shrinkage_eq (v : Fin m → ℝ) (ρ : ℝ) :
    shrinkage v (1 / ρ) = prox (fun _ => true) ρ v := by
  funext i
  simp only [shrinkage, prox, soft, if_true]
  rw [max_comm, max_comm 0 (-v i - 1 / ρ)]

theorem loop_eq (s : Solver m n) (rhs : Fin m → ℝ) : ∀ (k : ℕ) (t : State m n),
    loop s rhs k t = runLoop (iteration s rhs) k t
  | 0, _ => rfl
  | k + 1, t => by
    rw [loop, runLoop]
    simp only [loop_eq s rhs k]

/-- The argument of the proximal step after `k` iterations. -/
noncomputable def arg (o : Options) (A : Matrix (Fin m) (Fin n) ℝ) (b : Fin m → ℝ) (k : ℕ) :
    Fin m → ℝ :=
  (dr (proj A b) (prox (fun _ => true) o.rho) o.alpha)^[k] 0

theorem arg_succ (o : Options) (A : Matrix (Fin m) (Fin n) ℝ) (b : Fin m → ℝ) (k : ℕ) :
    arg o A b (k + 1) = dr (proj A b) (prox (fun _ => true) o.rho) o.alpha (arg o A b k) :=
  Function.iterate_succ_apply' _ _ _

/-- One iteration from the state given by `w`. -/
theorem iteration_eq (o : Options) (A : Matrix (Fin m) (Fin n) ℝ) (b : Fin m → ℝ)
    (x : Fin n → ℝ) (w : Fin m → ℝ) :
    (iteration { options := o, a := A, factor := Aᵀ * A } b
      { x := x, z := prox (fun _ => true) o.rho w, u := w - prox (fun _ => true) o.rho w }).1 =
      { x := lsq A (b + (2 • prox (fun _ => true) o.rho w - w))
        z := prox (fun _ => true) o.rho (dr (proj A b) (prox (fun _ => true) o.rho) o.alpha w)
        u := dr (proj A b) (prox (fun _ => true) o.rho) o.alpha w -
          prox (fun _ => true) o.rho (dr (proj A b) (prox (fun _ => true) o.rho) o.alpha w) } := by
  have e1 : b + prox (fun _ => true) o.rho w - (w - prox (fun _ => true) o.rho w) =
      b + (2 • prox (fun _ => true) o.rho w - w) := by
    rw [two_smul]
    abel
  simp only [iteration, SparseCholesky.solve, shrinkage_eq, e1]
  have e2 : (Aᵀ * A)⁻¹ *ᵥ (Aᵀ *ᵥ (b + (2 • prox (fun _ => true) o.rho w - w))) =
      lsq A (b + (2 • prox (fun _ => true) o.rho w - w)) := rfl
  rw [e2]
  have e3 : o.alpha • (A *ᵥ lsq A (b + (2 • prox (fun _ => true) o.rho w - w))) +
      (1 - o.alpha) • (prox (fun _ => true) o.rho w + b) - b + (w - prox (fun _ => true) o.rho w) =
      dr (proj A b) (prox (fun _ => true) o.rho) o.alpha w := by
    unfold dr proj
    funext i
    simp only [Pi.add_apply, Pi.sub_apply, Pi.smul_apply, smul_eq_mul]
    ring
  rw [e3]
  congr 1
  rw [← e3]
  abel

theorem iterate_eq {o : Options} (hρ : 0 < o.rho) (A : Matrix (Fin m) (Fin n) ℝ) (b : Fin m → ℝ)
    (x0 : Fin n → ℝ) : ∀ k : ℕ,
    (fun t => (iteration { options := o, a := A, factor := Aᵀ * A } b t).1)^[k]
      { x := x0, z := 0, u := 0 } =
      { x := match k with
          | 0 => x0
          | k + 1 => lsq A (b + (2 • prox (fun _ => true) o.rho (arg o A b k) - arg o A b k))
        z := prox (fun _ => true) o.rho (arg o A b k)
        u := arg o A b k - prox (fun _ => true) o.rho (arg o A b k) }
  | 0 => by
    have : arg o A b 0 = 0 := rfl
    rw [this, prox_zero _ hρ]
    simp
  | k + 1 => by
    rw [Function.iterate_succ_apply', iterate_eq hρ A b x0 k, iteration_eq, arg_succ]

theorem solve_eq (s : Solver m n) (b : Fin m → ℝ) (x0 : Fin n → ℝ) :
    s.solve b x0 = (runLoop (iteration s b) s.options.maxNumIterations.toNat
      { x := x0, z := 0, u := 0 }).x := by
  rw [Solver.solve, loop_eq]

/-- The loop does not look at the limit on the iterations. -/
theorem iteration_limit (o : Options) (k : ℤ) (A : Matrix (Fin m) (Fin n) ℝ)
    (M : Matrix (Fin n) (Fin n) ℝ) (b : Fin m → ℝ) :
    iteration { options := { o with maxNumIterations := k }, a := A, factor := M } b =
      iteration { options := o, a := A, factor := M } b := rfl

theorem solve_limit (o : Options) (k : ℤ) (A : Matrix (Fin m) (Fin n) ℝ)
    (M : Matrix (Fin n) (Fin n) ℝ) (b : Fin m → ℝ) (x0 : Fin n → ℝ) :
    (Solver.setMaxIterations { options := o, a := A, factor := M } k).solve b x0 =
      (runLoop (iteration { options := o, a := A, factor := M } b) k.toNat
        { x := x0, z := 0, u := 0 }).x := by
  rw [solve_eq]
  rfl

theorem norm_nonneg {k : ℕ} (v : Fin k → ℝ) : 0 ≤ norm v := Real.sqrt_nonneg _

theorem norm_eq {k : ℕ} (v : Fin k → ℝ) : norm v = Spec.length v := by
  unfold norm Spec.length dotProduct
  congr 1
  exact Finset.sum_congr rfl fun i _ => (sq (v i)).symm

theorem norm_tendsto {k : ℕ} {f : ℕ → Fin k → ℝ} (h : Tendsto f atTop (𝓝 0)) :
    Tendsto (fun j => norm (f j)) atTop (𝓝 0) := by
  have hc : Continuous fun v : Fin k → ℝ => √(v ⬝ᵥ v) :=
    Real.continuous_sqrt.comp continuous_dot_self
  have := (hc.tendsto 0).comp h
  simp only [dotProduct_zero, Real.sqrt_zero] at this
  exact this

theorem feasible_all (A : Matrix (Fin m) (Fin n) ℝ) (b : Fin m → ℝ) (x : Fin n → ℝ) :
    Feasible A b (fun _ => true) x := fun _ h => absurd h (by simp)

theorem l1Cost_all (A : Matrix (Fin m) (Fin n) ℝ) (b : Fin m → ℝ) (x : Fin n → ℝ) :
    l1Cost A b (fun _ => true) x = Spec.sumAbs (A *ᵥ x - b) := by
  simp [l1Cost, Spec.sumAbs]

/-- The iterates converge to a minimiser. -/
theorem tendsto_minimizer {o : Options} {A : Matrix (Fin m) (Fin n) ℝ}
    (hA : ∀ x, A *ᵥ x = 0 → x = 0) (hρ : 0 < o.rho) (h0 : 0 < o.alpha) (h2 : o.alpha < 2)
    (b : Fin m → ℝ) (x0 : Fin n → ℝ) :
    ∃ x, Spec.MinimizesL1 A b x ∧
      Tendsto (fun k => ((fun t => (iteration { options := o, a := A, factor := Aᵀ * A } b t).1)^[k]
        { x := x0, z := 0, u := 0 }).x) atTop (𝓝 x) := by
  obtain ⟨x, ⟨-, hx⟩, ht, -, -⟩ := admm_tendsto (injective_of_kernel hA) hρ h0 h2
    ⟨0, feasible_all A b 0⟩ (arg_succ o A b)
  refine ⟨x, fun y => ?_, ?_⟩
  · have := hx y (feasible_all A b y)
    rwa [l1Cost_all, l1Cost_all] at this
  · rw [← tendsto_add_atTop_iff_nat 1]
    refine ht.congr fun k => ?_
    rw [iterate_eq hρ]

/-- The loop breaks when the absolute tolerance is positive. -/
theorem exists_break {o : Options} {A : Matrix (Fin m) (Fin n) ℝ}
    (hA : ∀ x, A *ᵥ x = 0 → x = 0) (hρ : 0 < o.rho) (h0 : 0 < o.alpha) (h2 : o.alpha < 2)
    (habs : 0 < o.absoluteTolerance) (hrel : 0 ≤ o.relativeTolerance) (hn : n ≠ 0)
    (b : Fin m → ℝ) (x0 : Fin n → ℝ) :
    ∃ k, (iteration { options := o, a := A, factor := Aᵀ * A } b
      ((fun t => (iteration { options := o, a := A, factor := Aᵀ * A } b t).1)^[k]
        { x := x0, z := 0, u := 0 })).2 := by
  have hm : m ≠ 0 := by
    rintro rfl
    have : (fun _ => 1 : Fin n → ℝ) = 0 := hA _ (funext fun i => i.elim0)
    have := congrFun this ⟨0, Nat.pos_of_ne_zero hn⟩
    simp at this
  obtain ⟨x, -, -, hr, hs⟩ := admm_tendsto (injective_of_kernel hA) hρ h0 h2
    ⟨0, feasible_all A b 0⟩ (arg_succ o A b)
  have hm' : 0 < √(m : ℝ) * o.absoluteTolerance :=
    mul_pos (Real.sqrt_pos.mpr (Nat.cast_pos.mpr (Nat.pos_of_ne_zero hm))) habs
  have hn' : 0 < √(n : ℝ) * o.absoluteTolerance :=
    mul_pos (Real.sqrt_pos.mpr (Nat.cast_pos.mpr (Nat.pos_of_ne_zero hn))) habs
  have hr' := norm_tendsto hr
  have hs' : Tendsto (fun k => norm ((-o.rho) • (Aᵀ *ᵥ
      (prox (fun _ => true) o.rho (arg o A b (k + 1)) - prox (fun _ => true) o.rho (arg o A b k)))))
      atTop (𝓝 0) := by
    apply norm_tendsto
    have hc : Continuous fun v : Fin m → ℝ => (-o.rho) • (Aᵀ *ᵥ v) :=
      Continuous.const_smul (g := fun v : Fin m → ℝ => Aᵀ *ᵥ v)
        (continuous_const.matrix_mulVec continuous_id) (-o.rho)
    have := (hc.tendsto 0).comp hs
    simp only [mulVec_zero, smul_zero] at this
    exact this
  obtain ⟨k, h1, h3⟩ := ((hr'.eventually_lt_const hm').and (hs'.eventually_lt_const hn')).exists
  refine ⟨k, ?_⟩
  have e := iterate_eq hρ A b x0 (k + 1)
  rw [Function.iterate_succ_apply'] at e
  have ez := iterate_eq hρ A b x0 k
  generalize ht : (fun t => (iteration { options := o, a := A, factor := Aᵀ * A } b t).1)^[k]
    { x := x0, z := 0, u := 0 } = t at e ez ⊢
  have hx' := congrArg State.x e
  have hz' := congrArg State.z e
  have hz := congrArg State.z ez
  simp only [iteration] at hx' hz' hz ⊢
  rw [hz', hx', hz]
  constructor
  · refine h1.trans_le (le_add_of_nonneg_right (mul_nonneg hrel ?_))
    exact (norm_nonneg _).trans (le_max_right _ _)
  · refine h3.trans_le (le_add_of_nonneg_right (mul_nonneg hrel (norm_nonneg _)))

theorem norm_add_le {k : ℕ} (v w : Fin k → ℝ) : norm (v + w) ≤ norm v + norm w := by
  unfold norm
  rw [Real.sqrt_le_left (by positivity)]
  have h := (le_abs_self _).trans (dot_le v w)
  have e1 := Real.sq_sqrt (dot_self_nonneg v)
  have e2 := Real.sq_sqrt (dot_self_nonneg w)
  rw [dotProduct_add, add_dotProduct, add_dotProduct, dotProduct_comm w v]
  nlinarith

theorem norm_neg {k : ℕ} (v : Fin k → ℝ) : norm (-v) = norm v := by
  unfold norm
  rw [neg_dotProduct_neg]

theorem sumAbs_le (v : Fin m → ℝ) : Spec.sumAbs v ≤ √m * norm v := by
  unfold Spec.sumAbs norm
  have h := dot_le (fun _ => (1 : ℝ)) (fun i => |v i|)
  have e1 : (fun _ : Fin m => (1 : ℝ)) ⬝ᵥ (fun i => |v i|) = ∑ i, |v i| := by
    simp [dotProduct]
  have e2 : (fun _ : Fin m => (1 : ℝ)) ⬝ᵥ (fun _ => 1) = m := by
    simp [dotProduct]
  have e3 : (fun i => |v i|) ⬝ᵥ (fun i => |v i|) = v ⬝ᵥ v := by
    simp [dotProduct]
  rw [e1, e2, e3] at h
  exact (le_abs_self _).trans h

/-- What the stopping criterion says about the objective, without over-relaxation. -/
theorem break_accuracy {o : Options} {A : Matrix (Fin m) (Fin n) ℝ}
    (hA : ∀ x, A *ᵥ x = 0 → x = 0) (hρ : 0 < o.rho) (h1 : o.alpha = 1)
    (hrel : 0 ≤ o.relativeTolerance) (hrel1 : o.relativeTolerance < 1)
    (b : Fin m → ℝ) (t : State m n)
    (hb : (iteration { options := o, a := A, factor := Aᵀ * A } b t).2) (y : Fin n → ℝ) :
    (1 - o.relativeTolerance) * (Spec.sumAbs
        (A *ᵥ (iteration { options := o, a := A, factor := Aᵀ * A } b t).1.x - b) -
          Spec.sumAbs (A *ᵥ y - b)) ≤
      2 * √m * (√m * o.absoluteTolerance + o.relativeTolerance *
        (norm (A *ᵥ (iteration { options := o, a := A, factor := Aᵀ * A } b t).1.x) + norm b)) +
      √n * o.absoluteTolerance *
        norm (y - (iteration { options := o, a := A, factor := Aᵀ * A } b t).1.x) := by
  simp only [iteration, h1, one_smul, sub_self, zero_smul, add_zero, shrinkage_eq] at hb ⊢
  have hn : Aᵀ *ᵥ (A *ᵥ SparseCholesky.solve (Aᵀ * A) (Aᵀ *ᵥ (b + t.z - t.u))) =
      Aᵀ *ᵥ (b + t.z - t.u) := lsq_normal (injective_of_kernel hA) _
  generalize SparseCholesky.solve (Aᵀ * A) (Aᵀ *ᵥ (b + t.z - t.u)) = x at *
  have ho := prox_optimal (fun _ : Fin m => true) hρ (A *ᵥ x - b + t.u)
  have eu : t.u + (A *ᵥ x - prox (fun _ => true) o.rho (A *ᵥ x - b + t.u) - b) =
      A *ᵥ x - b + t.u - prox (fun _ => true) o.rho (A *ᵥ x - b + t.u) := by abel
  rw [eu] at hb
  generalize hz : prox (fun _ => true) o.rho (A *ᵥ x - b + t.u) = z at *
  generalize hu : A *ᵥ x - b + t.u - z = u at *
  have hAu : Aᵀ *ᵥ u = -(Aᵀ *ᵥ (z - t.z)) := by
    rw [← hu, mulVec_sub, mulVec_add, mulVec_sub, hn, mulVec_sub, mulVec_sub, mulVec_add]
    abel
  obtain ⟨hr, hs⟩ := hb
  have hsu : o.rho • (Aᵀ *ᵥ u) = (-o.rho) • (Aᵀ *ᵥ (z - t.z)) := by
    rw [hAu, smul_neg, neg_smul]
  rw [hsu] at hs
  rw [← hsu] at hs
  generalize hrr : A *ᵥ x - z - b = r at *
  have hzx : z = (A *ᵥ x - b) - r := by rw [← hrr]; abel
  -- the residuals
  have hr1 : (1 - o.relativeTolerance) * norm r ≤
      √m * o.absoluteTolerance + o.relativeTolerance * (norm (A *ᵥ x) + norm b) := by
    have hzn : norm z ≤ norm (A *ᵥ x) + norm b + norm r := by
      have e : z = A *ᵥ x + (-b + -r) := by rw [hzx]; abel
      rw [e]
      refine (norm_add_le _ _).trans ?_
      have := norm_add_le (-b) (-r)
      rw [norm_neg, norm_neg] at this
      linarith
    have hmax : max (max (norm (A *ᵥ x)) (norm z)) (norm b) ≤ norm (A *ᵥ x) + norm b + norm r := by
      have p1 := norm_nonneg (A *ᵥ x)
      have p2 := norm_nonneg b
      have p3 := norm_nonneg r
      refine max_le (max_le ?_ hzn) ?_ <;> linarith
    have := mul_le_mul_of_nonneg_left hmax hrel
    linarith
  have hs1 : (1 - o.relativeTolerance) * norm (o.rho • (Aᵀ *ᵥ u)) ≤ √n * o.absoluteTolerance := by
    linarith
  -- the subgradient inequality
  have key : Spec.sumAbs (A *ᵥ x - b) ≤ Spec.sumAbs (A *ᵥ y - b) + 2 * Spec.sumAbs r +
      norm (o.rho • (Aᵀ *ᵥ u)) * norm (y - x) := by
    have hd : -(norm (o.rho • (Aᵀ *ᵥ u)) * norm (y - x)) ≤
        (o.rho • (Aᵀ *ᵥ u)) ⬝ᵥ (y - x) := (abs_le.mp (dot_le _ _)).1
    have he : (o.rho • (Aᵀ *ᵥ u)) ⬝ᵥ (y - x) =
        ∑ i, o.rho * u i * ((A *ᵥ y - b) i - (A *ᵥ x - b) i) := by
      have e2 : ∀ i, (A *ᵥ y - b) i - (A *ᵥ x - b) i = (A *ᵥ (y - x)) i := by
        intro i
        rw [mulVec_sub]
        simp
      simp only [e2, mul_assoc]
      rw [← Finset.mul_sum, smul_dotProduct, smul_eq_mul]
      congr 1
      show (Aᵀ *ᵥ u) ⬝ᵥ (y - x) = u ⬝ᵥ (A *ᵥ (y - x))
      rw [dotProduct_mulVec, ← mulVec_transpose]
    rw [he] at hd
    have hsum : Spec.sumAbs (A *ᵥ x - b) + ∑ i, o.rho * u i * ((A *ᵥ y - b) i - (A *ᵥ x - b) i) ≤
        Spec.sumAbs (A *ᵥ y - b) + 2 * Spec.sumAbs r := by
      unfold Spec.sumAbs
      rw [Finset.mul_sum, ← Finset.sum_add_distrib, ← Finset.sum_add_distrib]
      refine Finset.sum_le_sum fun i _ => ?_
      have h := ho i
      unfold Optimal at h
      simp only [if_true] at h
      have hzi : z i = (A *ᵥ x - b) i - r i := by rw [hzx]; rfl
      generalize (A *ᵥ y - b) i = p at *
      generalize (A *ᵥ x - b) i = c at *
      have i1 : o.rho * u i * p ≤ |p| := by
        refine (le_abs_self _).trans ?_
        rw [abs_mul]
        exact mul_le_of_le_one_left (abs_nonneg p) h.1
      have i2 : -(o.rho * u i * r i) ≤ |r i| := by
        refine (neg_le_abs _).trans ?_
        rw [abs_mul]
        exact mul_le_of_le_one_left (abs_nonneg _) h.1
      have i3 : |c| ≤ |z i| + |r i| := by
        have : c = z i + r i := by rw [hzi]; ring
        rw [this]
        exact abs_add_le _ _
      have i4 : o.rho * u i * z i = o.rho * u i * c - o.rho * u i * r i := by rw [hzi]; ring
      have i5 := h.2
      rw [mul_sub]
      linarith
    linarith
  have hr2 := sumAbs_le r
  have p0 : 0 ≤ 1 - o.relativeTolerance := by linarith
  have hyx := norm_nonneg (y - x)
  have hsm := Real.sqrt_nonneg (m : ℝ)
  have k1 := mul_le_mul_of_nonneg_left key p0
  have k2 := mul_le_mul_of_nonneg_left hr2 p0
  have k3 := mul_le_mul_of_nonneg_left hr1 hsm
  have k4 := mul_le_mul_of_nonneg_right hs1 hyx
  linarith

end Theia.L1Solver
