import Verif.Model.ConstrainedL1Solver
import Verif.Proof.L1Solver

/-!
# Lemmas about the constrained L1 solver
-/

namespace Theia.ConstrainedL1Solver

open Matrix Filter Topology Theia.Admm

variable {m k n : ℕ}

/-- The rows of the sum of absolute values. -/
def isResidual : Fin m ⊕ Fin k → Bool := Sum.isLeft

theorem symmetric_upper {M : Matrix (Fin n) (Fin n) ℝ} (h : ∀ i j, M i j = M j i) :
    SparseCholesky.symmetric (fun i j => if i ≤ j then M i j else 0) = M := by
  funext i j
  unfold SparseCholesky.symmetric
  split
  · rename_i hij
    show (if i ≤ j then M i j else 0) = M i j
    simp only [hij, if_true]
  · rename_i hij
    have hji : j ≤ i := by omega
    show (if j ≤ i then M j i else 0) = M i j
    simp only [hji, if_true]
    exact h j i

/-- The solver the constructor makes for a stacked system. -/
abbrev made (o : Options) (M : Matrix (Fin m ⊕ Fin k) (Fin n) ℝ) (e : Fin m ⊕ Fin k → ℝ) :
    Solver m k n := { options := o, a := M, b := e, factor := Mᵀ * M }

theorem stacked_kernel (A : Matrix (Fin m) (Fin n) ℝ) (C : Matrix (Fin k) (Fin n) ℝ)
    (x : Fin n → ℝ) : fromRows A C *ᵥ x = 0 ↔ A *ᵥ x = 0 ∧ C *ᵥ x = 0 := by
  rw [fromRows_mulVec]
  constructor
  · intro h
    exact ⟨funext fun i => congrFun h (.inl i), funext fun j => congrFun h (.inr j)⟩
  · rintro ⟨h1, h2⟩
    rw [h1, h2]
    funext i
    cases i <;> rfl

theorem construct_ok {o : Options} {A : Matrix (Fin m) (Fin n) ℝ} {b : Fin m → ℝ}
    {C : Matrix (Fin k) (Fin n) ℝ} {d : Fin k → ℝ}
    (h : ∀ x, fromRows A C *ᵥ x = 0 → x = 0) :
    construct o A b C d = .ok (made o (fromRows A C) (Sum.elim b d)) := by
  unfold construct SparseCholesky.compute
  simp only
  rw [symmetric_upper (L1Solver.gram_symm (fromRows A C)),
    if_pos (gram_posDef (L1Solver.injective_of_kernel h))]

theorem construct_abort {o : Options} {A : Matrix (Fin m) (Fin n) ℝ} {b : Fin m → ℝ}
    {C : Matrix (Fin k) (Fin n) ℝ} {d : Fin k → ℝ}
    (h : ¬∀ x, fromRows A C *ᵥ x = 0 → x = 0) : construct o A b C d = .abort := by
  unfold construct SparseCholesky.compute
  simp only
  rw [symmetric_upper (L1Solver.gram_symm (fromRows A C)),
    if_neg fun hp => h (L1Solver.kernel_of_posDef hp)]

theorem construct_inv {o : Options} {A : Matrix (Fin m) (Fin n) ℝ} {b : Fin m → ℝ}
    {C : Matrix (Fin k) (Fin n) ℝ} {d : Fin k → ℝ} {s : Solver m k n}
    (h : construct o A b C d = .ok s) :
    (∀ x, fromRows A C *ᵥ x = 0 → x = 0) ∧ 
      s = made o (fromRows A C) (Sum.elim b d) := by
  by_cases hk : ∀ x, fromRows A C *ᵥ x = 0 → x = 0
  · rw [construct_ok hk] at h
    exact ⟨hk, (Outcome.ok.inj h).symm⟩
  · rw [construct_abort hk] at h
    exact absurd h (by simp)

theorem modifiedShrinkage_eq (v : Fin m ⊕ Fin k → ℝ) (ρ : ℝ) :
    modifiedShrinkage v (1 / ρ) = prox isResidual ρ v := by
  funext i
  cases i <;> simp [modifiedShrinkage, prox, soft, isResidual]

theorem loop_eq (s : Solver m k n) : ∀ (j : ℕ) (t : State m k n),
    loop s j t = runLoop (iteration s) j t
  | 0, _ => rfl
  | j + 1, t => by
    rw [loop, runLoop]
    simp only [loop_eq s j]

theorem solve_eq (s : Solver m k n) (x0 : Fin n → ℝ) :
    s.solve x0 = (runLoop (iteration s) s.options.maxNumIterations.toNat
      { x := x0, z := 0, u := 0 }).x := by
  rw [Solver.solve, loop_eq]

/-- The argument of the proximal step after `j` iterations. -/
noncomputable def arg (o : Options) (M : Matrix (Fin m ⊕ Fin k) (Fin n) ℝ) (e : Fin m ⊕ Fin k → ℝ)
    (j : ℕ) : Fin m ⊕ Fin k → ℝ :=
  (dr (proj M e) (prox isResidual o.rho) o.alpha)^[j] 0

theorem arg_succ (o : Options) (M : Matrix (Fin m ⊕ Fin k) (Fin n) ℝ) (e : Fin m ⊕ Fin k → ℝ)
    (j : ℕ) :
    arg o M e (j + 1) = dr (proj M e) (prox isResidual o.rho) o.alpha (arg o M e j) :=
  Function.iterate_succ_apply' _ _ _

/-- One iteration from the state given by `w`. -/
theorem iteration_eq (o : Options) (M : Matrix (Fin m ⊕ Fin k) (Fin n) ℝ) (e : Fin m ⊕ Fin k → ℝ)
    (x : Fin n → ℝ) (w : Fin m ⊕ Fin k → ℝ) :
    (iteration (made o M e)
      { x := x, z := prox isResidual o.rho w, u := w - prox isResidual o.rho w }).1 =
      { x := lsq M (e + (2 • prox isResidual o.rho w - w))
        z := prox isResidual o.rho (dr (proj M e) (prox isResidual o.rho) o.alpha w)
        u := dr (proj M e) (prox isResidual o.rho) o.alpha w -
          prox isResidual o.rho (dr (proj M e) (prox isResidual o.rho) o.alpha w) } := by
  have e1 : e + prox isResidual o.rho w - (w - prox isResidual o.rho w) =
      e + (2 • prox isResidual o.rho w - w) := by
    rw [two_smul]
    abel
  simp only [iteration, SparseCholesky.solve, modifiedShrinkage_eq, e1]
  have e2 : (Mᵀ * M)⁻¹ *ᵥ (Mᵀ *ᵥ (e + (2 • prox isResidual o.rho w - w))) =
      lsq M (e + (2 • prox isResidual o.rho w - w)) := rfl
  rw [e2]
  have e3 : o.alpha • (M *ᵥ lsq M (e + (2 • prox isResidual o.rho w - w))) +
      (1 - o.alpha) • (prox isResidual o.rho w + e) - e + (w - prox isResidual o.rho w) =
      dr (proj M e) (prox isResidual o.rho) o.alpha w := by
    unfold dr proj
    funext i
    simp only [Pi.add_apply, Pi.sub_apply, Pi.smul_apply, smul_eq_mul]
    ring
  rw [e3]
  congr 1
  rw [← e3]
  abel

theorem iterate_eq {o : Options} (hρ : 0 < o.rho) (M : Matrix (Fin m ⊕ Fin k) (Fin n) ℝ)
    (e : Fin m ⊕ Fin k → ℝ) (x0 : Fin n → ℝ) : ∀ j : ℕ,
    (fun t => (iteration (made o M e) t).1)^[j] { x := x0, z := 0, u := 0 } =
      { x := match j with
          | 0 => x0
          | j + 1 => lsq M (e + (2 • prox isResidual o.rho (arg o M e j) - arg o M e j))
        z := prox isResidual o.rho (arg o M e j)
        u := arg o M e j - prox isResidual o.rho (arg o M e j) }
  | 0 => by
    have : arg o M e 0 = 0 := rfl
    rw [this, prox_zero _ hρ]
    simp
  | j + 1 => by
    rw [Function.iterate_succ_apply', iterate_eq hρ M e x0 j, iteration_eq, arg_succ]

theorem norm_nonneg {ι : Type} [Fintype ι] (v : ι → ℝ) : 0 ≤ norm v := Real.sqrt_nonneg _

theorem norm_tendsto {ι : Type} [Fintype ι] {f : ℕ → ι → ℝ} (h : Tendsto f atTop (𝓝 0)) :
    Tendsto (fun j => norm (f j)) atTop (𝓝 0) := by
  have hc : Continuous fun v : ι → ℝ => √(v ⬝ᵥ v) :=
    Real.continuous_sqrt.comp continuous_dot_self
  have := (hc.tendsto 0).comp h
  simp only [dotProduct_zero, Real.sqrt_zero] at this
  exact this

theorem norm_add_le {ι : Type} [Fintype ι] (v w : ι → ℝ) : norm (v + w) ≤ norm v + norm w := by
  unfold norm
  rw [Real.sqrt_le_left (by positivity)]
  have h := (le_abs_self _).trans (dot_le v w)
  have e1 := Real.sq_sqrt (dot_self_nonneg v)
  have e2 := Real.sq_sqrt (dot_self_nonneg w)
  rw [dotProduct_add, add_dotProduct, add_dotProduct, dotProduct_comm w v]
  nlinarith

theorem norm_neg {ι : Type} [Fintype ι] (v : ι → ℝ) : norm (-v) = norm v := by
  unfold norm
  rw [neg_dotProduct_neg]

theorem feasible_iff (A : Matrix (Fin m) (Fin n) ℝ) (b : Fin m → ℝ) (C : Matrix (Fin k) (Fin n) ℝ)
    (d : Fin k → ℝ) (x : Fin n → ℝ) :
    Feasible (fromRows A C) (Sum.elim b d) isResidual x ↔ ∀ j, d j ≤ (C *ᵥ x) j := by
  unfold Feasible
  rw [fromRows_mulVec]
  constructor
  · intro h j
    have := h (.inr j) rfl
    simpa using this
  · rintro h (i | j) hi
    · simp [isResidual] at hi
    · simpa using h j

theorem l1Cost_eq (A : Matrix (Fin m) (Fin n) ℝ) (b : Fin m → ℝ) (C : Matrix (Fin k) (Fin n) ℝ)
    (d : Fin k → ℝ) (x : Fin n → ℝ) :
    l1Cost (fromRows A C) (Sum.elim b d) isResidual x = Spec.sumAbs (A *ᵥ x - b) := by
  unfold l1Cost Spec.sumAbs
  rw [fromRows_mulVec, Fintype.sum_sum_type]
  simp [isResidual]

/-- The iterates converge to a minimiser. -/
theorem tendsto_minimizer {o : Options} {A : Matrix (Fin m) (Fin n) ℝ} {b : Fin m → ℝ}
    {C : Matrix (Fin k) (Fin n) ℝ} {d : Fin k → ℝ}
    (hM : ∀ x, fromRows A C *ᵥ x = 0 → x = 0) (hρ : 0 < o.rho) (h0 : 0 < o.alpha)
    (h2 : o.alpha < 2) (hf : ∃ x, ∀ j, d j ≤ (C *ᵥ x) j) (x0 : Fin n → ℝ) :
    ∃ x, Spec.MinimizesL1Subject A b C d x ∧
      Tendsto (fun j => ((fun t => (iteration (made o (fromRows A C) (Sum.elim b d)) t).1)^[j]
        { x := x0, z := 0, u := 0 }).x) atTop (𝓝 x) := by
  obtain ⟨x, ⟨hfx, hx⟩, ht, -, -⟩ := admm_tendsto (L1Solver.injective_of_kernel hM) hρ h0 h2
    (hf.imp fun x h => (feasible_iff A b C d x).mpr h) (arg_succ o (fromRows A C) (Sum.elim b d))
  refine ⟨x, ⟨(feasible_iff A b C d x).mp hfx, fun y hy => ?_⟩, ?_⟩
  · have := hx y ((feasible_iff A b C d y).mpr hy)
    rwa [l1Cost_eq, l1Cost_eq] at this
  · rw [← tendsto_add_atTop_iff_nat 1]
    refine ht.congr fun j => ?_
    rw [iterate_eq hρ]

/-- The loop breaks when the absolute tolerance is positive. -/
theorem exists_break {o : Options} {A : Matrix (Fin m) (Fin n) ℝ} {b : Fin m → ℝ}
    {C : Matrix (Fin k) (Fin n) ℝ} {d : Fin k → ℝ}
    (hM : ∀ x, fromRows A C *ᵥ x = 0 → x = 0) (hρ : 0 < o.rho) (h0 : 0 < o.alpha)
    (h2 : o.alpha < 2) (hf : ∃ x, ∀ j, d j ≤ (C *ᵥ x) j)
    (habs : 0 < o.absoluteTolerance) (hrel : 0 ≤ o.relativeTolerance) (hn : n ≠ 0)
    (x0 : Fin n → ℝ) :
    ∃ j, (iteration (made o (fromRows A C) (Sum.elim b d))
      ((fun t => (iteration (made o (fromRows A C) (Sum.elim b d)) t).1)^[j]
        { x := x0, z := 0, u := 0 })).2 := by
  have hm : m + k ≠ 0 := by
    intro h
    obtain ⟨rfl, rfl⟩ : m = 0 ∧ k = 0 := by omega
    have : (fun _ => 1 : Fin n → ℝ) = 0 :=
      hM _ (funext fun i => by rcases i with i | i <;> exact i.elim0)
    have := congrFun this ⟨0, Nat.pos_of_ne_zero hn⟩
    simp at this
  obtain ⟨x, -, -, hr, hs⟩ := admm_tendsto (L1Solver.injective_of_kernel hM) hρ h0 h2
    (hf.imp fun x h => (feasible_iff A b C d x).mpr h) (arg_succ o (fromRows A C) (Sum.elim b d))
  generalize fromRows A C = M at *
  generalize Sum.elim b d = e at *
  have hm' : 0 < √((m + k : ℕ) : ℝ) * o.absoluteTolerance :=
    mul_pos (Real.sqrt_pos.mpr (Nat.cast_pos.mpr (Nat.pos_of_ne_zero hm))) habs
  have hn' : 0 < √(n : ℝ) * o.absoluteTolerance :=
    mul_pos (Real.sqrt_pos.mpr (Nat.cast_pos.mpr (Nat.pos_of_ne_zero hn))) habs
  have hr' := norm_tendsto hr
  have hs' : Tendsto (fun j => norm ((-o.rho) • (Mᵀ *ᵥ
      (prox isResidual o.rho (arg o M e (j + 1)) - prox isResidual o.rho (arg o M e j)))))
      atTop (𝓝 0) := by
    apply norm_tendsto
    have hc : Continuous fun v : Fin m ⊕ Fin k → ℝ => (-o.rho) • (Mᵀ *ᵥ v) :=
      Continuous.const_smul (g := fun v : Fin m ⊕ Fin k → ℝ => Mᵀ *ᵥ v)
        (continuous_const.matrix_mulVec continuous_id) (-o.rho)
    have := (hc.tendsto 0).comp hs
    simp only [mulVec_zero, smul_zero] at this
    exact this
  obtain ⟨j, h1, h3⟩ := ((hr'.eventually_lt_const hm').and (hs'.eventually_lt_const hn')).exists
  refine ⟨j, ?_⟩
  have e1 := iterate_eq hρ M e x0 (j + 1)
  rw [Function.iterate_succ_apply'] at e1
  have ez := iterate_eq hρ M e x0 j
  generalize ht : (fun t => (iteration (made o M e) t).1)^[j]
    { x := x0, z := 0, u := 0 } = t at e1 ez ⊢
  have hx' := congrArg State.x e1
  have hz' := congrArg State.z e1
  have hz := congrArg State.z ez
  simp only [iteration] at hx' hz' hz ⊢
  rw [hz', hx', hz]
  constructor
  · refine h1.trans_le (le_add_of_nonneg_right (mul_nonneg hrel ?_))
    exact (norm_nonneg _).trans (le_max_right _ _)
  · refine h3.trans_le (le_add_of_nonneg_right (mul_nonneg hrel (norm_nonneg _)))

theorem norm_sumElim (v : Fin m → ℝ) (w : Fin k → ℝ) :
    norm (Sum.elim v w) = √(Spec.length v ^ 2 + Spec.length w ^ 2) := by
  unfold norm Spec.length dotProduct
  rw [Real.sq_sqrt (Finset.sum_nonneg fun _ _ => sq_nonneg _),
    Real.sq_sqrt (Finset.sum_nonneg fun _ _ => sq_nonneg _), Fintype.sum_sum_type]
  simp [sq]

/-- What the stopping criterion says about the constraints. -/
theorem break_violation {o : Options} (M : Matrix (Fin m ⊕ Fin k) (Fin n) ℝ)
    (e : Fin m ⊕ Fin k → ℝ) (hρ : 0 < o.rho) (hrel : 0 ≤ o.relativeTolerance)
    (hrel1 : o.relativeTolerance ≤ 1) (t : State m k n)
    (hb : (iteration (made o M e) t).2) (j : Fin k) :
    (1 - o.relativeTolerance) *
        (e (.inr j) - (M *ᵥ (iteration (made o M e) t).1.x) (.inr j)) ≤
      √((m + k : ℕ) : ℝ) * o.absoluteTolerance + o.relativeTolerance *
        (norm (M *ᵥ (iteration (made o M e) t).1.x) + norm e) := by
  simp only [iteration, modifiedShrinkage_eq] at hb ⊢
  generalize SparseCholesky.solve (Mᵀ * M) (Mᵀ *ᵥ (e + t.z - t.u)) = x at *
  obtain ⟨hr, -⟩ := hb
  generalize hw : o.alpha • (M *ᵥ x) + (1 - o.alpha) • (t.z + e) - e + t.u = w at *
  have ho := prox_optimal isResidual hρ w (.inr j)
  have hz0 : 0 ≤ prox isResidual o.rho w (.inr j) := by
    unfold Optimal at ho
    simp only [isResidual, Sum.isLeft_inr, Bool.false_eq_true, if_false] at ho
    exact ho.1
  generalize prox isResidual o.rho w = z at *
  generalize hrr : M *ᵥ x - z - e = r at *
  have hzn : norm z ≤ norm (M *ᵥ x) + norm e + norm r := by
    have e1 : z = M *ᵥ x + (-e + -r) := by rw [← hrr]; abel
    rw [e1]
    refine (norm_add_le _ _).trans ?_
    have := norm_add_le (-e) (-r)
    rw [norm_neg, norm_neg] at this
    linarith
  have hmax : max (max (norm (M *ᵥ x)) (norm z)) (norm e) ≤ norm (M *ᵥ x) + norm e + norm r := by
    have p1 := norm_nonneg (M *ᵥ x)
    have p2 := norm_nonneg e
    have p3 := norm_nonneg r
    refine max_le (max_le ?_ hzn) ?_ <;> linarith
  have h1 := mul_le_mul_of_nonneg_left hmax hrel
  have h2 : e (.inr j) - (M *ᵥ x) (.inr j) ≤ norm r := by
    have h3 := (abs_le.mp (abs_le_sqrt_dot r (.inr j))).1
    have h4 : r (.inr j) = (M *ᵥ x) (.inr j) - z (.inr j) - e (.inr j) := by rw [← hrr]; rfl
    have h5 : √(r ⬝ᵥ r) = norm r := rfl
    rw [h5, h4] at h3
    linarith
  have h3 := mul_le_mul_of_nonneg_left h2 (sub_nonneg.mpr hrel1)
  linarith

/-- The first iteration for `|x| → min`, `x ≥ 1`. -/
theorem violation_iteration {o : Options} (h1 : o.rho = 1) (h2 : o.alpha = 1)
    (h3 : o.absoluteTolerance = 1) (h4 : o.relativeTolerance = 0)
    {M : Matrix (Fin 1 ⊕ Fin 1) (Fin 1) ℝ} (hM : ∀ i j, M i j = 1)
    {e : Fin 1 ⊕ Fin 1 → ℝ} (he : e = Sum.elim (fun _ => 0) fun _ => 1) (x0 : Fin 1 → ℝ) :
    (iteration (made o M e) { x := x0, z := 0, u := 0 }).2 ∧
      (iteration (made o M e) { x := x0, z := 0, u := 0 }).1.x = fun _ => 1 / 2 := by
  have hker : ∀ x : Fin 1 → ℝ, M *ᵥ x = 0 → x = 0 := by
    intro x hx
    have := congrFun hx (.inl 0)
    funext i
    simpa [mulVec, dotProduct, Fin.fin_one_eq_zero i, hM] using this
  have e1 : SparseCholesky.solve (Mᵀ * M) (Mᵀ *ᵥ e) = fun _ => 1 / 2 := by
    refine lsq_unique (L1Solver.injective_of_kernel hker) (x := fun _ => 1 / 2) ?_
    funext i
    rw [he]
    simp [mulVec, dotProduct, Fintype.sum_sum_type, hM]
  have e2 : M *ᵥ (fun _ => (1 / 2 : ℝ)) = fun _ => 1 / 2 := by
    funext i
    simp [mulVec, dotProduct, hM]
  have e3 : modifiedShrinkage (m := 1) (k := 1) ((fun _ => 1 / 2) - e) 1 = 0 := by
    funext i
    rw [he]
    rcases i with i | i
    · simp only [modifiedShrinkage, Pi.sub_apply, Sum.elim_inl, Pi.zero_apply]
      norm_num
    · simp only [modifiedShrinkage, Pi.sub_apply, Sum.elim_inr, Pi.zero_apply]
      norm_num
  simp only [iteration, e1, e2, h1, h2, h3, h4, one_smul, sub_self, zero_smul, add_zero, div_one,
    e3, mul_one, zero_mul, sub_zero, mulVec_zero, smul_zero, and_true]
  constructor
  · unfold norm
    apply Real.sqrt_lt_sqrt
    · exact dot_self_nonneg _
    · rw [he]
      simp only [dotProduct, Fintype.sum_sum_type, Finset.univ_unique, Fin.default_eq_zero,
        Finset.sum_singleton, Pi.sub_apply, Sum.elim_inl, Sum.elim_inr]
      norm_num
  · simp [norm]

end Theia.ConstrainedL1Solver
