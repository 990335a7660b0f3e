import Verif.Model.QpSolver
import Verif.Proof.L1Solver

/-!
# Lemmas about the quadratic program solver
-/

namespace Theia.QpSolver

open Matrix Filter Topology Theia.Admm

variable {n : ℕ}

/-! ### Clamping -/

/-- The interval between two bounds. -/
def Between (lb ub : Option ℝ) (v : ℝ) : Prop :=
  (∀ l, lb = some l → l ≤ v) ∧ ∀ u, ub = some u → v ≤ u

theorem clamp_between {lb ub : Option ℝ} (h : ¬crossed lb ub) (v : ℝ) :
    Between lb ub (clamp lb ub v) := by
  cases lb with
  | none =>
    cases ub with
    | none => exact ⟨fun _ h => absurd h (by simp), fun _ h => absurd h (by simp)⟩
    | some u =>
      refine ⟨fun _ h => absurd h (by simp), fun u' h' => ?_⟩
      obtain rfl := Option.some.inj h'
      exact min_le_left _ _
  | some l =>
    cases ub with
    | none =>
      refine ⟨fun l' h' => ?_, fun _ h => absurd h (by simp)⟩
      obtain rfl := Option.some.inj h'
      exact le_max_left _ _
    | some u =>
      have hlu : l ≤ u := by
        unfold crossed at h
        linarith
      refine ⟨fun l' h' => ?_, fun u' h' => ?_⟩
      · obtain rfl := Option.some.inj h'
        exact le_min hlu (le_max_left _ _)
      · obtain rfl := Option.some.inj h'
        exact min_le_left _ _

/-- Clamping is the projection to the interval. -/
theorem clamp_obtuse {lb ub : Option ℝ} (h : ¬crossed lb ub) (v : ℝ) {y : ℝ}
    (hy : Between lb ub y) : (v - clamp lb ub v) * (y - clamp lb ub v) ≤ 0 := by
  cases lb with
  | none =>
    cases ub with
    | none => simp [clamp]
    | some u =>
      have h2 := hy.2 u rfl
      show (v - min u v) * (y - min u v) ≤ 0
      rcases min_cases u v with ⟨e, h3⟩ | ⟨e, h3⟩
      · rw [e]; nlinarith
      · rw [e]; simp
  | some l =>
    have h1 := hy.1 l rfl
    cases ub with
    | none =>
      show (v - max l v) * (y - max l v) ≤ 0
      rcases max_cases l v with ⟨e, h3⟩ | ⟨e, h3⟩
      · rw [e]; nlinarith
      · rw [e]; simp
    | some u =>
      have h2 := hy.2 u rfl
      have hlu : l ≤ u := by
        unfold crossed at h
        linarith
      show (v - min u (max l v)) * (y - min u (max l v)) ≤ 0
      rcases max_cases l v with ⟨e, h3⟩ | ⟨e, h3⟩
      · rw [e, min_eq_right hlu]; nlinarith
      · rw [e]
        rcases min_cases u v with ⟨e', h4⟩ | ⟨e', h4⟩
        · rw [e']; nlinarith
        · rw [e']; simp

theorem clamp_firm {lb ub : Option ℝ} (h : ¬crossed lb ub) (v w : ℝ) :
    (clamp lb ub v - clamp lb ub w) * (clamp lb ub v - clamp lb ub w) ≤
      (clamp lb ub v - clamp lb ub w) * (v - w) := by
  have h1 := clamp_obtuse h v (clamp_between h w)
  have h2 := clamp_obtuse h w (clamp_between h v)
  nlinarith

theorem clamp_unique {lb ub : Option ℝ} (h : ¬crossed lb ub) {v z : ℝ} (hz : Between lb ub z)
    (ho : ∀ y, Between lb ub y → (v - z) * (y - z) ≤ 0) : clamp lb ub v = z := by
  have h1 := clamp_obtuse h v hz
  have h2 := ho _ (clamp_between h v)
  have : (clamp lb ub v - z) * (clamp lb ub v - z) ≤ 0 := by nlinarith
  have := mul_self_eq_zero.mp (le_antisymm this (mul_self_nonneg _))
  linarith

/-- The step of the bounds. -/
noncomputable def box (lb ub : Fin n → Option ℝ) (v : Fin n → ℝ) : Fin n → ℝ :=
  fun i => clamp (lb i) (ub i) (v i)

theorem box_firm {lb ub : Fin n → Option ℝ} (h : ∀ i, ¬crossed (lb i) (ub i)) :
    Firm (box lb ub) := fun v w =>
  Finset.sum_le_sum fun i _ => clamp_firm (h i) (v i) (w i)

/-! ### The quadratic step -/

/-- The step of the quadratic form. -/
noncomputable def quad (S : Matrix (Fin n) (Fin n) ℝ) (q : Fin n → ℝ) (ρ : ℝ) (v : Fin n → ℝ) :
    Fin n → ℝ :=
  SparseCholesky.solve (ρ • (1 : Matrix (Fin n) (Fin n) ℝ) + S) (ρ • v - q)

variable {S : Matrix (Fin n) (Fin n) ℝ} {q : Fin n → ℝ}

theorem shifted_posDef (hS : ∀ i j, S i j = S j i) (hp : ∀ x, 0 ≤ x ⬝ᵥ (S *ᵥ x)) {ρ : ℝ}
    (hρ : 0 < ρ) : (ρ • (1 : Matrix (Fin n) (Fin n) ℝ) + S).PosDef := by
  apply Matrix.PosDef.of_dotProduct_mulVec_pos
  · apply Matrix.IsHermitian.ext
    intro i j
    show star (ρ * (1 : Matrix (Fin n) (Fin n) ℝ) j i + S j i) =
      ρ * (1 : Matrix (Fin n) (Fin n) ℝ) i j + S i j
    rw [star_trivial, hS j i, one_apply, one_apply]
    simp only [eq_comm]
  · intro x hx
    rw [add_mulVec, smul_mulVec, one_mulVec, star_trivial, dotProduct_add, dotProduct_smul,
      smul_eq_mul]
    have h1 : 0 < x ⬝ᵥ x :=
      lt_of_le_of_ne (dot_self_nonneg x) fun h => hx (dot_self_eq_zero h.symm)
    have := hp x
    positivity

theorem quad_spec (hS : ∀ i j, S i j = S j i) (hp : ∀ x, 0 ≤ x ⬝ᵥ (S *ᵥ x)) {ρ : ℝ} (hρ : 0 < ρ)
    (v : Fin n → ℝ) : ρ • quad S q ρ v + S *ᵥ quad S q ρ v = ρ • v - q := by
  have hu : IsUnit (ρ • (1 : Matrix (Fin n) (Fin n) ℝ) + S).det :=
    (Matrix.isUnit_iff_isUnit_det _).mp (shifted_posDef hS hp hρ).isUnit
  have : (ρ • (1 : Matrix (Fin n) (Fin n) ℝ) + S) *ᵥ quad S q ρ v = ρ • v - q := by
    unfold quad SparseCholesky.solve
    rw [mulVec_mulVec, mul_nonsing_inv _ hu, one_mulVec]
  rw [← this, add_mulVec, smul_mulVec, one_mulVec]

theorem quad_unique (hS : ∀ i j, S i j = S j i) (hp : ∀ x, 0 ≤ x ⬝ᵥ (S *ᵥ x)) {ρ : ℝ} (hρ : 0 < ρ)
    {v x : Fin n → ℝ} (h : ρ • x + S *ᵥ x = ρ • v - q) : quad S q ρ v = x := by
  have hu : IsUnit (ρ • (1 : Matrix (Fin n) (Fin n) ℝ) + S).det :=
    (Matrix.isUnit_iff_isUnit_det _).mp (shifted_posDef hS hp hρ).isUnit
  have : (ρ • (1 : Matrix (Fin n) (Fin n) ℝ) + S) *ᵥ x = ρ • v - q := by
    rw [← h, add_mulVec, smul_mulVec, one_mulVec]
  unfold quad SparseCholesky.solve
  rw [← this, mulVec_mulVec, nonsing_inv_mul _ hu, one_mulVec]

theorem quad_firm (hS : ∀ i j, S i j = S j i) (hp : ∀ x, 0 ≤ x ⬝ᵥ (S *ᵥ x)) {ρ : ℝ} (hρ : 0 < ρ) :
    Firm (quad S q ρ) := by
  intro v w
  have h1 := quad_spec (q := q) hS hp hρ v
  have h2 := quad_spec (q := q) hS hp hρ w
  have h3 : ρ • (quad S q ρ v - quad S q ρ w) + S *ᵥ (quad S q ρ v - quad S q ρ w) =
      ρ • (v - w) := by
    rw [smul_sub, mulVec_sub, smul_sub]
    have := congrArg₂ (· - ·) h1 h2
    rw [show ρ • v - ρ • w = ρ • v - q - (ρ • w - q) by abel, ← this]
    abel
  generalize quad S q ρ v - quad S q ρ w = y at *
  have h4 := congrArg (y ⬝ᵥ ·) h3
  simp only [dotProduct_add, dotProduct_smul, smul_eq_mul] at h4
  have h5 := hp y
  have : ρ * (y ⬝ᵥ y) ≤ ρ * (y ⬝ᵥ (v - w)) := by linarith
  exact le_of_mul_le_mul_left this hρ

/-- The quadratic form around a point. -/
theorem quadratic_expand (hS : ∀ i j, S i j = S j i) (x y : Fin n → ℝ) (t : ℝ) :
    Spec.quadratic S q (x + t • y) =
      Spec.quadratic S q x + t * ((S *ᵥ x + q) ⬝ᵥ y) + t ^ 2 / 2 * (y ⬝ᵥ (S *ᵥ y)) := by
  have hT : Sᵀ = S := by
    funext i j
    exact hS j i
  have hc : x ⬝ᵥ (S *ᵥ y) = (S *ᵥ x) ⬝ᵥ y := by
    rw [dotProduct_mulVec, ← mulVec_transpose, hT]
  have hc2 : y ⬝ᵥ (S *ᵥ x) = (S *ᵥ x) ⬝ᵥ y := dotProduct_comm _ _
  unfold Spec.quadratic
  simp only [mulVec_add, mulVec_smul, dotProduct_add, add_dotProduct, dotProduct_smul,
    smul_dotProduct, smul_eq_mul, hc, hc2]
  ring

theorem within_iff {lb ub : Fin n → Option ℝ} {x : Fin n → ℝ} :
    Spec.Within lb ub x ↔ ∀ i, Between (lb i) (ub i) (x i) := Iff.rfl

/-- A minimiser gives a fixed point. -/
theorem exists_fixed (hS : ∀ i j, S i j = S j i) (hp : ∀ x, 0 ≤ x ⬝ᵥ (S *ᵥ x)) {ρ : ℝ} (hρ : 0 < ρ)
    {lb ub : Fin n → Option ℝ} (hc : ∀ i, ¬crossed (lb i) (ub i)) {x : Fin n → ℝ}
    (hx : Spec.MinimizesQuadratic S q lb ub x) :
    ∃ w, quad S q ρ (2 • box lb ub w - w) = box lb ub w := by
  obtain ⟨hw, hmin⟩ := hx
  -- the gradient points outwards
  have hg : ∀ i y, Between (lb i) (ub i) y → 0 ≤ (S *ᵥ x + q) i * (y - x i) := by
    intro i y hy
    by_contra hneg
    push Not at hneg
    have hseg : ∀ t : ℝ, 0 < t → t ≤ 1 →
        0 ≤ t * ((S *ᵥ x + q) i * (y - x i)) + t ^ 2 / 2 * ((y - x i) ^ 2 * S i i) := by
      intro t ht ht1
      have hin : Spec.Within lb ub (x + t • Pi.single i (y - x i)) := by
        intro j
        by_cases hj : j = i
        · subst hj
          have h1 := hw j
          simp only [Pi.add_apply, Pi.smul_apply, Pi.single_eq_same, smul_eq_mul]
          constructor
          · intro l hl
            have a := h1.1 l hl
            have b := hy.1 l hl
            nlinarith
          · intro u hu
            have a := h1.2 u hu
            have b := hy.2 u hu
            nlinarith
        · have : (x + t • (Pi.single i (y - x i) : Fin n → ℝ)) j = x j := by
            simp [hj]
          rw [this]
          exact hw j
      have h := hmin _ hin
      rw [quadratic_expand hS] at h
      have e1 : (S *ᵥ x + q) ⬝ᵥ Pi.single i (y - x i) = (S *ᵥ x + q) i * (y - x i) := by
        rw [dotProduct_single]
      have e2 : Pi.single i (y - x i) ⬝ᵥ (S *ᵥ Pi.single i (y - x i)) =
          (y - x i) ^ 2 * S i i := by
        rw [single_dotProduct, mulVec_single]
        simp
        ring
      rw [e1, e2] at h
      linarith
    generalize (S *ᵥ x + q) i * (y - x i) = g at *
    generalize hcc : (y - x i) ^ 2 * S i i = c at *
    have h1 := hseg 1 one_pos le_rfl
    have hcpos : 0 < c := by nlinarith
    have ht : 0 < min 1 (-g / c) := lt_min one_pos (div_pos (by linarith) hcpos)
    have h2 := hseg _ ht (min_le_left _ _)
    have h3 : min 1 (-g / c) * c ≤ -g := by
      have := mul_le_mul_of_nonneg_right (min_le_right 1 (-g / c)) hcpos.le
      rwa [div_mul_cancel₀ _ hcpos.ne'] at this
    have h4 : min 1 (-g / c) * (g + min 1 (-g / c) * c / 2) < 0 := by
      apply mul_neg_of_pos_of_neg ht
      linarith
    nlinarith
  have hbox : box lb ub (x - ρ⁻¹ • (S *ᵥ x + q)) = x := by
    funext i
    apply clamp_unique (hc i) (hw i)
    intro y hy
    have h := hg i y hy
    simp only [Pi.sub_apply, Pi.smul_apply, smul_eq_mul]
    have hr : 0 < ρ⁻¹ := inv_pos.mpr hρ
    have := mul_nonneg hr.le h
    linarith
  refine ⟨x - ρ⁻¹ • (S *ᵥ x + q), ?_⟩
  rw [hbox]
  apply quad_unique hS hp hρ
  have : 2 • x - (x - ρ⁻¹ • (S *ᵥ x + q)) = x + ρ⁻¹ • (S *ᵥ x + q) := by
    rw [two_smul]
    abel
  rw [this, smul_add, smul_smul, mul_inv_cancel₀ hρ.ne', one_smul]
  abel

/-- A fixed point gives a minimiser. -/
theorem fixed_minimizes (hS : ∀ i j, S i j = S j i) (hp : ∀ x, 0 ≤ x ⬝ᵥ (S *ᵥ x)) {ρ : ℝ}
    (hρ : 0 < ρ) {lb ub : Fin n → Option ℝ} (hc : ∀ i, ¬crossed (lb i) (ub i)) {w : Fin n → ℝ}
    (hw : quad S q ρ (2 • box lb ub w - w) = box lb ub w) :
    Spec.MinimizesQuadratic S q lb ub (box lb ub w) := by
  refine ⟨fun i => clamp_between (hc i) (w i), fun y hy => ?_⟩
  have h := quad_spec (q := q) hS hp hρ (2 • box lb ub w - w)
  rw [hw] at h
  have hgrad : S *ᵥ box lb ub w + q = -(ρ • (w - box lb ub w)) := by
    have : S *ᵥ box lb ub w + q = ρ • box lb ub w + S *ᵥ box lb ub w - ρ • box lb ub w + q := by
      abel
    rw [this, h, two_smul, smul_sub, smul_sub, smul_add]
    abel
  have e := quadratic_expand (q := q) hS (box lb ub w) (y - box lb ub w) 1
  rw [one_smul, add_sub_cancel] at e
  rw [e, hgrad]
  have h1 := hp (y - box lb ub w)
  have h2 : (w - box lb ub w) ⬝ᵥ (y - box lb ub w) ≤ 0 :=
    Finset.sum_nonpos fun i _ => clamp_obtuse (hc i) (w i) (hy i)
  rw [neg_dotProduct, smul_dotProduct, smul_eq_mul]
  have := mul_nonpos_of_nonneg_of_nonpos hρ.le h2
  linarith

/-! ### The loop -/

theorem symmetric_shift (P : Matrix (Fin n) (Fin n) ℝ) (ρ : ℝ) :
    SparseCholesky.symmetric (ρ • (1 : Matrix (Fin n) (Fin n) ℝ) + P) =
      ρ • 1 + SparseCholesky.symmetric P := by
  funext i j
  unfold SparseCholesky.symmetric
  show (if i ≤ j then ρ * (1 : Matrix (Fin n) (Fin n) ℝ) i j + P i j
    else ρ * (1 : Matrix (Fin n) (Fin n) ℝ) j i + P j i) =
    ρ * (1 : Matrix (Fin n) (Fin n) ℝ) i j + if i ≤ j then P i j else P j i
  split
  · rfl
  · rw [one_apply, one_apply]
    simp only [eq_comm]

theorem symmetric_symm (P : Matrix (Fin n) (Fin n) ℝ) (i j : Fin n) :
    SparseCholesky.symmetric P i j = SparseCholesky.symmetric P j i := by
  unfold SparseCholesky.symmetric
  rcases lt_trichotomy i j with h | h | h
  · simp only [h.le, if_true, not_le.mpr h, if_false]
  · rw [h]
  · simp only [h.le, if_true, not_le.mpr h, if_false]

theorem construct_ok {o : Options} {P : Matrix (Fin n) (Fin n) ℝ} {q : Fin n → ℝ}
    (hρ : 0 < o.rho)
    (hp : ∀ x, 0 ≤ x ⬝ᵥ (SparseCholesky.symmetric P *ᵥ x)) :
    construct o P q = .ok
      ⟨o, P, q, fun _ => none, fun _ => none, o.rho • 1 + SparseCholesky.symmetric P⟩ := by
  unfold construct SparseCholesky.compute
  rw [symmetric_shift, if_pos (shifted_posDef (symmetric_symm P) hp hρ)]

/-- The solver between bounds. -/
noncomputable abbrev made (o : Options) (P S : Matrix (Fin n) (Fin n) ℝ) (q : Fin n → ℝ)
    (lb ub : Fin n → Option ℝ) : Solver n :=
  ⟨o, P, q, lb, ub, o.rho • 1 + S⟩

theorem loop_eq (s : Solver n) : ∀ (k : ℕ) (t : State n),
    loop s k t = runLoop (iteration s) k t
  | 0, _ => rfl
  | k + 1, t => by
    rw [loop, runLoop]
    simp only [loop_eq s k]

/-- The argument of the second step, one iteration on. -/
noncomputable def argFrom (o : Options) (S : Matrix (Fin n) (Fin n) ℝ) (q : Fin n → ℝ)
    (lb ub : Fin n → Option ℝ) (k : ℕ) : Fin n → ℝ :=
  (dr (quad S q o.rho) (box lb ub) o.alpha)^[k] (o.alpha • quad S q o.rho 0)

theorem argFrom_succ (o : Options) (S : Matrix (Fin n) (Fin n) ℝ) (q : Fin n → ℝ)
    (lb ub : Fin n → Option ℝ) (k : ℕ) :
    argFrom o S q lb ub (k + 1) =
      dr (quad S q o.rho) (box lb ub) o.alpha (argFrom o S q lb ub k) :=
  Function.iterate_succ_apply' _ _ _

theorem iteration_first (o : Options) (P S : Matrix (Fin n) (Fin n) ℝ) (q : Fin n → ℝ)
    (lb ub : Fin n → Option ℝ) :
    (iteration (made o P S q lb ub) { x := 0, z := 0, u := 0 }).1 =
      { x := quad S q o.rho 0
        z := box lb ub (argFrom o S q lb ub 0)
        u := argFrom o S q lb ub 0 - box lb ub (argFrom o S q lb ub 0) } := by
  have e : argFrom o S q lb ub 0 = o.alpha • quad S q o.rho 0 := rfl
  rw [e]
  simp only [iteration, quad, sub_zero, smul_zero, add_zero, zero_add]
  rfl

theorem iteration_eq (o : Options) (P S : Matrix (Fin n) (Fin n) ℝ) (q : Fin n → ℝ)
    (lb ub : Fin n → Option ℝ) (x w : Fin n → ℝ) :
    (iteration (made o P S q lb ub) { x := x, z := box lb ub w, u := w - box lb ub w }).1 =
      { x := quad S q o.rho (2 • box lb ub w - w)
        z := box lb ub (dr (quad S q o.rho) (box lb ub) o.alpha w)
        u := dr (quad S q o.rho) (box lb ub) o.alpha w -
          box lb ub (dr (quad S q o.rho) (box lb ub) o.alpha w) } := by
  have e1 : box lb ub w - (w - box lb ub w) = 2 • box lb ub w - w := by
    rw [two_smul]
    abel
  have e2 : SparseCholesky.solve (o.rho • 1 + S) (o.rho • (2 • box lb ub w - w) - q) =
      quad S q o.rho (2 • box lb ub w - w) := rfl
  have e3 : o.alpha • quad S q o.rho (2 • box lb ub w - w) + (1 - o.alpha) • box lb ub w +
      (w - box lb ub w) = dr (quad S q o.rho) (box lb ub) o.alpha w := by
    unfold dr
    funext i
    simp only [Pi.add_apply, Pi.sub_apply, Pi.smul_apply, smul_eq_mul]
    ring
  have e4 : ∀ v : Fin n → ℝ, (fun i => clamp (lb i) (ub i) (v i)) = box lb ub v := fun _ => rfl
  simp only [iteration, e1, e2, e3, e4]
  congr 1
  rw [← e3]
  abel

theorem iterate_eq (o : Options) (P S : Matrix (Fin n) (Fin n) ℝ) (q : Fin n → ℝ)
    (lb ub : Fin n → Option ℝ) : ∀ k : ℕ,
    (fun t => (iteration (made o P S q lb ub) t).1)^[k + 1] { x := 0, z := 0, u := 0 } =
      { x := match k with
          | 0 => quad S q o.rho 0
          | k + 1 => quad S q o.rho (2 • box lb ub (argFrom o S q lb ub k) - argFrom o S q lb ub k)
        z := box lb ub (argFrom o S q lb ub k)
        u := argFrom o S q lb ub k - box lb ub (argFrom o S q lb ub k) }
  | 0 => iteration_first o P S q lb ub
  | k + 1 => by
    rw [Function.iterate_succ_apply', iterate_eq o P S q lb ub k, iteration_eq, argFrom_succ]

theorem norm_nonneg {k : ℕ} (v : Fin k → ℝ) : 0 ≤ norm v := Real.sqrt_nonneg _

/-- The iterates converge to a minimiser, and both residuals vanish. -/
theorem qp_tendsto (hS : ∀ i j, S i j = S j i) (hp : ∀ x, 0 ≤ x ⬝ᵥ (S *ᵥ x)) {o : Options}
    (hρ : 0 < o.rho) (h0 : 0 < o.alpha) (h2 : o.alpha < 2) {lb ub : Fin n → Option ℝ}
    (hc : ∀ i, ¬crossed (lb i) (ub i)) (hm : ∃ x, Spec.MinimizesQuadratic S q lb ub x) :
    ∃ x, Spec.MinimizesQuadratic S q lb ub x ∧
      Tendsto (fun k => quad S q o.rho
        (2 • box lb ub (argFrom o S q lb ub k) - argFrom o S q lb ub k)) atTop (𝓝 x) ∧
      Tendsto (fun k => quad S q o.rho
        (2 • box lb ub (argFrom o S q lb ub k) - argFrom o S q lb ub k) -
          box lb ub (argFrom o S q lb ub (k + 1))) atTop (𝓝 0) ∧
      Tendsto (fun k => box lb ub (argFrom o S q lb ub (k + 1)) -
        box lb ub (argFrom o S q lb ub k)) atTop (𝓝 0) := by
  obtain ⟨x, hx⟩ := hm
  obtain ⟨v, hv, hlim⟩ := dr_tendsto (quad_firm (q := q) hS hp hρ) (box_firm hc) h0 h2
    (exists_fixed hS hp hρ hc hx) (argFrom_succ o S q lb ub)
  have hz : Tendsto (fun k => box lb ub (argFrom o S q lb ub k)) atTop (𝓝 (box lb ub v)) :=
    ((box_firm hc).continuous.tendsto v).comp hlim
  have hz' := hz.comp (tendsto_add_atTop_nat 1)
  have hxt : Tendsto (fun k => quad S q o.rho
      (2 • box lb ub (argFrom o S q lb ub k) - argFrom o S q lb ub k)) atTop
      (𝓝 (quad S q o.rho (2 • box lb ub v - v))) :=
    ((quad_firm (q := q) hS hp hρ).continuous.tendsto _).comp ((hz.const_smul 2).sub hlim)
  rw [hv] at hxt
  refine ⟨_, fixed_minimizes hS hp hρ hc hv, hxt, ?_, ?_⟩
  · have h := hxt.sub hz'
    rw [sub_self] at h
    exact h
  · have h := hz'.sub hz
    rw [sub_self] at h
    exact h

theorem norm_eq {k : ℕ} (v : Fin k → ℝ) : norm v = Spec.length v := L1Solver.norm_eq v

/-- The loop breaks when the absolute tolerance is positive. -/
theorem exists_break (hS : ∀ i j, S i j = S j i) (hp : ∀ x, 0 ≤ x ⬝ᵥ (S *ᵥ x)) {o : Options}
    (hρ : 0 < o.rho) (h0 : 0 < o.alpha) (h2 : o.alpha < 2) {lb ub : Fin n → Option ℝ}
    (hc : ∀ i, ¬crossed (lb i) (ub i)) (hm : ∃ x, Spec.MinimizesQuadratic S q lb ub x)
    (habs : 0 < o.absoluteTolerance) (hrel : 0 ≤ o.relativeTolerance) (hn : n ≠ 0)
    (P : Matrix (Fin n) (Fin n) ℝ) :
    ∃ k, (iteration (made o P S q lb ub)
      ((fun t => (iteration (made o P S q lb ub) t).1)^[k] { x := 0, z := 0, u := 0 })).2 := by
  obtain ⟨x, -, -, hr, hs⟩ := qp_tendsto hS hp hρ h0 h2 hc hm
  have hn' : 0 < √(n : ℝ) * o.absoluteTolerance :=
    mul_pos (Real.sqrt_pos.mpr (Nat.cast_pos.mpr (Nat.pos_of_ne_zero hn))) habs
  have hr' : Tendsto (fun k => norm (quad S q o.rho
        (2 • box lb ub (argFrom o S q lb ub k) - argFrom o S q lb ub k) -
          box lb ub (argFrom o S q lb ub (k + 1)))) atTop (𝓝 0) := L1Solver.norm_tendsto hr
  have hs' : Tendsto (fun k => norm ((-o.rho) • (box lb ub (argFrom o S q lb ub (k + 1)) -
      box lb ub (argFrom o S q lb ub k)))) atTop (𝓝 0) := by
    apply L1Solver.norm_tendsto
    have := hs.const_smul (-o.rho)
    rw [smul_zero] at this
    exact this
  obtain ⟨k, h1, h3⟩ := ((hr'.eventually_lt_const hn').and (hs'.eventually_lt_const hn')).exists
  refine ⟨k + 1, ?_⟩
  have e1 := iterate_eq o P S q lb ub (k + 1)
  rw [Function.iterate_succ_apply'] at e1
  have ez := iterate_eq o P S q lb ub k
  generalize ht : (fun t => (iteration (made o P S q lb ub) t).1)^[k + 1]
    { x := 0, z := 0, u := 0 } = t at e1 ez ⊢
  have hx' := congrArg State.x e1
  have hz' := congrArg State.z e1
  have hz := congrArg State.z ez
  simp only [iteration] at hx' hz' hz ⊢
  rw [hz', hx', hz]
  constructor
  · refine h1.trans_le (le_add_of_nonneg_right (mul_nonneg hrel ?_))
    exact (norm_nonneg _).trans (le_max_right _ _)
  · refine h3.trans_le (le_add_of_nonneg_right (mul_nonneg hrel (norm_nonneg _)))

/-- What the stopping criterion says about the bounds. -/
theorem break_violation {s : Solver n} (hc : ∀ i, ¬crossed (s.lb i) (s.ub i))
    (hrel : 0 ≤ s.options.relativeTolerance) (hrel1 : s.options.relativeTolerance ≤ 1) (t : State n)
    (hb : (iteration s t).2) (i : Fin n) :
    (∀ l, s.lb i = some l → (1 - s.options.relativeTolerance) * (l - (iteration s t).1.x i) ≤
      √n * s.options.absoluteTolerance + s.options.relativeTolerance * norm (iteration s t).1.x) ∧
    ∀ u, s.ub i = some u → (1 - s.options.relativeTolerance) * ((iteration s t).1.x i - u) ≤
      √n * s.options.absoluteTolerance + s.options.relativeTolerance * norm (iteration s t).1.x := by
  simp only [iteration] at hb ⊢
  generalize SparseCholesky.solve s.factor (s.options.rho • (t.z - t.u) - s.q) = x at *
  have hbt := clamp_between (hc i) ((s.options.alpha • x + (1 - s.options.alpha) • t.z + t.u) i)
  have e4 : (fun i => clamp (s.lb i) (s.ub i)
      ((s.options.alpha • x + (1 - s.options.alpha) • t.z + t.u) i)) i = clamp (s.lb i) (s.ub i)
      ((s.options.alpha • x + (1 - s.options.alpha) • t.z + t.u) i) := rfl
  rw [← e4] at hbt
  generalize (fun i => clamp (s.lb i) (s.ub i)
    ((s.options.alpha • x + (1 - s.options.alpha) • t.z + t.u) i)) = z at *
  obtain ⟨hr, -⟩ := hb
  have hzn : norm z ≤ norm x + norm (x - z) := by
    have e : z = x + -(x - z) := by abel
    calc norm z = norm (x + -(x - z)) := by rw [← e]
      _ ≤ norm x + norm (-(x - z)) := L1Solver.norm_add_le _ _
      _ = norm x + norm (x - z) := by
        congr 1
        exact L1Solver.norm_neg _
  have hmax : max (norm x) (norm z) ≤ norm x + norm (x - z) :=
    max_le (le_add_of_nonneg_right (norm_nonneg _)) hzn
  have h1 := mul_le_mul_of_nonneg_left hmax hrel
  have h2 : |(x - z) i| ≤ norm (x - z) := abs_le_sqrt_dot (x - z) i
  rw [Pi.sub_apply] at h2
  have h3 := abs_le.mp h2
  have hp := sub_nonneg.mpr hrel1
  constructor
  · intro l hl
    have h4 := hbt.1 l hl
    have h5 : l - x i ≤ norm (x - z) := by linarith [h3.1]
    have := mul_le_mul_of_nonneg_left h5 hp
    linarith
  · intro u hu
    have h4 := hbt.2 u hu
    have h5 : x i - u ≤ norm (x - z) := by linarith [h3.2]
    have := mul_le_mul_of_nonneg_left h5 hp
    linarith

end Theia.QpSolver
