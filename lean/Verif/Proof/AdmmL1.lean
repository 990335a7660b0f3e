import Verif.Proof.DouglasRachford
import Verif.Proof.L1Duality
import Mathlib.LinearAlgebra.Matrix.NonsingularInverse
import Mathlib.LinearAlgebra.Matrix.DotProduct
import Mathlib.LinearAlgebra.Matrix.PosDef
import Mathlib.Algebra.Order.Star.Real

/-!
# The alternating direction method of multipliers for L1 minimisation

The iteration of the two L1 solvers, for rows of which those in `L` are residuals and the others are
constraints.
-/

namespace Theia.Admm

open Matrix Filter Topology

variable {ι κ : Type} [Fintype ι] [Fintype κ] [DecidableEq κ]

/-- Soft thresholding. -/
def soft (k t : ℝ) : ℝ := max (t - k) 0 - max (-t - k) 0

/-- The proximal step of the rows. -/
noncomputable def prox (L : ι → Bool) (ρ : ℝ) (v : ι → ℝ) : ι → ℝ := fun i =>
  if L i then soft (1 / ρ) (v i) else max (v i) 0

/-- The least squares step. -/
noncomputable def lsq (A : Matrix ι κ ℝ) (v : ι → ℝ) : κ → ℝ := (Aᵀ * A)⁻¹ *ᵥ (Aᵀ *ᵥ v)

/-- The residual after the least squares step. -/
noncomputable def proj (A : Matrix ι κ ℝ) (b : ι → ℝ) (v : ι → ℝ) : ι → ℝ :=
  A *ᵥ lsq A (b + v) - b

theorem soft_cases {k : ℝ} (hk : 0 ≤ k) (t : ℝ) :
    (k ≤ t ∧ soft k t = t - k) ∨ (-k ≤ t ∧ t ≤ k ∧ soft k t = 0) ∨ (t ≤ -k ∧ soft k t = t + k) := by
  unfold soft
  rcases le_total k t with h | h
  · left
    rw [max_eq_left (by linarith), max_eq_right (by linarith)]
    exact ⟨h, by ring⟩
  · right
    rcases le_total (-k) t with h' | h'
    · left
      rw [max_eq_right (by linarith), max_eq_right (by linarith)]
      exact ⟨h', h, by ring⟩
    · right
      rw [max_eq_right (by linarith), max_eq_left (by linarith)]
      exact ⟨h', by ring⟩

theorem soft_firm {k : ℝ} (hk : 0 ≤ k) (s t : ℝ) :
    (soft k s - soft k t) * (soft k s - soft k t) ≤ (soft k s - soft k t) * (s - t) := by
  rcases soft_cases hk s with ⟨h1, e1⟩ | ⟨h1, h1', e1⟩ | ⟨h1, e1⟩ <;>
  rcases soft_cases hk t with ⟨h2, e2⟩ | ⟨h2, h2', e2⟩ | ⟨h2, e2⟩ <;>
  rw [e1, e2] <;> nlinarith

theorem max_firm (s t : ℝ) :
    (max s 0 - max t 0) * (max s 0 - max t 0) ≤ (max s 0 - max t 0) * (s - t) := by
  rcases max_cases s 0 with ⟨h1, h1'⟩ | ⟨h1, h1'⟩ <;>
  rcases max_cases t 0 with ⟨h2, h2'⟩ | ⟨h2, h2'⟩ <;>
  rw [h1, h2] <;> nlinarith

omit [Fintype ι] in
theorem prox_zero (L : ι → Bool) {ρ : ℝ} (hρ : 0 < ρ) : prox L ρ 0 = 0 := by
  funext i
  unfold prox
  have : 0 ≤ 1 / ρ := by positivity
  cases L i
  · simp
  · rcases soft_cases this 0 with ⟨h, e⟩ | ⟨h, h', e⟩ | ⟨h, e⟩
    · simp only [if_true, Pi.zero_apply, e]; linarith
    · simp only [if_true, Pi.zero_apply, e]
    · simp only [if_true, Pi.zero_apply, e]; linarith

theorem prox_firm (L : ι → Bool) {ρ : ℝ} (hρ : 0 < ρ) : Firm (prox L ρ) := by
  intro a b
  refine Finset.sum_le_sum fun i _ => ?_
  simp only [Pi.sub_apply, prox]
  cases L i
  · simpa using max_firm (a i) (b i)
  · simpa using soft_firm (k := 1 / ρ) (by positivity) (a i) (b i)

/-- The optimality conditions of one row: `u` is a multiple of a subgradient at `z`. -/
def Optimal (l : Bool) (ρ z u : ℝ) : Prop :=
  if l then |ρ * u| ≤ 1 ∧ ρ * u * z = |z| else 0 ≤ z ∧ ρ * u ≤ 0 ∧ ρ * u * z = 0

theorem soft_optimal {ρ : ℝ} (hρ : 0 < ρ) (t : ℝ) :
    Optimal true ρ (soft (1 / ρ) t) (t - soft (1 / ρ) t) := by
  have hk : 0 ≤ 1 / ρ := by positivity
  have hm : ρ * (1 / ρ) = 1 := by field_simp
  unfold Optimal
  simp only [if_true]
  rcases soft_cases hk t with ⟨h, e⟩ | ⟨h, h', e⟩ | ⟨h, e⟩
  · rw [e, sub_sub_cancel, hm, abs_of_nonneg (by linarith : 0 ≤ t - 1 / ρ)]
    simp
  · rw [e, sub_zero]
    refine ⟨?_, by simp⟩
    rw [abs_le]
    constructor <;> nlinarith
  · have : t - (t + 1 / ρ) = -(1 / ρ) := by ring
    rw [e, this, mul_neg, hm, abs_of_nonpos (by linarith : t + 1 / ρ ≤ 0)]
    simp

theorem max_optimal {ρ : ℝ} (hρ : 0 < ρ) (t : ℝ) : Optimal false ρ (max t 0) (t - max t 0) := by
  unfold Optimal
  simp only [Bool.false_eq_true, if_false]
  rcases max_cases t 0 with ⟨h, h'⟩ | ⟨h, h'⟩
  · rw [h]
    simp [h']
  · rw [h]
    refine ⟨le_refl _, ?_, by simp⟩
    nlinarith

omit [Fintype ι] in
theorem prox_optimal (L : ι → Bool) {ρ : ℝ} (hρ : 0 < ρ) (w : ι → ℝ) (i : ι) :
    Optimal (L i) ρ (prox L ρ w i) ((w - prox L ρ w) i) := by
  rw [Pi.sub_apply]
  unfold prox
  cases L i
  · exact max_optimal hρ (w i)
  · exact soft_optimal hρ (w i)

/-- A pair that meets the optimality conditions is a fixed point of the proximal step. -/
theorem optimal_fixed {l : Bool} {ρ z u : ℝ} (hρ : 0 < ρ) (h : Optimal l ρ z u) :
    (if l then soft (1 / ρ) (z + u) else max (z + u) 0) = z := by
  have hk : 0 ≤ 1 / ρ := by positivity
  have hm : ρ * (1 / ρ) = 1 := by field_simp
  cases l
  · unfold Optimal at h
    simp only [Bool.false_eq_true, if_false] at h ⊢
    obtain ⟨h0, h1, h2⟩ := h
    have hu : u ≤ 0 := by
      by_contra hc
      nlinarith
    rcases mul_eq_zero.mp h2 with h3 | h3
    · have : u = 0 := by
        rcases mul_eq_zero.mp h3 with h4 | h4
        · exact absurd h4 hρ.ne'
        · exact h4
      rw [this, add_zero, max_eq_left h0]
    · rw [h3, zero_add, max_eq_right hu]
  · unfold Optimal at h
    simp only [if_true] at h ⊢
    obtain ⟨h1, h2⟩ := h
    rw [abs_le] at h1
    have hu1 : u ≤ 1 / ρ := by
      rw [le_div_iff₀ hρ]; linarith [h1.2, mul_comm ρ u]
    have hu2 : -(1 / ρ) ≤ u := by
      rw [← neg_div, div_le_iff₀ hρ]; linarith [h1.1, mul_comm ρ u]
    rcases lt_trichotomy z 0 with hz | hz | hz
    · rw [abs_of_neg hz] at h2
      have h3 : ρ * u = -1 := by
        have : (ρ * u + 1) * z = 0 := by linarith
        rcases mul_eq_zero.mp this with h | h
        · linarith
        · exact absurd h hz.ne
      have h4 : u = -(1 / ρ) := by
        field_simp
        linarith
      unfold soft
      rw [h4, max_eq_right (by linarith), max_eq_left (by linarith)]
      ring
    · subst hz
      unfold soft
      rw [max_eq_right (by linarith), max_eq_right (by linarith), sub_zero]
    · rw [abs_of_pos hz] at h2
      have h3 : ρ * u = 1 := by
        have : (ρ * u - 1) * z = 0 := by linarith
        rcases mul_eq_zero.mp this with h | h
        · linarith
        · exact absurd h hz.ne'
      have h4 : u = 1 / ρ := by
        field_simp
        linarith
      unfold soft
      rw [h4, max_eq_left (by linarith), max_eq_right (by linarith)]
      ring

variable {A : Matrix ι κ ℝ} {b : ι → ℝ} {L : ι → Bool}

omit [DecidableEq κ] in
/-- Independent columns make the normal equations regular. -/
theorem gram_posDef (hA : Function.Injective A.mulVec) : (Aᵀ * A).PosDef := by
  have := Matrix.PosDef.conjTranspose_mul_self A hA
  simpa [conjTranspose_eq_transpose_of_trivial] using this

theorem lsq_normal (hA : Function.Injective A.mulVec) (v : ι → ℝ) :
    Aᵀ *ᵥ (A *ᵥ lsq A v) = Aᵀ *ᵥ v := by
  have hu : IsUnit (Aᵀ * A).det := (Matrix.isUnit_iff_isUnit_det _).mp (gram_posDef hA).isUnit
  rw [lsq, mulVec_mulVec, mulVec_mulVec, mul_nonsing_inv _ hu, one_mulVec]

theorem lsq_unique (hA : Function.Injective A.mulVec) {v : ι → ℝ} {x : κ → ℝ}
    (h : Aᵀ *ᵥ (A *ᵥ x) = Aᵀ *ᵥ v) : lsq A v = x := by
  have hu : IsUnit (Aᵀ * A).det := (Matrix.isUnit_iff_isUnit_det _).mp (gram_posDef hA).isUnit
  rw [lsq, ← h, mulVec_mulVec, mulVec_mulVec, Matrix.mul_assoc, nonsing_inv_mul _ hu, one_mulVec]

theorem proj_firm (hA : Function.Injective A.mulVec) (b : ι → ℝ) : Firm (proj A b) := by
  intro v w
  have e : proj A b v - proj A b w = A *ᵥ (lsq A (b + v) - lsq A (b + w)) := by
    unfold proj
    rw [mulVec_sub]
    abel
  have n : Aᵀ *ᵥ (A *ᵥ (lsq A (b + v) - lsq A (b + w))) = Aᵀ *ᵥ (v - w) := by
    rw [mulVec_sub, mulVec_sub, lsq_normal hA, lsq_normal hA, ← mulVec_sub]
    congr 1
    abel
  rw [e]
  generalize lsq A (b + v) - lsq A (b + w) = y at *
  have t : ∀ c : ι → ℝ, (A *ᵥ y) ⬝ᵥ c = y ⬝ᵥ (Aᵀ *ᵥ c) := by
    intro c
    rw [dotProduct_mulVec, vecMul_transpose]
  rw [t, t, n]

/-- The iteration has a fixed point when the constraints can be met. -/
theorem exists_fixed (hA : Function.Injective A.mulVec) {ρ : ℝ} (hρ : 0 < ρ)
    (hf : ∃ x, Feasible A b L x) :
    ∃ w, proj A b (2 • prox L ρ w - w) = prox L ρ w := by
  obtain ⟨x, hx, hmin⟩ := exists_l1_minimizer hf
  obtain ⟨y, hy, hc⟩ := exists_l1_dual hx hmin
  have hm : ∀ t : ℝ, ρ * (ρ⁻¹ * t) = t := fun t => by
    rw [← mul_assoc, mul_inv_cancel₀ hρ.ne', one_mul]
  have ho : prox L ρ ((A *ᵥ x - b) + ρ⁻¹ • y) = A *ᵥ x - b := by
    funext i
    unfold prox
    rw [Pi.add_apply]
    apply optimal_fixed hρ
    have h := hc i
    unfold Optimal
    rw [Pi.smul_apply, smul_eq_mul, hm]
    cases hi : L i
    · rw [hi] at h
      simp only [Bool.false_eq_true, if_false] at h ⊢
      exact ⟨hx i hi, h⟩
    · rw [hi] at h
      simpa using h
  refine ⟨(A *ᵥ x - b) + ρ⁻¹ • y, ?_⟩
  rw [ho]
  have e : b + (2 • (A *ᵥ x - b) - ((A *ᵥ x - b) + ρ⁻¹ • y)) = A *ᵥ x - ρ⁻¹ • y := by
    rw [two_smul]
    abel
  unfold proj
  rw [e, lsq_unique hA (x := x)]
  rw [mulVec_sub, mulVec_smul, hy, smul_zero, sub_zero]

/-- A fixed point gives a minimiser. -/
theorem fixed_minimizes (hA : Function.Injective A.mulVec) {ρ : ℝ} (hρ : 0 < ρ) {w : ι → ℝ}
    (hw : proj A b (2 • prox L ρ w - w) = prox L ρ w) :
    Feasible A b L (lsq A (b + (2 • prox L ρ w - w))) ∧
      ∀ y, Feasible A b L y →
        l1Cost A b L (lsq A (b + (2 • prox L ρ w - w))) ≤ l1Cost A b L y := by
  have hn := lsq_normal hA (b + (2 • prox L ρ w - w))
  have hz : A *ᵥ lsq A (b + (2 • prox L ρ w - w)) - b = prox L ρ w := hw
  have ho := prox_optimal L hρ w
  generalize lsq A (b + (2 • prox L ρ w - w)) = x at *
  have hAx : A *ᵥ x = b + prox L ρ w := by rw [← hz]; abel
  have hu : Aᵀ *ᵥ (w - prox L ρ w) = 0 := by
    rw [hAx, ← sub_eq_zero, ← mulVec_sub] at hn
    rw [← hn]
    congr 1
    rw [two_smul]
    abel
  constructor
  · intro i hi
    have h := ho i
    rw [hz]
    unfold Optimal at h
    rw [hi] at h
    simp only [Bool.false_eq_true, if_false] at h
    exact h.1
  · intro y hy
    have hd : ∑ i, ρ * (w - prox L ρ w) i * ((A *ᵥ y - b) i - (A *ᵥ x - b) i) = 0 := by
      have e : (w - prox L ρ w) ⬝ᵥ (A *ᵥ (y - x)) = 0 := by
        rw [dotProduct_mulVec, ← mulVec_transpose, hu, zero_dotProduct]
      have e2 : ∀ i, (A *ᵥ y - b) i - (A *ᵥ x - b) i = (A *ᵥ (y - x)) i := by
        intro i
        rw [mulVec_sub]
        simp
      simp only [e2, mul_assoc]
      rw [← Finset.mul_sum]
      rw [show ∑ i, (w - prox L ρ w) i * (A *ᵥ (y - x)) i = 0 from e, mul_zero]
    rw [← sub_nonneg]
    unfold l1Cost
    rw [← Finset.sum_sub_distrib, ← hd]
    refine Finset.sum_le_sum fun i _ => ?_
    have h := ho i
    have hyi := hy i
    rw [hz]
    unfold Optimal at h
    generalize (w - prox L ρ w) i = u at *
    generalize prox L ρ w i = z at *
    generalize (A *ᵥ y - b) i = p at *
    cases hi : L i
    · rw [hi] at h
      simp only [Bool.false_eq_true, if_false] at h ⊢
      have h4 := mul_nonpos_of_nonpos_of_nonneg h.2.1 (hyi hi)
      rw [mul_sub, h.2.2]
      linarith
    · rw [hi] at h
      simp only [if_true] at h ⊢
      rw [mul_sub, h.2]
      have : ρ * u * p ≤ |p| := by
        refine (le_abs_self _).trans ?_
        rw [abs_mul]
        exact mul_le_of_le_one_left (abs_nonneg p) h.1
      linarith

theorem continuous_lsq (A : Matrix ι κ ℝ) : Continuous (lsq A) := by
  unfold lsq
  exact continuous_const.matrix_mulVec (continuous_const.matrix_mulVec continuous_id)

/-- The iterates converge to a minimiser, and both residuals vanish. -/
theorem admm_tendsto (hA : Function.Injective A.mulVec) {ρ α : ℝ} (hρ : 0 < ρ) (h0 : 0 < α)
    (h2 : α < 2) (hf : ∃ x, Feasible A b L x) {w : ℕ → ι → ℝ}
    (hw : ∀ k, w (k + 1) = dr (proj A b) (prox L ρ) α (w k)) :
    ∃ x, (Feasible A b L x ∧ ∀ y, Feasible A b L y → l1Cost A b L x ≤ l1Cost A b L y) ∧
      Tendsto (fun k => lsq A (b + (2 • prox L ρ (w k) - w k))) atTop (𝓝 x) ∧
      Tendsto (fun k => A *ᵥ lsq A (b + (2 • prox L ρ (w k) - w k)) - prox L ρ (w (k + 1)) - b)
        atTop (𝓝 0) ∧
      Tendsto (fun k => prox L ρ (w (k + 1)) - prox L ρ (w k)) atTop (𝓝 0) := by
  obtain ⟨v, hv, hlim⟩ := dr_tendsto (proj_firm hA b) (prox_firm L hρ) h0 h2
    (exists_fixed hA hρ hf) hw
  have hz : Tendsto (fun k => prox L ρ (w k)) atTop (𝓝 (prox L ρ v)) :=
    ((prox_firm L hρ).continuous.tendsto v).comp hlim
  have hz' := hz.comp (tendsto_add_atTop_nat 1)
  have hx : Tendsto (fun k => lsq A (b + (2 • prox L ρ (w k) - w k))) atTop
      (𝓝 (lsq A (b + (2 • prox L ρ v - v)))) :=
    ((continuous_lsq A).tendsto _).comp (tendsto_const_nhds.add ((hz.const_smul 2).sub hlim))
  refine ⟨_, fixed_minimizes hA hρ hv, hx, ?_, ?_⟩
  · have hAx : Tendsto (fun k => A *ᵥ lsq A (b + (2 • prox L ρ (w k) - w k))) atTop
        (𝓝 (A *ᵥ lsq A (b + (2 • prox L ρ v - v)))) :=
      ((continuous_const.matrix_mulVec continuous_id).tendsto _).comp hx
    have h := (hAx.sub hz').sub_const b
    have e : A *ᵥ lsq A (b + (2 • prox L ρ v - v)) - prox L ρ v - b = 0 := by
      have : A *ᵥ lsq A (b + (2 • prox L ρ v - v)) - b = prox L ρ v := hv
      rw [sub_right_comm, this, sub_self]
    rw [e] at h
    exact h
  · have h := hz'.sub hz
    rw [sub_self] at h
    exact h

end Theia.Admm
