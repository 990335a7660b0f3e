import Mathlib.Topology.Order.Compact
import Mathlib.Analysis.Normed.Group.Basic
import Mathlib.Analysis.Normed.Module.FiniteDimension
import Mathlib.Algebra.Order.BigOperators.Ring.Finset
import Verif.Proof.LinearSolvers

/-!
# Vectors that a matrix makes as short as possible
-/

namespace Theia
namespace LinearSolvers

open Spec

/-- The squared length of the image of a vector. -/
def imageSq {n : Nat} (A : List (Fin n → ℝ)) (v : Fin n → ℝ) : ℝ := (A.map fun r => (∑ i, r i * v i) ^ 2).sum

/-- The matrix times its transpose, applied to a vector. -/
def gramMul {n : Nat} (A : List (Fin n → ℝ)) (v : Fin n → ℝ) : Fin n → ℝ := fun i => (A.map fun r => r i * ∑ j, r j * v j).sum

theorem imageSq_nonneg {n : Nat} (A : List (Fin n → ℝ)) (v : Fin n → ℝ) : 0 ≤ imageSq A v := by
  unfold imageSq
  refine List.sum_nonneg fun x hx => ?_
  obtain ⟨r, -, rfl⟩ := List.mem_map.1 hx
  exact sq_nonneg _

theorem imageSq_eq_zero {n : Nat} (A : List (Fin n → ℝ)) (v : Fin n → ℝ) : imageSq A v = 0 ↔ ∀ r ∈ A, ∑ i, r i * v i = 0 := by
  unfold imageSq
  induction A with
  | nil => simp
  | cons a A ih =>
    rw [List.map_cons, List.sum_cons, List.forall_mem_cons, ← ih]
    have h := imageSq_nonneg A v
    unfold imageSq at h
    constructor
    · intro h0
      have := sq_nonneg (∑ i, a i * v i)
      exact ⟨by rw [← sq_eq_zero_iff]; linarith, by linarith⟩
    · rintro ⟨h1, h2⟩
      rw [h1, h2]
      ring

theorem imageSq_smul {n : Nat} (A : List (Fin n → ℝ)) (c : ℝ) (v : Fin n → ℝ) : imageSq A (c • v) = c ^ 2 * imageSq A v := by
  unfold imageSq
  rw [← List.sum_map_mul_left]
  congr 1
  refine List.map_congr_left fun r _ => ?_
  have : ∑ i, r i * (c • v) i = c * ∑ i, r i * v i := by
    rw [Finset.mul_sum]
    refine Finset.sum_congr rfl fun i _ => ?_
    simp only [Pi.smul_apply, smul_eq_mul]
    ring
  rw [this]
  ring

/-- The bilinear form. -/
theorem dot_gramMul {n : Nat} (A : List (Fin n → ℝ)) (v w : Fin n → ℝ) :
    ∑ i, w i * gramMul A v i = (A.map fun r => (∑ i, r i * w i) * ∑ i, r i * v i).sum := by
  unfold gramMul
  induction A with
  | nil => simp
  | cons a A ih =>
    simp only [List.map_cons, List.sum_cons, mul_add, Finset.sum_add_distrib, ih]
    congr 1
    rw [Finset.sum_mul]
    refine Finset.sum_congr rfl fun i _ => by ring

theorem imageSq_add {n : Nat} (A : List (Fin n → ℝ)) (t : ℝ) (v w : Fin n → ℝ) :
    imageSq A (v + t • w) = imageSq A v + 2 * t * (∑ i, w i * gramMul A v i) + t ^ 2 * imageSq A w := by
  rw [dot_gramMul]
  unfold imageSq
  induction A with
  | nil => simp
  | cons a A ih =>
    simp only [List.map_cons, List.sum_cons]
    rw [ih]
    have : ∑ i, a i * (v + t • w) i = (∑ i, a i * v i) + t * ∑ i, a i * w i := by
      rw [Finset.mul_sum, ← Finset.sum_add_distrib]
      refine Finset.sum_congr rfl fun i _ => ?_
      simp only [Pi.add_apply, Pi.smul_apply, smul_eq_mul]
      ring
    rw [this]
    ring

/-- There is a unit vector with the shortest image. -/
theorem exists_min {n : Nat} (hn : 0 < n) (A : List (Fin n → ℝ)) : ∃ g : Fin n → ℝ, ∑ i, g i ^ 2 = 1 ∧
    ∀ w : Fin n → ℝ, ∑ i, w i ^ 2 = 1 → imageSq A g ≤ imageSq A w := by
  let S : Set (Fin n → ℝ) := {w | ∑ i, w i ^ 2 = 1}
  have hc : IsCompact S := by
    refine Metric.isCompact_of_isClosed_isBounded ?_ ?_
    · exact isClosed_eq (by fun_prop) continuous_const
    · refine (Metric.isBounded_closedBall (x := (0 : Fin n → ℝ)) (r := 1)).subset fun w hw => ?_
      rw [mem_closedBall_zero_iff, pi_norm_le_iff_of_nonneg zero_le_one]
      intro i
      have h1 : w i ^ 2 ≤ ∑ i, w i ^ 2 := Finset.single_le_sum (f := fun i => w i ^ 2) (fun j _ => sq_nonneg _) (Finset.mem_univ i)
      have hw : ∑ i, w i ^ 2 = 1 := hw
      rw [hw] at h1
      rw [Real.norm_eq_abs]
      exact (sq_le_one_iff_abs_le_one _).1 h1
  have hne : S.Nonempty := by
    refine ⟨Pi.single ⟨0, hn⟩ 1, ?_⟩
    show ∑ i, (Pi.single (⟨0, hn⟩ : Fin n) (1 : ℝ) : Fin n → ℝ) i ^ 2 = 1
    rw [Finset.sum_eq_single ⟨0, hn⟩]
    · simp
    · intro b _ hb
      simp [Pi.single_apply, hb]
    · simp
  have hcont : Continuous (imageSq A) := by
    unfold imageSq
    induction A with
    | nil => simp only [List.map_nil, List.sum_nil]; exact continuous_const
    | cons a A ih =>
      simp only [List.map_cons, List.sum_cons]
      exact Continuous.add (by fun_prop) ih
  obtain ⟨g, hg, hmin⟩ := hc.exists_isMinOn hne hcont.continuousOn
  exact ⟨g, hg, fun w hw => hmin hw⟩

/-- It is an eigenvector of the product with the transpose. -/
theorem min_eigenvector {n : Nat} {A : List (Fin n → ℝ)} {g : Fin n → ℝ} (h1 : ∑ i, g i ^ 2 = 1)
    (h2 : ∀ w : Fin n → ℝ, ∑ i, w i ^ 2 = 1 → imageSq A g ≤ imageSq A w) (i : Fin n) : gramMul A g i = imageSq A g * g i := by
  -- the form is bounded below everywhere
  have hb : ∀ v : Fin n → ℝ, imageSq A g * ∑ i, v i ^ 2 ≤ imageSq A v := by
    intro v
    by_cases hv : ∑ i, v i ^ 2 = 0
    · rw [hv, mul_zero]
      exact imageSq_nonneg _ _
    have hp : 0 < ∑ i, v i ^ 2 := lt_of_le_of_ne (Finset.sum_nonneg fun i _ => sq_nonneg _) (Ne.symm hv)
    have hs := Real.mul_self_sqrt hp.le
    have hs0 : Real.sqrt (∑ i, v i ^ 2) ≠ 0 := (Real.sqrt_pos.2 hp).ne'
    have := h2 ((Real.sqrt (∑ i, v i ^ 2))⁻¹ • v) (by
      simp only [Pi.smul_apply, smul_eq_mul, mul_pow]
      rw [← Finset.mul_sum, inv_pow, sq, hs, inv_mul_cancel₀ hp.ne'])
    rw [imageSq_smul, inv_pow, sq, hs] at this
    rw [← div_eq_inv_mul, le_div_iff₀ hp] at this
    exact this
  have hz : ∀ v : Fin n → ℝ, ∑ i, v i * gramMul A g i = imageSq A g * ∑ i, v i * g i := by
    intro v
    have key : ∀ t : ℝ, 0 ≤ (imageSq A v - imageSq A g * ∑ i, v i ^ 2) * t ^ 2 +
        2 * (∑ i, v i * gramMul A g i - imageSq A g * ∑ i, v i * g i) * t := by
      intro t
      have := hb (g + t • v)
      rw [imageSq_add] at this
      have e : ∑ i, (g + t • v) i ^ 2 = 1 + 2 * t * (∑ i, v i * g i) + t ^ 2 * ∑ i, v i ^ 2 := by
        rw [← h1, Finset.mul_sum, Finset.mul_sum, ← Finset.sum_add_distrib, ← Finset.sum_add_distrib]
        refine Finset.sum_congr rfl fun i _ => ?_
        simp only [Pi.add_apply, Pi.smul_apply, smul_eq_mul]
        ring
      rw [e] at this
      linarith
    have ha : 0 ≤ imageSq A v - imageSq A g * ∑ i, v i ^ 2 := sub_nonneg.2 (hb v)
    generalize imageSq A v - imageSq A g * ∑ i, v i ^ 2 = a at key ha
    have hb : (∑ i, v i * gramMul A g i - imageSq A g * ∑ i, v i * g i) = 0 := by
      generalize (∑ i, v i * gramMul A g i - imageSq A g * ∑ i, v i * g i) = b at key ⊢
      have h := key (-b / (a + 1))
      have hp : 0 < a + 1 := by linarith
      have e : a * (-b / (a + 1)) ^ 2 + 2 * b * (-b / (a + 1)) = -(b ^ 2 * (a + 2) / (a + 1) ^ 2) := by
        field_simp
        ring
      rw [e] at h
      have : 0 ≤ b ^ 2 * (a + 2) / (a + 1) ^ 2 := by positivity
      have h0 : b ^ 2 * (a + 2) / (a + 1) ^ 2 = 0 := by linarith
      rw [div_eq_zero_iff] at h0
      rcases h0 with h0 | h0
      · rcases mul_eq_zero.1 h0 with h0 | h0
        · exact pow_eq_zero_iff (two_ne_zero) |>.1 h0
        · linarith
      · exact absurd h0 (by positivity)
    linarith
  have := hz (Pi.single i 1)
  simpa [Pi.single_apply] using this

theorem gram_row (A : List (Fin 9 → ℝ)) (v : Fin 9 → ℝ) (i : Fin 9) :
    ∑ j, (A.map fun r => r i * r j).sum * v j = gramMul A v i := by
  unfold gramMul
  induction A with
  | nil => simp
  | cons a A ih =>
    simp only [List.map_cons, List.sum_cons, add_mul, Finset.sum_add_distrib]
    rw [ih, Finset.mul_sum]
    congr 1
    exact Finset.sum_congr rfl fun j _ => by ring

/-- The last singular vector of the product with the transpose is one of the matrix. -/
theorem gram_min {A : List (Fin 9 → ℝ)} {f : Fin 9 → ℝ} (h1 : ∑ i, f i ^ 2 = 1)
    (h2 : ∀ w : Fin 9 → ℝ, ∑ i, w i ^ 2 = 1 → imageSq (gram A) f ≤ imageSq (gram A) w) (w : Fin 9 → ℝ) (hw : ∑ i, w i ^ 2 = 1) :
    imageSq A f ≤ imageSq A w := by
  obtain ⟨g, hg, hmin⟩ := exists_min (by norm_num) A
  have e : ∀ v, imageSq (gram A) v = ∑ i, gramMul A v i ^ 2 := by
    intro v
    unfold imageSq gram
    rw [List.map_ofFn, List.sum_ofFn]
    refine Finset.sum_congr rfl fun i _ => ?_
    simp only [Function.comp, gram_row]
  have hg2 : ∑ i, gramMul A g i ^ 2 = imageSq A g ^ 2 := by
    have : ∀ i, gramMul A g i ^ 2 = imageSq A g ^ 2 * g i ^ 2 := fun i => by
      rw [min_eigenvector hg hmin i]; ring
    simp only [this]
    rw [← Finset.mul_sum, hg, mul_one]
  have hfg := h2 g hg
  rw [e, e, hg2] at hfg
  have hq : imageSq A f = ∑ i, f i * gramMul A f i := by
    rw [dot_gramMul]
    unfold imageSq
    congr 1
    exact List.map_congr_left fun r _ => by ring
  have hcs := Finset.sum_mul_sq_le_sq_mul_sq Finset.univ f (gramMul A f)
  rw [h1, one_mul, ← hq] at hcs
  have : imageSq A f ^ 2 ≤ imageSq A g ^ 2 := hcs.trans hfg
  exact (abs_le_of_sq_le_sq' this (imageSq_nonneg _ _)).2.trans (hmin w hw)

/-- Decompositions exist. -/
theorem exists_last {n : Nat} (hn : 0 < n) : ∃ last : List (Fin n → ℝ) → Fin n → ℝ, LastSingularVector last := by
  choose g h1 h2 using fun A => exists_min hn A
  exact ⟨g, fun A => ⟨h1 A, h2 A⟩⟩

/-- Decompositions exist with a given vector for one matrix. -/
theorem exists_last_with {n : Nat} (hn : 0 < n) (A : List (Fin n → ℝ)) (g : Fin n → ℝ) (h1 : ∑ i, g i ^ 2 = 1)
    (h2 : ∀ w : Fin n → ℝ, ∑ i, w i ^ 2 = 1 → imageSq A g ≤ imageSq A w) :
    ∃ last : List (Fin n → ℝ) → Fin n → ℝ, LastSingularVector last ∧ last A = g := by
  classical
  obtain ⟨l, hl⟩ := exists_last hn
  refine ⟨fun A' => if A' = A then g else l A', fun A' => ?_, if_pos rfl⟩
  by_cases h : A' = A
  · simp only [if_pos h]
    rw [h]
    exact ⟨h1, h2⟩
  · simp only [if_neg h]
    exact hl A'

end LinearSolvers
end Theia
