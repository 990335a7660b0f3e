import Mathlib.Algebra.Module.LinearMap.Basic
import Mathlib.LinearAlgebra.Pi
import Mathlib.Tactic.LinearCombination
import Mathlib.Algebra.BigOperators.Fin
import Mathlib.Data.Real.Basic
import Mathlib.Algebra.Module.BigOperators
import Mathlib.Tactic.Linarith
import Mathlib.Tactic.Ring
import Mathlib.Tactic.FieldSimp

/-!
# Farkas' lemma

A linear form that is nonnegative wherever finitely many others are is a nonnegative combination of
them.  The proof is by induction on the number of forms.
-/

namespace Theia.Admm

theorem farkas_fin {V : Type} [AddCommGroup V] [Module ℝ V] : ∀ (m : ℕ) (a : Fin m → V →ₗ[ℝ] ℝ)
    (b : V →ₗ[ℝ] ℝ), (∀ x, (∀ i, 0 ≤ a i x) → 0 ≤ b x) →
    ∃ l : Fin m → ℝ, (∀ i, 0 ≤ l i) ∧ ∀ x, b x = ∑ i, l i * a i x
  | 0, a, b, h => by
    refine ⟨fun i => i.elim0, fun i => i.elim0, fun x => ?_⟩
    have h1 := h x fun i => i.elim0
    have h2 := h (-x) fun i => i.elim0
    rw [map_neg] at h2
    simp only [Finset.univ_eq_empty, Finset.sum_empty]
    linarith
  | m + 1, a, b, h => by
    by_cases hc : ∀ x, (∀ i : Fin m, 0 ≤ a i.castSucc x) → 0 ≤ b x
    · obtain ⟨l, hl, e⟩ := farkas_fin m (fun i => a i.castSucc) b hc
      refine ⟨Fin.snoc l 0, fun i => ?_, fun x => ?_⟩
      · refine Fin.lastCases ?_ (fun i => ?_) i
        · simp
        · simpa using hl i
      · rw [Fin.sum_univ_castSucc, e x]
        simp
    · push Not at hc
      obtain ⟨y, hy, hb⟩ := hc
      have hlast : a (Fin.last m) y < 0 := by
        by_contra hn
        push Not at hn
        exact absurd (h y fun i => Fin.lastCases hn hy i) (not_le.mpr hb)
      -- normalise
      obtain ⟨v, hv, hvb, hvl⟩ : ∃ v, (∀ i : Fin m, 0 ≤ a i.castSucc v) ∧ b v < 0 ∧
          a (Fin.last m) v = -1 := by
        have hp : 0 < (-a (Fin.last m) y)⁻¹ := inv_pos.mpr (by linarith)
        refine ⟨(-a (Fin.last m) y)⁻¹ • y, fun i => ?_, ?_, ?_⟩
        · rw [map_smul, smul_eq_mul]
          exact mul_nonneg hp.le (hy i)
        · rw [map_smul, smul_eq_mul]
          exact mul_neg_of_pos_of_neg hp hb
        · rw [map_smul, smul_eq_mul]
          have : a (Fin.last m) y ≠ 0 := hlast.ne
          field_simp
      let t : V →ₗ[ℝ] V := LinearMap.id + (a (Fin.last m)).smulRight v
      have ht : ∀ x, t x = x + a (Fin.last m) x • v := fun x => rfl
      have h0 : ∀ x, a (Fin.last m) (t x) = 0 := by
        intro x
        rw [ht, map_add, map_smul, hvl, smul_eq_mul]
        ring
      obtain ⟨l, hl, e⟩ := farkas_fin m (fun i => (a i.castSucc).comp t) (b.comp t) (by
        intro x hx
        apply h (t x)
        intro i
        refine Fin.lastCases ?_ (fun i => ?_) i
        · rw [h0]
        · exact hx i)
      have hs : 0 ≤ ∑ i, l i * a i.castSucc v :=
        Finset.sum_nonneg fun i _ => mul_nonneg (hl i) (hv i)
      refine ⟨Fin.snoc l (∑ i, l i * a i.castSucc v - b v), fun i => ?_, fun x => ?_⟩
      · refine Fin.lastCases ?_ (fun i => ?_) i
        · rw [Fin.snoc_last]
          linarith
        · rw [Fin.snoc_castSucc]
          exact hl i
      · have e1 := e x
        simp only [LinearMap.comp_apply, ht, map_add, map_smul, smul_eq_mul] at e1
        rw [Fin.sum_univ_castSucc]
        simp only [Fin.snoc_last, Fin.snoc_castSucc]
        have e2 : ∑ i, l i * (a i.castSucc x + a (Fin.last m) x * a i.castSucc v) =
            ∑ i, l i * a i.castSucc x + a (Fin.last m) x * ∑ i, l i * a i.castSucc v := by
          rw [Finset.mul_sum, ← Finset.sum_add_distrib]
          exact Finset.sum_congr rfl fun i _ => by ring
        rw [e2] at e1
        linear_combination e1

/-- Farkas' lemma for a finite family of linear forms. -/
theorem farkas {V ι : Type} [Fintype ι] [AddCommGroup V] [Module ℝ V] (a : ι → V →ₗ[ℝ] ℝ)
    (b : V →ₗ[ℝ] ℝ) (h : ∀ x, (∀ i, 0 ≤ a i x) → 0 ≤ b x) :
    ∃ l : ι → ℝ, (∀ i, 0 ≤ l i) ∧ ∀ x, b x = ∑ i, l i * a i x := by
  obtain ⟨l, hl, e⟩ := farkas_fin (Fintype.card ι) (fun i => a ((Fintype.equivFin ι).symm i)) b
    (fun x hx => h x fun i => by simpa using hx (Fintype.equivFin ι i))
  refine ⟨fun i => l (Fintype.equivFin ι i), fun i => hl _, fun x => ?_⟩
  rw [e x]
  exact Fintype.sum_equiv (Fintype.equivFin ι).symm _ _ fun i => by simp

end Theia.Admm
