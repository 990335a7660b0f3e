import Mathlib.LinearAlgebra.Dimension.Constructions
import Mathlib.LinearAlgebra.FiniteDimensional.Basic
import Verif.Model.LinearSolvers
import Verif.Proof.Svd
import Verif.Props.PoseUtil
import Verif.Spec.LinearSolvers
import Verif.Spec.Polynomial

/-!
# Lemmas on the linear solvers
-/

namespace Theia
namespace LinearSolvers

open Triangulation PoseUtil Spec

/-- The numbers of a matrix, column by column. -/
def columns (F : M3 ℝ) : Fin 9 → ℝ := ![F.r1.x, F.r2.x, F.r3.x, F.r1.y, F.r2.y, F.r3.y, F.r1.z, F.r2.z, F.r3.z]

theorem ofColumns_columns (F : M3 ℝ) : ofColumns (columns F) = F := rfl

theorem columns_ofColumns (v : Fin 9 → ℝ) : columns (ofColumns v) = v := by
  funext i
  fin_cases i <;> rfl

theorem sevenRow_dot (x y : V2) (v : Fin 9 → ℝ) : ∑ i, sevenRow x y i * v i = epipolarResidual (ofColumns v) x y := by
  simp [Fin.sum_univ_succ, sevenRow, epipolarResidual, ofColumns, M3.mulVec, V3.dot, Fin.succ]
  ring

theorem eightRow_dot (x y : V2) (v : Fin 9 → ℝ) : ∑ i, eightRow x y i * v i = epipolarResidual (ofColumns v).transpose x y := by
  simp [Fin.sum_univ_succ, eightRow, epipolarResidual, ofColumns, M3.mulVec, M3.transpose, V3.dot, Fin.succ]
  ring

theorem eval_cubic (A B : M3 ℝ) (x : ℝ) : (poly (cubic A B)).eval x = (combine 1 A x B).det := by
  simp [cubic, poly, combine, M3.det, V3.dot, V3.cross, V3.smul, V3.add]
  ring

theorem eval_cubic_reverse (A B : M3 ℝ) (x : ℝ) : (poly (cubic A B).reverse).eval x = (combine x A 1 B).det := by
  simp [cubic, poly, combine, M3.det, V3.dot, V3.cross, V3.smul, V3.add]
  ring

theorem pencil_eq (x : ℝ) (A B : M3 ℝ) : pencil x A B = combine x A 1 B := by
  apply M3.ext <;> apply V3.ext <;> simp only [pencil, combine, V3.add, V3.smul] <;> ring

/-- A matrix in terms of the points before the normalization. -/
noncomputable def lift (N1 N2 G : M3 ℝ) : M3 ℝ := (N2.transpose.mul G).mul N1

theorem lift_combine (N1 N2 : M3 ℝ) (a : ℝ) (A : M3 ℝ) (b : ℝ) (B : M3 ℝ) :
    lift N1 N2 (combine a A b B) = combine a (lift N1 N2 A) b (lift N1 N2 B) := by
  apply M3.ext <;> apply V3.ext <;> simp only [lift, combine, M3.mul, M3.transpose, M3.mulVec, V3.dot, V3.add, V3.smul] <;> ring

theorem det_lift (N1 N2 G : M3 ℝ) : (lift N1 N2 G).det = N1.det * N2.det * G.det := by
  unfold lift
  rw [M3.det_mul, M3.det_mul, M3.det_transpose]
  ring

theorem mul_inverse {m : M3 ℝ} (h : m.det ≠ 0) : m.mul (inverse m) = M3.one := by
  have e : m.det = m.r1.x * (m.r2.y * m.r3.z - m.r2.z * m.r3.y) + m.r1.y * (m.r2.z * m.r3.x - m.r2.x * m.r3.z) +
      m.r1.z * (m.r2.x * m.r3.y - m.r2.y * m.r3.x) := rfl
  apply M3.ext <;> apply V3.ext <;> simp only [inverse, M3.mul, M3.transpose, M3.mulVec, V3.dot, M3.one] <;>
    generalize m.det = d at * <;> field_simp <;> first | ring1 | linear_combination -e

theorem inverse_mul {m : M3 ℝ} (h : m.det ≠ 0) : (inverse m).mul m = M3.one := Svd.mul_eq_one_comm (mul_inverse h)

theorem lift_surjective {N1 N2 : M3 ℝ} (h1 : N1.det ≠ 0) (h2 : N2.det ≠ 0) (F : M3 ℝ) : ∃ G, lift N1 N2 G = F := by
  refine ⟨((inverse N2).transpose.mul F).mul (inverse N1), ?_⟩
  unfold lift
  have e : N2.transpose.mul (inverse N2).transpose = M3.one := by
    rw [← M3.transpose_mul, inverse_mul h2]
    rfl
  rw [M3.mul_assoc, M3.mul_assoc, inverse_mul h1, M3.mul_one, ← M3.mul_assoc, e, M3.one_mul]

theorem lift_injective {N1 N2 : M3 ℝ} (h1 : N1.det ≠ 0) (h2 : N2.det ≠ 0) {F G : M3 ℝ} (h : lift N1 N2 F = lift N1 N2 G) : F = G := by
  have e : (inverse N2).transpose.mul N2.transpose = M3.one := by
    rw [← M3.transpose_mul, mul_inverse h2]
    rfl
  have key : ∀ X, ((inverse N2).transpose.mul (lift N1 N2 X)).mul (inverse N1) = X := by
    intro X
    unfold lift
    rw [M3.mul_assoc, M3.mul_assoc, mul_inverse h1, M3.mul_one, ← M3.mul_assoc, e, M3.one_mul]
  rw [← key F, h, key G]

/-- What is known about the normalised points. -/
theorem normalized_points {ps : List V2} {r} (h : normalizePoints ps = .ok r) :
    ∃ φ : V2 → V2, r.1 = ps.map φ ∧ 0 < r.2.det ∧ ∀ p, r.2.mulVec (homog p) = homog (φ p) := by
  obtain ⟨qs, N⟩ := r
  obtain ⟨-, -, hd, -⟩ := C59_normalize h
  obtain ⟨hne, hpos, k, hk, hN, hqs⟩ := normalize_eq h
  refine ⟨_, hqs, hd, fun p => ?_⟩
  rw [hN]
  apply V3.ext <;> simp only [homog, M3.mulVec, V3.dot] <;> ring

theorem normalize_total (ps : List V2) : (∃ r, normalizePoints ps = .ok r) ∨ normalizePoints ps = .ub := by
  unfold normalizePoints
  split
  · exact .inr rfl
  split
  · exact .inr rfl
  · exact .inl ⟨_, rfl⟩

theorem normalize_ub (ps : List V2) : normalizePoints ps = .ub ↔ ∀ p ∈ ps, ∀ q ∈ ps, p = q := by
  have := C59_normalize_defined ps
  rcases normalize_total ps with ⟨r, h⟩ | h
  · obtain ⟨p, hp, q, hq, hne⟩ := this.1 ⟨r, h⟩
    rw [h]
    exact ⟨fun h => (nomatch h), fun h => absurd (h p hp q hq) hne⟩
  · refine ⟨fun _ p hp q hq => ?_, fun _ => h⟩
    by_contra hne
    obtain ⟨r, hr⟩ := this.2 ⟨p, hp, q, hq, hne⟩
    rw [h] at hr
    cases hr

/-- Points with their centroid at the origin and the right mean distance are not changed. -/
theorem normalize_self {ps : List V2} (hne : ps ≠ []) (h1 : (ps.map Prod.fst).sum = 0) (h2 : (ps.map Prod.snd).sum = 0)
    (h3 : (ps.map fun p => p.1 ^ 2 + p.2 ^ 2).sum = 2 * (ps.length : ℝ)) : normalizePoints ps = .ok (ps, M3.one) := by
  have hlen : (0 : ℝ) < ps.length := by exact_mod_cast List.length_pos_iff.2 hne
  have hc : centroid ps = (0, 0) := by
    unfold centroid
    rw [h1, h2, zero_div]
  have hr : rmsDistance ps = Real.sqrt 2 := by
    unfold rmsDistance
    rw [hc]
    simp only [sub_zero, h3]
    rw [mul_div_cancel_right₀ _ hlen.ne']
  have hs : Real.sqrt 2 ≠ 0 := by positivity
  unfold normalizePoints
  rw [if_neg hne, if_neg (by rw [hr]; exact hs)]
  simp only [hr, hc, div_self hs]
  congr 1
  refine Prod.ext ?_ ?_
  · conv_rhs => rw [← List.map_id ps]
    refine List.map_congr_left fun p _ => ?_
    apply Prod.ext <;> simp [dehomog, homog, M3.mulVec, V3.dot]
  · apply M3.ext <;> apply V3.ext <;> simp [M3.one]

theorem residual_lift {N1 N2 : M3 ℝ} {φ ψ : V2 → V2} (h1 : ∀ p, N1.mulVec (homog p) = homog (φ p))
    (h2 : ∀ p, N2.mulVec (homog p) = homog (ψ p)) (G : M3 ℝ) (x y : V2) :
    epipolarResidual (lift N1 N2 G) x y = epipolarResidual G (φ x) (ψ y) := by
  have e1 := h1 x
  have e2 := h2 y
  show (homog y).dot ((lift N1 N2 G).mulVec (homog x)) = (homog (ψ y)).dot (G.mulVec (homog (φ x)))
  rw [← e1, ← e2]
  unfold lift
  rw [M3.mulVec_mul, M3.mulVec_mul, M3.dot_mulVec N2]

theorem fitsAll_lift {N1 N2 : M3 ℝ} {φ ψ : V2 → V2} (h1 : ∀ p, N1.mulVec (homog p) = homog (φ p))
    (h2 : ∀ p, N2.mulVec (homog p) = homog (ψ p)) (G : M3 ℝ) (xs ys : List V2) :
    FitsAll (lift N1 N2 G) xs ys ↔ FitsAll G (xs.map φ) (ys.map ψ) := by
  unfold FitsAll
  rw [List.zip_map]
  simp only [List.mem_map, forall_exists_index, and_imp, forall_apply_eq_imp_iff₂, residual_lift h1 h2, Prod.map]

theorem fitsAll_rows (v : Fin 9 → ℝ) (xs ys : List V2) :
    (∀ r ∈ List.zipWith sevenRow xs ys, ∑ i, r i * v i = 0) ↔ FitsAll (ofColumns v) xs ys := by
  unfold FitsAll
  rw [← List.map_uncurry_zip_eq_zipWith]
  simp only [List.mem_map, forall_exists_index, and_imp, forall_apply_eq_imp_iff₂, Function.uncurry, sevenRow_dot]

theorem fitsAll_eightRows (v : Fin 9 → ℝ) (xs ys : List V2) :
    (∀ r ∈ List.zipWith eightRow xs ys, ∑ i, r i * v i = 0) ↔ FitsAll (ofColumns v).transpose xs ys := by
  unfold FitsAll
  rw [← List.map_uncurry_zip_eq_zipWith]
  simp only [List.mem_map, forall_exists_index, and_imp, forall_apply_eq_imp_iff₂, Function.uncurry, eightRow_dot]

theorem columns_combine (a : ℝ) (A : M3 ℝ) (b : ℝ) (B : M3 ℝ) : columns (combine a A b B) = a • columns A + b • columns B := by
  funext i
  fin_cases i <;> rfl

theorem columns_injective {A B : M3 ℝ} (h : columns A = columns B) : A = B := by
  rw [← ofColumns_columns A, h, ofColumns_columns]

/-- A null space with a basis of two vectors has no basis of another size. -/
theorem kernel_dim {n k m : Nat} {K : Fin k → Fin n → ℝ} {L : Fin m → Fin n → ℝ} (hK : LinearIndependent ℝ K)
    (hL : LinearIndependent ℝ L) (h : ∀ v : Fin n → ℝ, (∃ c : Fin k → ℝ, v = ∑ i, c i • K i) ↔ ∃ c : Fin m → ℝ, v = ∑ i, c i • L i) :
    k = m := by
  have hs : Submodule.span ℝ (Set.range K) = Submodule.span ℝ (Set.range L) := by
    ext v
    rw [Submodule.mem_span_range_iff_exists_fun, Submodule.mem_span_range_iff_exists_fun]
    constructor
    · rintro ⟨c, hc⟩
      obtain ⟨d, hd⟩ := (h v).1 ⟨c, hc.symm⟩
      exact ⟨d, hd.symm⟩
    · rintro ⟨c, hc⟩
      obtain ⟨d, hd⟩ := (h v).2 ⟨c, hc.symm⟩
      exact ⟨d, hd.symm⟩
  have h1 := finrank_span_eq_card hK
  have h2 := finrank_span_eq_card hL
  rw [hs, h2] at h1
  simpa using h1.symm

theorem exists_kernelSolver (n : Nat) : ∃ kernel : Kernel n, KernelSolver kernel := by
  have : ∀ A : List (Fin n → ℝ), ∃ K : (k : Nat) × (Fin k → Fin n → ℝ), LinearIndependent ℝ K.2 ∧
      ∀ v, (∀ r ∈ A, ∑ i, r i * v i = 0) ↔ ∃ c : Fin K.1 → ℝ, v = ∑ k, c k • K.2 k := by
    intro A
    let S : Submodule ℝ (Fin n → ℝ) :=
      { carrier := {v | ∀ r ∈ A, ∑ i, r i * v i = 0}
        add_mem' := by
          intro a b ha hb r hr
          have h1 := ha r hr
          have h2 := hb r hr
          simp only [Pi.add_apply, mul_add, Finset.sum_add_distrib]
          rw [h1, h2, add_zero]
        zero_mem' := by
          intro r _
          simp
        smul_mem' := by
          intro c a ha r hr
          have h1 := ha r hr
          have e : ∀ i, r i * (c • a) i = c * (r i * a i) := by
            intro i
            simp only [Pi.smul_apply, smul_eq_mul]
            ring
          simp only [e, ← Finset.mul_sum]
          rw [h1, mul_zero] }
    let b := Module.finBasis ℝ S
    refine ⟨⟨Module.finrank ℝ S, fun i => (b i : Fin n → ℝ)⟩, ?_, ?_⟩
    · exact b.linearIndependent.map' S.subtype (Submodule.ker_subtype S)
    · intro v
      constructor
      · intro hv
        refine ⟨b.repr ⟨v, hv⟩, ?_⟩
        have := congrArg (Subtype.val) (b.sum_repr ⟨v, hv⟩)
        simp only [AddSubmonoidClass.coe_finsetSum, SetLike.val_smul] at this
        exact this.symm
      · rintro ⟨c, rfl⟩
        have : (∑ k, c k • (b k : Fin n → ℝ)) ∈ S := Submodule.sum_mem _ fun k _ => S.smul_mem _ (b k).2
        exact this
  choose K hK using this
  exact ⟨K, hK⟩

/-- A solver with a given result for one matrix. -/
theorem exists_kernelSolver_with {n : Nat} (A : List (Fin n → ℝ)) (K : (k : Nat) × (Fin k → Fin n → ℝ)) (h1 : LinearIndependent ℝ K.2)
    (h2 : ∀ v, (∀ r ∈ A, ∑ i, r i * v i = 0) ↔ ∃ c : Fin K.1 → ℝ, v = ∑ k, c k • K.2 k) :
    ∃ kernel : Kernel n, KernelSolver kernel ∧ kernel A = K := by
  classical
  obtain ⟨k0, hk0⟩ := exists_kernelSolver n
  refine ⟨fun A' => if A' = A then K else k0 A', fun A' => ?_, if_pos rfl⟩
  have key : ∀ X Y : (k : Nat) × (Fin k → Fin n → ℝ), X = Y → (LinearIndependent ℝ Y.2 ∧
      ∀ v, (∀ r ∈ A', ∑ i, r i * v i = 0) ↔ ∃ c : Fin Y.1 → ℝ, v = ∑ k, c k • Y.2 k) → LinearIndependent ℝ X.2 ∧
      ∀ v, (∀ r ∈ A', ∑ i, r i * v i = 0) ↔ ∃ c : Fin X.1 → ℝ, v = ∑ k, c k • X.2 k := by
    rintro X _ rfl h
    exact h
  by_cases hA : A' = A
  · exact key _ K (if_pos hA) (by rw [hA]; exact ⟨h1, h2⟩)
  · exact key _ (k0 A') (if_neg hA) (hk0 A')

end LinearSolvers
end Theia
