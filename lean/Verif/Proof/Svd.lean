import Mathlib.Analysis.Matrix.Spectrum
import Mathlib.LinearAlgebra.Matrix.NonsingularInverse
import Verif.Base.RotationMatrix
import Verif.Base.RealVectors
import Verif.Spec.EssentialMatrix

/-!
# Every matrix has a singular value decomposition

So the hypotheses about Eigen's `JacobiSVD` in the theorems can be met.
-/

namespace Theia
namespace Svd

open Spec

/-- The matrix in Mathlib's form. -/
def toMatrix (m : M3 ℝ) : Matrix (Fin 3) (Fin 3) ℝ :=
  !![m.r1.x, m.r1.y, m.r1.z; m.r2.x, m.r2.y, m.r2.z; m.r3.x, m.r3.y, m.r3.z]

theorem toMatrix_inj {a b : M3 ℝ} (h : toMatrix a = toMatrix b) : a = b := by
  have e := fun i j => congrFun (congrFun h i) j
  have e00 := e 0 0; have e01 := e 0 1; have e02 := e 0 2
  have e10 := e 1 0; have e11 := e 1 1; have e12 := e 1 2
  have e20 := e 2 0; have e21 := e 2 1; have e22 := e 2 2
  simp [toMatrix] at e00 e01 e02 e10 e11 e12 e20 e21 e22
  apply M3.ext <;> apply V3.ext <;> assumption

theorem toMatrix_mul (a b : M3 ℝ) : toMatrix (a.mul b) = toMatrix a * toMatrix b := by
  ext i j
  fin_cases i <;> fin_cases j <;>
    simp [toMatrix, M3.mul, M3.mulVec, M3.transpose, V3.dot, Matrix.mul_apply, Fin.sum_univ_three] <;> ring

theorem toMatrix_one : toMatrix M3.one = 1 := by
  ext i j
  fin_cases i <;> fin_cases j <;> simp [toMatrix, M3.one]

/-- A left inverse is a right inverse. -/
theorem mul_eq_one_comm {a b : M3 ℝ} (h : a.mul b = M3.one) : b.mul a = M3.one := by
  apply toMatrix_inj
  rw [toMatrix_mul, toMatrix_one]
  apply _root_.mul_eq_one_comm.1
  rw [← toMatrix_mul, h, toMatrix_one]

theorem orthogonal_of_left {a : M3 ℝ} (h : a.transpose.mul a = M3.one) : IsOrthogonal a := ⟨h, mul_eq_one_comm h⟩

/-- A matrix that keeps inner products is orthogonal. -/
theorem orthogonal_of_dot {a : M3 ℝ} (h : ∀ p q, (a.mulVec p).dot (a.mulVec q) = p.dot q) : IsOrthogonal a := by
  apply orthogonal_of_left
  have h11 := h ⟨1, 0, 0⟩ ⟨1, 0, 0⟩; have h12 := h ⟨1, 0, 0⟩ ⟨0, 1, 0⟩; have h13 := h ⟨1, 0, 0⟩ ⟨0, 0, 1⟩
  have h22 := h ⟨0, 1, 0⟩ ⟨0, 1, 0⟩; have h23 := h ⟨0, 1, 0⟩ ⟨0, 0, 1⟩; have h33 := h ⟨0, 0, 1⟩ ⟨0, 0, 1⟩
  simp only [M3.mulVec, V3.dot] at h11 h12 h13 h22 h23 h33
  apply M3.ext <;> apply V3.ext <;> simp only [M3.mul, M3.mulVec, M3.transpose, V3.dot, M3.one] <;> linarith

/-- The matrix with the given columns. -/
def columns (a b c : V3 ℝ) : M3 ℝ := ⟨⟨a.x, b.x, c.x⟩, ⟨a.y, b.y, c.y⟩, ⟨a.z, b.z, c.z⟩⟩

/-- Orthonormal vectors. -/
structure Orthonormal3 (a b c : V3 ℝ) : Prop where
  aa : a.dot a = 1
  bb : b.dot b = 1
  cc : c.dot c = 1
  ab : a.dot b = 0
  ac : a.dot c = 0
  bc : b.dot c = 0

theorem Orthonormal3.orthogonal {a b c : V3 ℝ} (h : Orthonormal3 a b c) : IsOrthogonal (columns a b c) := by
  apply orthogonal_of_left
  obtain ⟨h1, h2, h3, h4, h5, h6⟩ := h
  simp only [V3.dot] at h1 h2 h3 h4 h5 h6
  apply M3.ext <;> apply V3.ext <;> simp only [columns, M3.mul, M3.mulVec, M3.transpose, V3.dot, M3.one] <;> linarith

/-- Two orthonormal vectors and their cross product. -/
theorem orthonormal_cross {a b : V3 ℝ} (ha : a.dot a = 1) (hb : b.dot b = 1) (hab : a.dot b = 0) :
    Orthonormal3 a b (a.cross b) := by
  refine ⟨ha, hb, ?_, hab, ?_, ?_⟩
  · rw [V3.cross_self_dot, ha, hb, hab]; ring
  · simp only [V3.dot, V3.cross]; ring
  · simp only [V3.dot, V3.cross]; ring

/-- Orthogonal vectors `w1`, `w2`, `w3` with decreasing lengths `s` are multiples of orthonormal ones. -/
theorem exists_directions {w1 w2 w3 : V3 ℝ} {s1 s2 s3 : ℝ} (h3 : 0 ≤ s3) (h32 : s3 ≤ s2) (h21 : s2 ≤ s1)
    (n1 : w1.dot w1 = s1 * s1) (n2 : w2.dot w2 = s2 * s2) (n3 : w3.dot w3 = s3 * s3) (h12 : w1.dot w2 = 0)
    (h13 : w1.dot w3 = 0) (h23 : w2.dot w3 = 0) :
    ∃ a b c, Orthonormal3 a b c ∧ w1 = a.smul s1 ∧ w2 = b.smul s2 ∧ w3 = c.smul s3 := by
  have hz : ∀ {w : V3 ℝ} {s : ℝ}, w.dot w = s * s → s = 0 → ∀ a : V3 ℝ, w = a.smul s := by
    intro w s hw hs a
    rw [hs] at hw ⊢
    rw [V3.zero_smul']
    exact V3.self_eq_zero (by rw [hw]; ring)
  have hu : ∀ {w : V3 ℝ} {s : ℝ}, w.dot w = s * s → 0 < s → (w.smul s⁻¹).dot (w.smul s⁻¹) = 1 ∧ w = (w.smul s⁻¹).smul s := by
    intro w s hw hs
    have hi : s⁻¹ * s = 1 := inv_mul_cancel₀ hs.ne'
    constructor
    · have : (w.smul s⁻¹).dot (w.smul s⁻¹) = s⁻¹ * s⁻¹ * w.dot w := by simp only [V3.dot, V3.smul]; ring
      rw [this, hw]
      calc s⁻¹ * s⁻¹ * (s * s) = (s⁻¹ * s) * (s⁻¹ * s) := by ring
        _ = 1 := by rw [hi]; ring
    · rw [V3.smul_smul, mul_comm, hi, V3.one_smul']
  have hd : ∀ {a b : V3 ℝ} (s t : ℝ), a.dot b = 0 → (a.smul s).dot (b.smul t) = 0 := by
    intro a b s t h
    have : (a.smul s).dot (b.smul t) = s * t * a.dot b := by simp only [V3.dot, V3.smul]; ring
    rw [this, h, mul_zero]
  rcases eq_or_lt_of_le (show 0 ≤ s1 by linarith) with e1 | p1
  · exact ⟨⟨1, 0, 0⟩, ⟨0, 1, 0⟩, ⟨0, 0, 1⟩, ⟨by simp [V3.dot], by simp [V3.dot], by simp [V3.dot], by simp [V3.dot],
      by simp [V3.dot], by simp [V3.dot]⟩, hz n1 e1.symm _, hz n2 (by linarith) _, hz n3 (by linarith) _⟩
  · obtain ⟨u1, e1⟩ := hu n1 p1
    rcases eq_or_lt_of_le (show 0 ≤ s2 by linarith) with e2 | p2
    · obtain ⟨b, hb, hab⟩ := AngleAxis.exists_orthogonal (w1.smul s1⁻¹)
      exact ⟨_, b, _, orthonormal_cross u1 hb hab, e1, hz n2 e2.symm _, hz n3 (by linarith) _⟩
    · obtain ⟨u2, e2⟩ := hu n2 p2
      rcases eq_or_lt_of_le h3 with e3 | p3
      · exact ⟨_, _, _, orthonormal_cross u1 u2 (hd _ _ h12), e1, e2, hz n3 e3.symm _⟩
      · obtain ⟨u3, e3⟩ := hu n3 p3
        exact ⟨_, _, _, ⟨u1, u2, u3, hd _ _ h12, hd _ _ h13, hd _ _ h23⟩, e1, e2, e3⟩

/-- Three orthonormal eigenvectors of `m^T m`, by decreasing eigenvalues. -/
theorem exists_eigenvectors (m : M3 ℝ) : ∃ a b c : V3 ℝ, ∃ l1 l2 l3 : ℝ, Orthonormal3 a b c ∧ l3 ≤ l2 ∧ l2 ≤ l1 ∧
    m.transpose.mulVec (m.mulVec a) = a.smul l1 ∧ m.transpose.mulVec (m.mulVec b) = b.smul l2 ∧
    m.transpose.mulVec (m.mulVec c) = c.smul l3 := by
  have hA : (toMatrix (m.transpose.mul m)).IsHermitian := by
    ext i j
    fin_cases i <;> fin_cases j <;>
      simp [toMatrix, M3.mul, M3.mulVec, M3.transpose, V3.dot] <;> ring
  obtain ⟨σ, hσ⟩ : ∃ σ : Equiv.Perm (Fin 3), hA.eigenvalues (σ 2) ≤ hA.eigenvalues (σ 1) ∧
      hA.eigenvalues (σ 1) ≤ hA.eigenvalues (σ 0) := by
    let e : Fin (Fintype.card (Fin 3)) ≃ Fin 3 := Fintype.equivOfCardEq (Fintype.card_fin _)
    let f : Fin 3 ≃ Fin (Fintype.card (Fin 3)) := finCongr (Fintype.card_fin 3).symm
    refine ⟨f.trans e, ?_, ?_⟩
    · have := hA.eigenvalues₀_antitone (a := f 1) (b := f 2) (by simp [f])
      simpa [Matrix.IsHermitian.eigenvalues, e] using this
    · have := hA.eigenvalues₀_antitone (a := f 0) (b := f 1) (by simp [f])
      simpa [Matrix.IsHermitian.eigenvalues, e] using this
  let vec : Fin 3 → V3 ℝ := fun i =>
    ⟨(hA.eigenvectorBasis (σ i)).ofLp 0, (hA.eigenvectorBasis (σ i)).ofLp 1, (hA.eigenvectorBasis (σ i)).ofLp 2⟩
  have hdot : ∀ i j, (vec i).dot (vec j) = if i = j then 1 else 0 := by
    intro i j
    have h := orthonormal_iff_ite.1 hA.eigenvectorBasis.orthonormal (σ i) (σ j)
    rw [EuclideanSpace.inner_eq_star_dotProduct] at h
    simp [dotProduct, Fin.sum_univ_three] at h
    rw [← h]
    simp only [vec, V3.dot]
    ring
  have heig : ∀ i, m.transpose.mulVec (m.mulVec (vec i)) = (vec i).smul (hA.eigenvalues (σ i)) := by
    intro i
    rw [← M3.mulVec_mul]
    have h := hA.mulVec_eigenvectorBasis (σ i)
    have h0 := congrFun h 0
    have h1 := congrFun h 1
    have h2 := congrFun h 2
    simp only [Matrix.mulVec, dotProduct, Fin.sum_univ_three, Pi.smul_apply, smul_eq_mul, toMatrix, Matrix.of_apply, Matrix.cons_val', Matrix.cons_val_zero, Matrix.cons_val_one,
      Matrix.cons_val] at h0 h1 h2
    apply V3.ext
    · simp only [M3.mulVec, V3.dot, vec, V3.smul]; exact h0
    · simp only [M3.mulVec, V3.dot, vec, V3.smul]; exact h1
    · simp only [M3.mulVec, V3.dot, vec, V3.smul]; exact h2
  exact ⟨vec 0, vec 1, vec 2, _, _, _, ⟨by simp [hdot], by simp [hdot], by simp [hdot], by simp [hdot], by simp [hdot],
    by simp [hdot]⟩, hσ.1, hσ.2, heig 0, heig 1, heig 2⟩

/-- Every matrix has a singular value decomposition. -/
theorem exists_svd (m : M3 ℝ) : ∃ U V, IsSvd m U V := by
  obtain ⟨a, b, c, l1, l2, l3, ho, h32, h21, ea, eb, ec⟩ := exists_eigenvectors m
  have key : ∀ {p q : V3 ℝ} {l : ℝ}, m.transpose.mulVec (m.mulVec q) = q.smul l →
      (m.mulVec p).dot (m.mulVec q) = l * p.dot q := by
    intro p q l h
    rw [M3.dot_mulVec, h]
    simp only [V3.dot, V3.smul]; ring
  have n1 := key (p := a) ea
  have n2 := key (p := b) eb
  have n3 := key (p := c) ec
  rw [ho.aa, mul_one] at n1
  rw [ho.bb, mul_one] at n2
  rw [ho.cc, mul_one] at n3
  have p1 : 0 ≤ l1 := n1 ▸ V3.self_nonneg _
  have p2 : 0 ≤ l2 := n2 ▸ V3.self_nonneg _
  have p3 : 0 ≤ l3 := n3 ▸ V3.self_nonneg _
  obtain ⟨x, y, z, hw, e1, e2, e3⟩ := exists_directions (Real.sqrt_nonneg l3) (Real.sqrt_le_sqrt h32) (Real.sqrt_le_sqrt h21)
    (by rw [n1, Real.mul_self_sqrt p1]) (by rw [n2, Real.mul_self_sqrt p2]) (by rw [n3, Real.mul_self_sqrt p3])
    (by rw [key eb, ho.ab, mul_zero]) (by rw [key ec, ho.ac, mul_zero]) (by rw [key ec, ho.bc, mul_zero])
  refine ⟨columns x y z, columns a b c, hw.orthogonal, ho.orthogonal, ⟨Real.sqrt l1, Real.sqrt l2, Real.sqrt l3⟩,
    Real.sqrt_le_sqrt h21, Real.sqrt_le_sqrt h32, Real.sqrt_nonneg _, ?_⟩
  have hmv : m.mul (columns a b c) = (columns x y z).mul ⟨⟨Real.sqrt l1, 0, 0⟩, ⟨0, Real.sqrt l2, 0⟩, ⟨0, 0, Real.sqrt l3⟩⟩ := by
    simp only [M3.mulVec, V3.smul, V3.mk.injEq, V3.dot] at e1 e2 e3
    obtain ⟨a1, a2, a3⟩ := e1
    obtain ⟨b1, b2, b3⟩ := e2
    obtain ⟨c1, c2, c3⟩ := e3
    apply M3.ext <;> apply V3.ext <;> simp only [columns, M3.mul, M3.mulVec, M3.transpose, V3.dot] <;> linarith
  rw [← hmv, M3.mul_assoc, ho.orthogonal.2, M3.mul_one]

/-- A function that decomposes every matrix. -/
theorem exists_svd_function : ∃ svd : M3 ℝ → M3 ℝ × M3 ℝ, ∀ m, IsSvd m (svd m).1 (svd m).2 := by
  choose U V h using exists_svd
  exact ⟨fun m => (U m, V m), h⟩

end Svd
end Theia
