import Mathlib.Analysis.Matrix.Spectrum
import Verif.Proof.LinearRotation

/-!
# Every symmetric matrix has its three eigenvectors of the smallest eigenvalues

So the hypothesis about the eigensolver in the theorems can be met.
-/

namespace Theia
namespace LinearRotation

open Spec

theorem exists_smallest {n : Nat} (hn : 3 ≤ n) {m : Nat → Nat → ℝ} (hm : ∀ r c, m r c = m c r) :
    ∃ u, SmallestEigenvectors n m u := by
  let A : Matrix (Fin n) (Fin n) ℝ := fun i j => m i j
  have hA : A.IsHermitian := by
    ext i j
    rw [Matrix.conjTranspose_apply]
    exact hm _ _
  obtain ⟨σ, hσ⟩ : ∃ σ : Equiv.Perm (Fin n), ∀ i j : Fin n, i ≤ j → hA.eigenvalues (σ j) ≤ hA.eigenvalues (σ i) := by
    let e : Fin (Fintype.card (Fin n)) ≃ Fin n := Fintype.equivOfCardEq (Fintype.card_fin _)
    let f : Fin n ≃ Fin (Fintype.card (Fin n)) := finCongr (Fintype.card_fin n).symm
    refine ⟨f.trans e, ?_⟩
    intro i j hij
    have := hA.eigenvalues₀_antitone (a := f i) (b := f j) (by simpa [f] using hij)
    simpa [Matrix.IsHermitian.eigenvalues, e] using this
  let pos : Fin 3 → Fin n := fun k => ⟨n - 1 - k.val, by omega⟩
  have hpos : ∀ i j, pos i = pos j → i = j := by
    intro i j h
    have := congrArg Fin.val h
    simp only [pos] at this
    ext
    have := i.isLt
    have := j.isLt
    omega
  let b := hA.eigenvectorBasis
  let u : Fin 3 → Nat → ℝ := fun k r => if h : r < n then (b (σ (pos k))).ofLp ⟨r, h⟩ else 0
  have hinner : ∀ (v w : Nat → ℝ), vecInner n v w = ∑ i : Fin n, v i * w i := by
    intro v w
    unfold vecInner
    rw [Finset.sum_range]
  have hu : ∀ k (i : Fin n), u k i = (b (σ (pos k))).ofLp i := by
    intro k i
    simp [u, i.isLt]
  refine ⟨u, ?_, fun k => hA.eigenvalues (σ (pos k)), ?_, ?_⟩
  · intro i j
    have h := orthonormal_iff_ite.1 b.orthonormal (σ (pos i)) (σ (pos j))
    rw [EuclideanSpace.inner_eq_star_dotProduct] at h
    rw [hinner]
    have e : ∑ k : Fin n, u i k * u j k = if σ (pos i) = σ (pos j) then (1 : ℝ) else 0 := by
      rw [← h]
      simp only [dotProduct, hu]
      apply Finset.sum_congr rfl
      intro k _
      simp [mul_comm]
    rw [e]
    by_cases hij : i = j
    · simp [hij]
    · rw [if_neg hij, if_neg]
      intro h'
      exact hij (hpos _ _ (σ.injective h'))
  · intro k r hr
    have h := congrFun (hA.mulVec_eigenvectorBasis (σ (pos k))) ⟨r, hr⟩
    simp only [Matrix.mulVec, dotProduct, Pi.smul_apply, smul_eq_mul] at h
    unfold applyMatrix
    rw [Finset.sum_range]
    simp only [hu]
    rw [show u k r = (b (σ (pos k))).ofLp ⟨r, hr⟩ from hu k ⟨r, hr⟩]
    exact h
  · intro v hv k
    let x : EuclideanSpace ℝ (Fin n) := WithLp.toLp 2 (fun i => v i)
    have hx : ∀ j, inner ℝ (b j) x = ∑ i : Fin n, v i * (b j).ofLp i := by
      intro j
      rw [EuclideanSpace.inner_eq_star_dotProduct]
      simp [dotProduct, x]
    have hAx : ∀ j, inner ℝ (b j) (WithLp.toLp 2 (A.mulVec x.ofLp)) = hA.eigenvalues j * inner ℝ (b j) x := by
      intro j
      have h := hA.mulVec_eigenvectorBasis j
      rw [EuclideanSpace.inner_eq_star_dotProduct, EuclideanSpace.inner_eq_star_dotProduct]
      simp only [star_trivial]
      rw [dotProduct_comm, Matrix.dotProduct_mulVec, ← Matrix.mulVec_transpose]
      have ht : A.transpose = A := by
        have := hA
        rw [Matrix.IsHermitian, Matrix.conjTranspose_eq_transpose_of_trivial] at this
        exact this
      rw [ht, h, smul_dotProduct, smul_eq_mul, dotProduct_comm]
    have e1 : vecInner n v v = ∑ j, inner ℝ (b j) x * inner ℝ (b j) x := by
      have h := b.sum_inner_mul_inner x x
      rw [EuclideanSpace.inner_eq_star_dotProduct] at h
      rw [hinner]
      have h' : ∑ i : Fin n, v i * v i = x.ofLp ⬝ᵥ star x.ofLp := by simp [dotProduct, x]
      rw [h', ← h]
      apply Finset.sum_congr rfl
      intro j _
      rw [real_inner_comm]
    have e2 : vecInner n v (applyMatrix n m v) = ∑ j, hA.eigenvalues j * (inner ℝ (b j) x * inner ℝ (b j) x) := by
      have h := b.sum_inner_mul_inner x (WithLp.toLp 2 (A.mulVec x.ofLp))
      rw [EuclideanSpace.inner_eq_star_dotProduct] at h
      rw [hinner]
      have h' : ∑ i : Fin n, v i * applyMatrix n m v i = (A.mulVec x.ofLp) ⬝ᵥ star x.ofLp := by
        simp only [dotProduct, star_trivial, applyMatrix, Finset.sum_range, Matrix.mulVec, A, x]
        apply Finset.sum_congr rfl
        intro i _
        rw [mul_comm]
      rw [h', ← h]
      apply Finset.sum_congr rfl
      intro j _
      rw [hAx, real_inner_comm]; ring
    rw [e1, e2, Finset.mul_sum, ← Equiv.sum_comp σ, ← Equiv.sum_comp σ (fun j => hA.eigenvalues j * _)]
    apply Finset.sum_le_sum
    intro j _
    by_cases hj : ∃ i, j = pos i
    · obtain ⟨i, rfl⟩ := hj
      have h0 : inner ℝ (b (σ (pos i))) x = 0 := by
        rw [hx, ← hv i, hinner]
        apply Finset.sum_congr rfl
        intro r _
        rw [hu]
      rw [h0]; simp
    · apply mul_le_mul_of_nonneg_right _ (mul_self_nonneg _)
      apply hσ
      rw [Fin.le_def]
      by_contra hlt
      apply hj
      have h1 := j.isLt
      have h2 : n - 1 - k.val < j.val := by simpa [pos] using hlt
      refine ⟨⟨n - 1 - j.val, by have := k.isLt; omega⟩, ?_⟩
      ext
      simp only [pos]
      omega

/-- There is an eigensolver. -/
theorem exists_eigensolver : ∃ eig, Eigensolver eig := by
  classical
  refine ⟨fun n m => if h : 3 ≤ n ∧ ∀ r c, m r c = m c r then some (exists_smallest h.1 h.2).choose else none, ?_⟩
  intro n m h1 h2
  exact ⟨_, dif_pos ⟨h1, h2⟩, (exists_smallest h1 h2).choose_spec⟩

end LinearRotation
end Theia
