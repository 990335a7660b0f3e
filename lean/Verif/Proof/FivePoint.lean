import Verif.Spec.FivePoint
import Verif.Proof.LinearSolvers

/-! # Lemmas on the five point solver -/

namespace Theia
namespace FivePoint

open Triangulation LinearSolvers Spec

/-- The quadratic monomials in four variables. -/
def mono2 (x y z w : ℝ) : Fin 10 → ℝ := ![x * x, x * y, y * y, x * z, y * z, z * z, x * w, y * w, z * w, w * w]

/-- The cubic monomials without the fourth variable. -/
def cubics (x y z : ℝ) : Fin 10 → ℝ :=
  ![x * x * x, x * x * y, x * y * y, y * y * y, x * x * z, x * y * z, y * y * z, x * z * z, y * z * z, z * z * z]

/-- All cubic monomials. -/
def mono3 (x y z w : ℝ) : Fin 20 → ℝ :=
  ![x * x * x, x * x * y, x * y * y, y * y * y, x * x * z, x * y * z, y * y * z, x * z * z, y * z * z, z * z * z,
    w * (x * x), w * (x * y), w * (y * y), w * (x * z), w * (y * z), w * (z * z), w * (x * w), w * (y * w), w * (z * w), w * (w * w)]

/-- The value of a linear form. -/
def value (x y z w : ℝ) (a : Fin 4 → ℝ) : ℝ := a 0 * x + a 1 * y + a 2 * z + a 3 * w

theorem mulOne_value (x y z w : ℝ) (a b : Fin 4 → ℝ) :
    ∑ i, mulOne a b i * mono2 x y z w i = value x y z w a * value x y z w b := by
  simp [Fin.sum_univ_succ, mulOne, mono2, value, Fin.succ]
  ring

theorem mulTwo_value (x y z w : ℝ) (a : Fin 10 → ℝ) (b : Fin 4 → ℝ) :
    ∑ i, mulTwo a b i * mono3 x y z w i = (∑ i, a i * mono2 x y z w i) * value x y z w b := by
  simp [Fin.sum_univ_succ, mulTwo, mono2, mono3, value, Fin.succ]
  ring

theorem sum_add' {n : Nat} (a b m : Fin n → ℝ) : ∑ i, (a + b) i * m i = ∑ i, a i * m i + ∑ i, b i * m i := by
  rw [← Finset.sum_add_distrib]; simp only [Pi.add_apply, add_mul]

theorem sum_sub' {n : Nat} (a b m : Fin n → ℝ) : ∑ i, (a - b) i * m i = ∑ i, a i * m i - ∑ i, b i * m i := by
  rw [← Finset.sum_sub_distrib]; simp only [Pi.sub_apply, sub_mul]

theorem sum_smul' {n : Nat} (s : ℝ) (a m : Fin n → ℝ) : ∑ i, (s • a) i * m i = s * ∑ i, a i * m i := by
  rw [Finset.mul_sum]; simp only [Pi.smul_apply, smul_eq_mul, mul_assoc]

theorem determinant_value (x y z w : ℝ) (n : Fin 3 → Fin 3 → Fin 4 → ℝ) :
    ∑ i, determinant n i * mono3 x y z w i =
      (value x y z w (n 0 1) * value x y z w (n 1 2) - value x y z w (n 0 2) * value x y z w (n 1 1)) * value x y z w (n 2 0) +
      (value x y z w (n 0 2) * value x y z w (n 1 0) - value x y z w (n 0 0) * value x y z w (n 1 2)) * value x y z w (n 2 1) +
      (value x y z w (n 0 0) * value x y z w (n 1 1) - value x y z w (n 0 1) * value x y z w (n 1 0)) * value x y z w (n 2 2) := by
  simp only [determinant, sum_add', mulTwo_value, sum_sub', mulOne_value]

/-- The product of two rows of the matrix of the values. -/
def rowDot (e : Fin 3 → Fin 3 → ℝ) (i j : Fin 3) : ℝ := e i 0 * e j 0 + e i 1 * e j 1 + e i 2 * e j 2

/-- An entry of `2 E E^T E - tr(E E^T) E`. -/
def traceEntry (e : Fin 3 → Fin 3 → ℝ) (i j : Fin 3) : ℝ :=
  2 * (rowDot e i 0 * e 0 j + rowDot e i 1 * e 1 j + rowDot e i 2 * e 2 j) - (rowDot e 0 0 + rowDot e 1 1 + rowDot e 2 2) * e i j

theorem trace_value (x y z w : ℝ) (n : Fin 3 → Fin 3 → Fin 4 → ℝ) (i j : Fin 3) :
    ∑ k, trace n i j k * mono3 x y z w k = traceEntry (fun i j => value x y z w (n i j)) i j := by
  simp only [trace, sum_add', mulTwo_value, sum_sub', sum_smul', eet, eeTranspose, mulOne_value, traceEntry, rowDot]
  ring

/-- The matrix as a function of the indices. -/
def entry (E : M3 ℝ) : Fin 3 → Fin 3 → ℝ := ![![E.r1.x, E.r1.y, E.r1.z], ![E.r2.x, E.r2.y, E.r2.z], ![E.r3.x, E.r3.y, E.r3.z]]

/-- The ten equations of Demazure. -/
def Demazure (E : M3 ℝ) : Prop := E.det = 0 ∧ ∀ i j, traceEntry (entry E) i j = 0

theorem value_entry (N : Fin 4 → Fin 9 → ℝ) (c : Fin 4 → ℝ) (i j : Fin 3) :
    value (c 0) (c 1) (c 2) (c 3) (arrange N i j) = entry (ofColumns (∑ k, c k • N k)) i j := by
  fin_cases i <;> fin_cases j <;> simp [value, arrange, entry, ofColumns, Fin.sum_univ_succ, Fin.succ] <;> ring

theorem constraint_value {N : Fin 4 → Fin 9 → ℝ} {c : Fin 4 → ℝ} (h : Demazure (ofColumns (∑ k, c k • N k))) (i : Fin 10) :
    ∑ k, constraint (arrange N) i k * mono3 (c 0) (c 1) (c 2) (c 3) k = 0 := by
  have ht : ∀ i j, ∑ k, trace (arrange N) i j k * mono3 (c 0) (c 1) (c 2) (c 3) k = 0 := by
    intro i j
    rw [trace_value]
    have : (fun i j => value (c 0) (c 1) (c 2) (c 3) (arrange N i j)) = entry (ofColumns (∑ k, c k • N k)) := by
      funext i j; exact value_entry N c i j
    rw [this]
    exact h.2 i j
  have hd : ∑ k, determinant (arrange N) k * mono3 (c 0) (c 1) (c 2) (c 3) k = 0 := by
    rw [determinant_value]
    simp only [value_entry]
    have := h.1
    simp only [M3.det, V3.dot, V3.cross] at this
    simp only [entry, Matrix.cons_val_zero, Matrix.cons_val_one, Matrix.cons_val]
    linear_combination this
  fin_cases i
  · exact ht 0 0
  · exact ht 0 1
  · exact ht 0 2
  · exact ht 1 0
  · exact ht 1 1
  · exact ht 1 2
  · exact ht 2 0
  · exact ht 2 1
  · exact ht 2 2
  · exact hd

theorem blocks_value {N : Fin 4 → Fin 9 → ℝ} {c : Fin 4 → ℝ} (h : Demazure (ofColumns (∑ k, c k • N k))) :
    (left N).mulVec (cubics (c 0) (c 1) (c 2)) + c 3 • (right N).mulVec (mono2 (c 0) (c 1) (c 2) (c 3)) = 0 := by
  funext i
  have hi := constraint_value h i
  rw [show (∑ k : Fin 20, constraint (arrange N) i k * mono3 (c 0) (c 1) (c 2) (c 3) k) =
    ∑ k : Fin (10 + 10), constraint (arrange N) i k * mono3 (c 0) (c 1) (c 2) (c 3) k from rfl, Fin.sum_univ_add] at hi
  simp only [Pi.add_apply, Pi.smul_apply, Matrix.mulVec, dotProduct, left, right, Matrix.of_apply, Pi.zero_apply, smul_eq_mul,
    Finset.mul_sum]
  rw [← hi]
  refine congrArg₂ (· + ·) (Finset.sum_congr rfl fun k _ => ?_) (Finset.sum_congr rfl fun k _ => ?_)
  · fin_cases k <;> rfl
  · have e : mono3 (c 0) (c 1) (c 2) (c 3) (Fin.natAdd 10 k) = c 3 * mono2 (c 0) (c 1) (c 2) (c 3) k := by
      fin_cases k <;> rfl
    rw [e]
    ring

/-- The monomials are an eigenvector of the action matrix. -/
theorem eigenvector {N : Fin 4 → Fin 9 → ℝ} {c : Fin 4 → ℝ} (h : Demazure (ofColumns (∑ k, c k • N k)))
    (hc : c ≠ 0) (hu : IsUnit (left N)) {X : Matrix (Fin 10) (Fin 10) ℝ} (hX : left N * X = right N) :
    c 3 ≠ 0 ∧ (action X).mulVec (mono2 (c 0) (c 1) (c 2) (c 3)) = (-(c 0 / c 3)) • mono2 (c 0) (c 1) (c 2) (c 3) := by
  have h0 := blocks_value h
  rw [← hX, ← Matrix.mulVec_mulVec, ← Matrix.mulVec_smul, ← Matrix.mulVec_add] at h0
  have h1 : cubics (c 0) (c 1) (c 2) + c 3 • X.mulVec (mono2 (c 0) (c 1) (c 2) (c 3)) = 0 := by
    have := Matrix.mulVec_injective_of_isUnit hu (a₁ := cubics (c 0) (c 1) (c 2) + c 3 • X.mulVec (mono2 (c 0) (c 1) (c 2) (c 3))) (a₂ := 0)
    apply this
    rw [h0, Matrix.mulVec_zero]
  have hw : c 3 ≠ 0 := by
    intro hw
    rw [hw, zero_smul, add_zero] at h1
    have a0 := congrFun h1 0
    have a1 := congrFun h1 3
    have a2 := congrFun h1 9
    simp [cubics] at a0 a1 a2
    apply hc
    funext k
    fin_cases k
    · exact a0
    · exact a1
    · exact a2
    · exact hw
  refine ⟨hw, ?_⟩
  have row : ∀ i, X.mulVec (mono2 (c 0) (c 1) (c 2) (c 3)) i = -(cubics (c 0) (c 1) (c 2) i / c 3) := by
    intro i
    have := congrFun h1 i
    simp only [Pi.add_apply, Pi.smul_apply, smul_eq_mul, Pi.zero_apply] at this
    field_simp
    linarith
  funext i
  have t : ∀ u : Fin 10 → ℝ, (action X).mulVec u = ![X.mulVec u 0, X.mulVec u 1, X.mulVec u 2, X.mulVec u 4, X.mulVec u 5, X.mulVec u 7,
      -u 0, -u 1, -u 3, -u 6] := by
    intro u
    funext i
    fin_cases i <;> simp [action, Matrix.mulVec, dotProduct, Fin.sum_univ_succ, Fin.succ]
  rw [t]
  simp only [row]
  fin_cases i <;> simp [cubics, mono2] <;> field_simp

/-- An essential matrix satisfies the ten equations. -/
theorem demazure_of_essential {E R : M3 ℝ} {t : V3 ℝ} {k : ℝ} (hR : R.IsRotation) (h : IsEssential E R t k) : Demazure E := by
  have h1 := h ⟨1, 0, 0⟩
  have h2 := h ⟨0, 1, 0⟩
  have h3 := h ⟨0, 0, 1⟩
  have o := hR.right
  obtain ⟨⟨a, b, c⟩, ⟨d, e, f⟩, ⟨g, p, q⟩⟩ := R
  obtain ⟨⟨e11, e12, e13⟩, ⟨e21, e22, e23⟩, ⟨e31, e32, e33⟩⟩ := E
  obtain ⟨x, y, z⟩ := t
  simp only [M3.mulVec, V3.dot, V3.cross, V3.smul, V3.mk.injEq, mul_one, mul_zero, add_zero, zero_add] at h1 h2 h3
  simp only [M3.mul, M3.transpose, M3.mulVec, V3.dot, M3.one, M3.mk.injEq, V3.mk.injEq] at o
  obtain ⟨⟨o11, o12, o13⟩, ⟨-, o22, o23⟩, ⟨-, -, o33⟩⟩ := o
  obtain ⟨rfl, rfl, rfl⟩ := h1
  obtain ⟨rfl, rfl, rfl⟩ := h2
  obtain ⟨rfl, rfl, rfl⟩ := h3
  constructor
  · simp only [M3.det, V3.dot, V3.cross]
    ring
  · -- the products of the rows are those of the skew matrix
    have key : ∀ (u : Fin 3 → Fin 3 → ℝ), rowDot u 0 0 = k ^ 2 * (y ^ 2 + z ^ 2) → rowDot u 0 1 = -k ^ 2 * (x * y) →
        rowDot u 0 2 = -k ^ 2 * (x * z) → rowDot u 1 1 = k ^ 2 * (x ^ 2 + z ^ 2) → rowDot u 1 2 = -k ^ 2 * (y * z) →
        rowDot u 2 2 = k ^ 2 * (x ^ 2 + y ^ 2) → (∀ j, x * u 0 j + y * u 1 j + z * u 2 j = 0) → ∀ i j, traceEntry u i j = 0 := by
      intro u r00 r01 r02 r11 r12 r22 hj i j
      have sym : ∀ i j, rowDot u i j = rowDot u j i := by intro i j; unfold rowDot; ring
      unfold traceEntry
      rw [r00, r11, r22]
      fin_cases i
      · simp only [Fin.zero_eta]
        rw [r00, r01, r02]
        linear_combination (-2 * k ^ 2 * x) * hj j
      · simp only [Fin.mk_one]
        rw [sym 1 0, r01, r11, r12]
        linear_combination (-2 * k ^ 2 * y) * hj j
      · simp only [Fin.reduceFinMk]
        rw [sym 2 0, sym 2 1, r02, r12, r22]
        linear_combination (-2 * k ^ 2 * z) * hj j
    apply key
    · simp only [rowDot, entry, Matrix.cons_val_zero, Matrix.cons_val_one, Matrix.cons_val]
      linear_combination (k ^ 2 * y ^ 2) * o33 + (k ^ 2 * z ^ 2) * o22 - (2 * k ^ 2 * y * z) * o23
    · simp only [rowDot, entry, Matrix.cons_val_zero, Matrix.cons_val_one, Matrix.cons_val]
      linear_combination (k ^ 2 * y * z) * o13 - (k ^ 2 * x * y) * o33 - (k ^ 2 * z ^ 2) * o12 + (k ^ 2 * x * z) * o23
    · simp only [rowDot, entry, Matrix.cons_val_zero, Matrix.cons_val_one, Matrix.cons_val]
      linear_combination (k ^ 2 * x * y) * o23 - (k ^ 2 * y ^ 2) * o13 - (k ^ 2 * x * z) * o22 + (k ^ 2 * y * z) * o12
    · simp only [rowDot, entry, Matrix.cons_val_zero, Matrix.cons_val_one, Matrix.cons_val]
      linear_combination (k ^ 2 * z ^ 2) * o11 + (k ^ 2 * x ^ 2) * o33 - (2 * k ^ 2 * x * z) * o13
    · simp only [rowDot, entry, Matrix.cons_val_zero, Matrix.cons_val_one, Matrix.cons_val]
      linear_combination (k ^ 2 * x * z) * o12 - (k ^ 2 * y * z) * o11 - (k ^ 2 * x ^ 2) * o23 + (k ^ 2 * x * y) * o13
    · simp only [rowDot, entry, Matrix.cons_val_zero, Matrix.cons_val_one, Matrix.cons_val]
      linear_combination (k ^ 2 * x ^ 2) * o22 + (k ^ 2 * y ^ 2) * o11 - (2 * k ^ 2 * x * y) * o12
    · intro j
      fin_cases j <;> simp [entry] <;> ring

theorem gram_kernel (A : List (Fin 9 → ℝ)) (v : Fin 9 → ℝ) :
    (∀ r ∈ gram A, ∑ i, r i * v i = 0) ↔ ∀ r ∈ A, ∑ i, r i * v i = 0 := by
  have e : ∀ i, ∑ j, (A.map fun r => r i * r j).sum * v j = (A.map fun r => r i * ∑ j, r j * v j).sum := by
    intro i
    induction A with
    | nil => simp
    | cons a A ih =>
      simp only [List.map_cons, List.sum_cons, add_mul, Finset.sum_add_distrib, ih]
      rw [Finset.mul_sum]
      congr 1
      exact Finset.sum_congr rfl fun j _ => by ring
  constructor
  · intro h
    have hi : ∀ i, (A.map fun r => r i * ∑ j, r j * v j).sum = 0 := by
      intro i
      rw [← e i]
      exact h _ (by unfold gram; rw [List.mem_ofFn]; exact ⟨i, rfl⟩)
    have hs : (A.map fun r => (∑ j, r j * v j) * ∑ j, r j * v j).sum = 0 := by
      have : ∀ A : List (Fin 9 → ℝ), (A.map fun r => (∑ j, r j * v j) * ∑ j, r j * v j).sum =
          ∑ i, v i * (A.map fun r => r i * ∑ j, r j * v j).sum := by
        intro A
        induction A with
        | nil => simp
        | cons a A ih =>
          simp only [List.map_cons, List.sum_cons, mul_add, Finset.sum_add_distrib, ih]
          congr 1
          rw [Finset.sum_mul]
          exact Finset.sum_congr rfl fun j _ => by ring
      rw [this]
      simp [hi]
    intro r hr
    have hle : (∑ j, r j * v j) * (∑ j, r j * v j) ≤ 0 := by
      rw [← hs]
      apply List.single_le_sum
      · intro x hx
        obtain ⟨r', -, rfl⟩ := List.mem_map.1 hx
        exact mul_self_nonneg _
      · exact List.mem_map.2 ⟨r, hr, rfl⟩
    exact mul_self_eq_zero.1 (le_antisymm hle (mul_self_nonneg _))
  · intro h r hr
    unfold gram at hr
    rw [List.mem_ofFn] at hr
    obtain ⟨i, rfl⟩ := hr
    rw [e i]
    apply List.sum_eq_zero
    intro x hx
    obtain ⟨r, hr, rfl⟩ := List.mem_map.1 hx
    rw [h r hr, mul_zero]

theorem nullBasis_gram {A : List (Fin 9 → ℝ)} {N : Fin 4 → Fin 9 → ℝ} : NullBasis (gram A) N ↔ NullBasis A N := by
  unfold NullBasis
  simp only [gram_kernel]

theorem candidate_mono (N : Fin 4 → Fin 9 → ℝ) (c : Fin 4 → ℝ) (d : ℝ) :
    candidate N (d • mono2 (c 0) (c 1) (c 2) (c 3)) = multiple (d * c 3) (ofColumns (∑ k, c k • N k)) := by
  apply M3.ext <;> apply V3.ext <;>
    simp [candidate, mono2, multiple, ofColumns, Fin.sum_univ_succ, Fin.succ, V3.smul] <;> ring

theorem mem_candidates {N : Fin 4 → Fin 9 → ℝ} {e : Eigen} {E : M3 ℝ} :
    E ∈ candidates N e ↔ ∃ i, e.im i = 0 ∧ E = candidate N (e.vector i) := by
  simp only [candidates, List.mem_map, List.mem_filter, List.mem_finRange, true_and, decide_eq_true_eq]
  exact ⟨fun ⟨i, h, e⟩ => ⟨i, h, e.symm⟩, fun ⟨i, h, e⟩ => ⟨i, h, e.symm⟩⟩

end FivePoint
end Theia
