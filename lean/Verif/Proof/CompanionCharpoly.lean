import Mathlib.LinearAlgebra.Matrix.Charpoly.Minpoly
import Mathlib.RingTheory.AdjoinRoot
import Mathlib.Analysis.Complex.Polynomial.Basic
import Verif.Proof.CompanionBalance
import Verif.Proof.Polynomial

/-!
# The characteristic polynomial of a companion matrix
-/

namespace Theia
namespace CompanionRoots

open Polynomial Theia.Spec

theorem poly_append (l : List ℝ) (c : ℝ) : poly (l ++ [c]) = poly l * X + C c := by
  induction l with
  | nil => simp [poly]
  | cons a l ih =>
    rw [List.cons_append, poly, poly, ih, List.length_append, List.length_singleton, pow_succ]
    ring

theorem coeff_poly_reverse (cs : List ℝ) : ∀ (i : Nat) (h : i < cs.length), (poly cs.reverse).coeff i = cs[i] := by
  induction cs with
  | nil => intro i h; cases h
  | cons a cs ih =>
    intro i h
    rw [List.reverse_cons, poly_append]
    cases i with
    | zero => simp
    | succ i =>
      rw [coeff_add, coeff_mul_X, coeff_C_succ, add_zero]
      exact ih i (by simpa using h)

theorem degree_poly_lt (l : List ℝ) : (poly l).degree < l.length + 1 := by
  induction l with
  | nil => simp [poly]
  | cons a l ih =>
    rw [poly]
    refine (degree_add_le _ _).trans_lt (max_lt ?_ ?_)
    · refine (degree_C_mul_X_pow_le _ _).trans_lt ?_
      rw [List.length_cons]
      norm_cast
      omega
    · refine ih.trans ?_
      rw [List.length_cons]
      norm_cast
      omega

theorem degree_poly_lt' (l : List ℝ) : (poly l).degree < l.length ∨ l = [] := by
  cases l with
  | nil => exact .inr rfl
  | cons a l =>
    left
    rw [poly]
    refine (degree_add_le _ _).trans_lt (max_lt ?_ ?_)
    · refine (degree_C_mul_X_pow_le _ _).trans_lt ?_
      rw [List.length_cons]
      norm_cast
      omega
    · refine (degree_poly_lt l).trans_le ?_
      rw [List.length_cons]
      norm_cast

theorem monic_poly (l : List ℝ) : (poly (1 :: l)).Monic ∧ (poly (1 :: l)).natDegree = l.length := by
  have h : (poly l).degree < ((X : ℝ[X]) ^ l.length).degree := by
    rw [degree_X_pow]
    rcases degree_poly_lt' l with h | h
    · exact h
    · subst h
      simp [poly]
  rw [poly, C_1, one_mul]
  refine ⟨(monic_X_pow _).add_of_left h, ?_⟩
  rw [natDegree_add_eq_left_of_degree_lt h, natDegree_X_pow]

theorem coeff_monic (cs : List ℝ) (i : Nat) (h : i < cs.length) : (poly (1 :: cs.reverse)).coeff i = cs[i] := by
  rw [poly, C_1, one_mul, coeff_add, coeff_X_pow, List.length_reverse, if_neg (by omega), zero_add, coeff_poly_reverse cs i h]

/-- The characteristic polynomial of the companion matrix is the polynomial. -/
theorem charpoly_companion (cs : List ℝ) : (companion cs).charpoly = poly (1 :: cs.reverse) := by
  obtain ⟨hm, hd⟩ := monic_poly cs.reverse
  rw [List.length_reverse] at hd
  let pb := AdjoinRoot.powerBasis' hm
  have hdim : pb.dim = cs.length := hd
  have hmin : minpoly ℝ pb.gen = poly (1 :: cs.reverse) := by
    have := AdjoinRoot.minpoly_root (f := poly (1 :: cs.reverse)) hm.ne_zero
    rw [hm.leadingCoeff, inv_one, C_1, mul_one] at this
    exact this
  have hA : companion cs = Matrix.reindex (finCongr hdim) (finCongr hdim) (Algebra.leftMulMatrix pb.basis pb.gen) := by
    funext i j
    rw [PowerBasis.leftMulMatrix, Matrix.reindex_apply, Matrix.submatrix_apply, Matrix.of_apply]
    unfold companion
    have e1 : (((finCongr hdim).symm j : Fin pb.dim) : Nat) = j := rfl
    have e2 : (((finCongr hdim).symm i : Fin pb.dim) : Nat) = i := rfl
    rw [e1, e2, hdim, PowerBasis.minpolyGen_eq, hmin, coeff_monic cs i i.2]
    rfl
  rw [hA, Matrix.charpoly_reindex, charpoly_leftMulMatrix, hmin]

/-- Scaling by powers of two keeps the characteristic polynomial. -/
theorem charpoly_scaled {n : Nat} (A : Matrix (Fin n) (Fin n) ℝ) (d : Fin n → ℤ) : (scaled A d).charpoly = A.charpoly := by
  have h2 : (2 : ℝ) ≠ 0 := by norm_num
  have h : scaled A d = Matrix.diagonal (fun i => (2 : ℝ) ^ (-d i)) * (A * Matrix.diagonal (fun i => (2 : ℝ) ^ d i)) := by
    ext j k
    rw [Matrix.diagonal_mul, Matrix.mul_diagonal]
    unfold scaled
    rw [sub_eq_add_neg, zpow_add₀ h2]
    ring
  have h1 : Matrix.diagonal (fun i => (2 : ℝ) ^ d i) * Matrix.diagonal (fun i : Fin n => (2 : ℝ) ^ (-d i)) = 1 := by
    rw [Matrix.diagonal_mul_diagonal, ← Matrix.diagonal_one]
    congr 1
    funext i
    rw [← zpow_add₀ h2]
    simp
  rw [h, Matrix.charpoly_mul_comm, Matrix.mul_assoc, h1, Matrix.mul_one]

/-- The matrix without its diagonal. -/
noncomputable def off {n : Nat} (A : Matrix (Fin n) (Fin n) ℝ) : Matrix (Fin n) (Fin n) ℝ := fun i j => if i = j then 0 else A i j

theorem restore {n : Nat} (A : Matrix (Fin n) (Fin n) ℝ) (d : Fin n → ℤ) :
    (fun i j => if i = j then A i j else scaled (off A) d i j) = scaled A d := by
  funext i j
  by_cases h : i = j
  · subst h
    simp [scaled]
  · simp [scaled, off, h]

theorem hessenberg_companion (cs : List ℝ) {m : Nat} (h : cs.length = m + 1) : ∃ first,
    Hessenberg (n := m) (Matrix.reindex (finCongr h) (finCongr h) (off (companion cs))) first := by
  have hval : ∀ i j : Fin (m + 1), Matrix.reindex (finCongr h) (finCongr h) (off (companion cs)) i j =
      if i = j then 0 else if (j : Nat) = m then -cs[(i : Nat)]'(by omega) else if (i : Nat) = j + 1 then 1 else 0 := by
    intro i j
    rw [Matrix.reindex_apply, Matrix.submatrix_apply]
    unfold off companion
    have e1 : (((finCongr h).symm j : Fin cs.length) : Nat) = j := rfl
    have e2 : (((finCongr h).symm i : Fin cs.length) : Nat) = i := rfl
    simp only [Equiv.apply_eq_iff_eq, e1, e2, h, Nat.add_right_cancel_iff, Fin.getElem_fin]
  have hdiag : ∀ i, Matrix.reindex (finCongr h) (finCongr h) (off (companion cs)) i i = 0 := by
    intro i
    rw [hval, if_pos rfl]
  have hbelow : ∀ (i : Nat) (hi : i + 1 < m + 1),
      Matrix.reindex (finCongr h) (finCongr h) (off (companion cs)) ⟨i + 1, hi⟩ ⟨i, by omega⟩ = 1 := by
    intro i hi
    rw [hval, if_neg (by simp), if_neg (by simp only; omega), if_pos rfl]
  by_cases hex : ∃ k : Nat, ∃ hk : k < m, cs[k]'(by omega) ≠ 0
  · have hk := Nat.find_spec hex
    have hmin := fun k hk => Nat.find_min hex (m := k) hk
    generalize Nat.find hex = k at hk hmin
    obtain ⟨hk, hne⟩ := hk
    refine ⟨⟨k, by omega⟩, hdiag, hbelow, ?_, ?_⟩
    · intro h0 j
      have hpos : 0 < k := Nat.pos_of_ne_zero fun h => h0 (Fin.ext h)
      rw [hval]
      split
      · rfl
      · split
        · have := hmin 0 hpos
          push Not at this
          simp [this (by omega)]
        · rfl
    · left
      rw [hval, if_neg (fun e => by have := congrArg Fin.val e; simp at this; omega), if_pos (by simp)]
      simpa using hne
  · push Not at hex
    refine ⟨Fin.last m, hdiag, hbelow, ?_, .inr ⟨rfl, ?_⟩⟩
    · intro h0 j
      have hpos : 0 < m := Nat.pos_of_ne_zero fun h => h0 (Fin.ext h)
      rw [hval]
      split
      · rfl
      · split
        · simp [hex 0 hpos]
        · rfl
    · intro j
      rw [hval]
      split
      · rfl
      · rename_i hj
        rw [if_pos (by simp)]
        have : (j : Nat) < m := by
          have h1 := j.2
          have h2 : (j : Nat) ≠ m := fun e => hj (Fin.ext e)
          omega
        simp [hex j this]

/-- The balancing of a companion matrix ends and keeps the characteristic polynomial. -/
theorem balance_spec (cs : List ℝ) (hcs : cs ≠ []) : ∃ d N, ∀ fuel ≥ N,
    balance 0 fuel (companion cs) = some (scaled (companion cs) d) := by
  obtain ⟨m, h⟩ : ∃ m, cs.length = m + 1 := ⟨cs.length - 1, by
    have := List.length_pos_iff.2 hcs
    omega⟩
  obtain ⟨first, hW⟩ := hessenberg_companion cs h
  have key : ∀ {n : Nat} (e : n = m + 1) (A : Matrix (Fin n) (Fin n) ℝ),
      (∃ first, Hessenberg (n := m) (Matrix.reindex (finCongr e) (finCongr e) (off A)) first) →
      ∃ d N, ∀ fuel ≥ N, balanceLoop 0 fuel (off A) = some (scaled (off A) d) := by
    intro n e A hH
    subst e
    obtain ⟨first, hH⟩ := hH
    have e1 : Matrix.reindex (finCongr rfl) (finCongr rfl) (off A) = off A := rfl
    rw [e1] at hH
    obtain ⟨d, N, hN⟩ := balanceLoop_spec hH.diagonal (hH.acc (fun _ => 0))
    rw [scaled_zero] at hN
    exact ⟨d, N, hN⟩
  obtain ⟨d, N, hN⟩ := key h (companion cs) ⟨first, hW⟩
  refine ⟨d, N, fun fuel hf => ?_⟩
  unfold balance
  have := hN fuel hf
  unfold off at this
  have e2 := restore (companion cs) d
  unfold off at e2
  simp only [this, e2]

end CompanionRoots
end Theia
