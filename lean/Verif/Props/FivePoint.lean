import Verif.Proof.FivePoint
import Mathlib.LinearAlgebra.Matrix.Charpoly.Eigs
import Mathlib.LinearAlgebra.Eigenspace.Matrix

/-! # C96: the five point solver for the essential matrix -/

namespace Theia
namespace FivePoint

open Triangulation LinearSolvers Spec

/-- The result for any input: the solver aborts exactly if the sizes differ or there are fewer than five points. Otherwise the
matrices passed in are kept, at most ten are added, and the result is true exactly if the list is not empty at the end (or, if the
null space does not have dimension four, false). -/
theorem C96_result (kernel : Kernel 9) (last4 : List (Fin 9 → ℝ) → Fin 4 → Fin 9 → ℝ)
    (solve : Matrix (Fin 10) (Fin 10) ℝ → Matrix (Fin 10) (Fin 10) ℝ → Matrix (Fin 10) (Fin 10) ℝ)
    (eigen : Matrix (Fin 10) (Fin 10) ℝ → Eigen) (xs ys : List (ℝ × ℝ)) (out : List (M3 ℝ)) :
    (fivePoint kernel last4 solve eigen xs ys out = .abort ↔ xs.length ≠ ys.length ∨ xs.length < 5) ∧
      (xs.length = ys.length → 5 ≤ xs.length → ∃ found b, fivePoint kernel last4 solve eigen xs ys out = .ok (b, out ++ found) ∧
        found.length ≤ 10 ∧ (found ≠ [] → b = true) ∧ (b = true → out ++ found ≠ [])) := by
  have hc : ∀ N e, (candidates N e).length ≤ 10 := by
    intro N e
    unfold candidates
    rw [List.length_map]
    exact (List.length_filter_le _ _).trans (by simp)
  have key : ∀ N, ∃ found b, (Outcome.ok (fromNullSpace solve eigen N out) : Outcome (Bool × List (M3 ℝ))) = .ok (b, out ++ found) ∧
        found.length ≤ 10 ∧ (found ≠ [] → b = true) ∧ (b = true → out ++ found ≠ []) := by
    intro N
    refine ⟨_, _, rfl, hc _ _, ?_, ?_⟩
    · intro h
      simp only [decide_eq_true_eq, List.length_append]
      have := List.length_pos_of_ne_nil h
      omega
    · intro h
      simp only [decide_eq_true_eq] at h
      exact List.ne_nil_of_length_pos h
  constructor
  · unfold fivePoint
    by_cases h : xs.length ≠ ys.length ∨ xs.length < 5
    · rw [if_pos h]; exact ⟨fun _ => h, fun _ => rfl⟩
    · rw [if_neg h]
      refine ⟨fun h' => ?_, fun h' => absurd h' h⟩
      exfalso
      split at h'
      · split at h' <;> cases h'
      · cases h'
  · intro h1 h2
    unfold fivePoint
    rw [if_neg (by push Not; exact ⟨h1, h2⟩)]
    split
    · split
      · exact key _
      · exact ⟨[], false, by simp, by simp, by simp, by simp⟩
    · exact key _

/-- Every matrix found for five points satisfies the epipolar constraint for all of them. -/
theorem C96_epipolar {kernel : Kernel 9} (hk : KernelSolver kernel) (last4 : List (Fin 9 → ℝ) → Fin 4 → Fin 9 → ℝ)
    (solve : Matrix (Fin 10) (Fin 10) ℝ → Matrix (Fin 10) (Fin 10) ℝ → Matrix (Fin 10) (Fin 10) ℝ)
    (eigen : Matrix (Fin 10) (Fin 10) ℝ → Eigen) {xs ys : List (ℝ × ℝ)} {out all : List (M3 ℝ)} {b : Bool} (h5 : xs.length = 5)
    (h : fivePoint kernel last4 solve eigen xs ys out = .ok (b, all)) : ∀ E ∈ all, E ∈ out ∨ FitsAll E xs ys := by
  unfold fivePoint at h
  split at h
  · cases h
  split at h
  case _ N hN =>
    simp only [fromNullSpace, Outcome.ok.injEq, Prod.mk.injEq] at h
    obtain ⟨-, rfl⟩ := h
    intro E hE
    rcases List.mem_append.1 hE with hE | hE
    · exact Or.inl hE
    · right
      obtain ⟨i, -, rfl⟩ := mem_candidates.1 hE
      unfold candidate
      rw [← fitsAll_rows]
      have hb := (hk (List.zipWith sevenRow xs ys)).2
      rw [hN] at hb
      rw [hb]
      refine ⟨![(eigen (action (solve (left N) (right N)))).vector i 6, (eigen (action (solve (left N) (right N)))).vector i 7,
        (eigen (action (solve (left N) (right N)))).vector i 8, (eigen (action (solve (left N) (right N)))).vector i 9], ?_⟩
      simp [Fin.sum_univ_succ, Fin.succ, add_assoc]
  · simp only [Outcome.ok.injEq, Prod.mk.injEq] at h
    obtain ⟨-, rfl⟩ := h
    exact fun E hE => Or.inl hE

/-- The basis of the null space with which the solver works. -/
def Works (kernel : Kernel 9) (last4 : List (Fin 9 → ℝ) → Fin 4 → Fin 9 → ℝ) (xs ys : List (ℝ × ℝ)) (N : Fin 4 → Fin 9 → ℝ) : Prop :=
  (xs.length = 5 ∧ kernel (List.zipWith sevenRow xs ys) = ⟨4, N⟩) ∨
    (5 < xs.length ∧ last4 (gram (List.zipWith sevenRow xs ys)) = N ∧ ∃ N', NullBasis (List.zipWith sevenRow xs ys) N')

/-- The eigenvectors that belong to `E` have no others with the same eigenvalue beside them. -/
def Separated (A : Matrix (Fin 10) (Fin 10) ℝ) (N : Fin 4 → Fin 9 → ℝ) (E : M3 ℝ) : Prop :=
  ∀ (s : ℝ) (u v : Fin 10 → ℝ), v ≠ 0 → A.mulVec v = s • v → A.mulVec u = s • u → SameUpToScale E (candidate N v) →
    ∃ d : ℝ, u = d • v

/-- Every essential matrix that satisfies the epipolar constraint for all points is found, up to scale, whatever the number of
points. The matrices that satisfy the constraints must be a space of dimension four, the ten equations must be solvable for the ten
cubic monomials, and the eigenvalue must have only one eigenvector. Missing: that nothing else is found. -/
theorem C96_complete_partial {kernel : Kernel 9} (hk : KernelSolver kernel) {last4 : List (Fin 9 → ℝ) → Fin 4 → Fin 9 → ℝ}
    (h4 : LastFour last4) {solve : Matrix (Fin 10) (Fin 10) ℝ → Matrix (Fin 10) (Fin 10) ℝ → Matrix (Fin 10) (Fin 10) ℝ}
    (hs : LuSolver solve) {eigen : Matrix (Fin 10) (Fin 10) ℝ → Eigen} (he : EigensolverTen eigen) {xs ys : List (ℝ × ℝ)}
    (hl : xs.length = ys.length) {N : Fin 4 → Fin 9 → ℝ} (hN : Works kernel last4 xs ys N) (hu : IsUnit (left N)) {E R : M3 ℝ}
    {t : V3 ℝ} {k : ℝ} (hR : R.IsRotation) (hE : IsEssential E R t k) (h0 : E ≠ ⟨V3.zero, V3.zero, V3.zero⟩) (hf : FitsAll E xs ys)
    (hsep : Separated (action (solve (left N) (right N))) N E) (out : List (M3 ℝ)) :
    ∃ all, fivePoint kernel last4 solve eigen xs ys out = .ok (true, all) ∧ ∃ F ∈ all, SameUpToScale E F := by
  -- the basis spans the matrices that fit
  have hb : NullBasis (List.zipWith sevenRow xs ys) N := by
    rcases hN with ⟨-, hN⟩ | ⟨-, hN, N', hN'⟩
    · have := hk (List.zipWith sevenRow xs ys)
      rw [hN] at this
      exact this
    · rw [← hN, ← nullBasis_gram]
      exact h4 _ N' (nullBasis_gram.2 hN')
  have hrun : fivePoint kernel last4 solve eigen xs ys out = .ok (fromNullSpace solve eigen N out) := by
    unfold fivePoint
    rcases hN with ⟨h5, hN⟩ | ⟨h5, hN, -⟩
    · rw [if_neg (by push Not; exact ⟨hl, by omega⟩), if_pos h5, hN]
      rfl
    · rw [if_neg (by push Not; exact ⟨hl, by omega⟩), if_neg (by omega), hN]
  obtain ⟨c, hc⟩ := (hb.2 (columns E)).1 (by rw [fitsAll_rows, ofColumns_columns]; exact hf)
  have hcE : ofColumns (∑ k, c k • N k) = E := by rw [← hc, ofColumns_columns]
  have hc0 : c ≠ 0 := by
    rintro rfl
    apply h0
    rw [← hcE]
    simp [ofColumns, V3.zero]
  obtain ⟨hw, heig⟩ := eigenvector (N := N) (c := c) (by rw [hcE]; exact demazure_of_essential hR hE) hc0 hu (hs _ _ hu)
  have hm0 : mono2 (c 0) (c 1) (c 2) (c 3) ≠ 0 := by
    intro h
    have := congrFun h 9
    simp [mono2] at this
    exact hw this
  obtain ⟨i, him, hre⟩ := (he _).2 _ _ hm0 heig
  obtain ⟨hv0, hv⟩ := (he _).1 i him
  rw [hre] at hv
  obtain ⟨d, hd⟩ := hsep _ _ _ hm0 heig hv ⟨c 3, hw, by
    have := candidate_mono N c 1
    rw [one_smul, one_mul, hcE] at this
    exact this⟩
  have hd0 : d ≠ 0 := by
    rintro rfl
    rw [zero_smul] at hd
    exact hv0 hd
  have hmem : multiple (d * c 3) E ∈ candidates N (eigen (action (solve (left N) (right N)))) := by
    rw [mem_candidates]
    exact ⟨i, him, by rw [hd, candidate_mono, hcE]⟩
  refine ⟨out ++ candidates N (eigen (action (solve (left N) (right N)))), ?_, _, List.mem_append.2 (Or.inr hmem),
    d * c 3, mul_ne_zero hd0 hw, rfl⟩
  rw [hrun]
  simp only [fromNullSpace, Outcome.ok.injEq, Prod.mk.injEq, and_true, decide_eq_true_eq, List.length_append]
  have := List.length_pos_of_mem hmem
  omega

/-- For two cameras that see the same points, the essential matrix of their motion is found, under the same conditions. -/
theorem C96_motion_partial {kernel : Kernel 9} (hk : KernelSolver kernel) {last4 : List (Fin 9 → ℝ) → Fin 4 → Fin 9 → ℝ}
    (h4 : LastFour last4) {solve : Matrix (Fin 10) (Fin 10) ℝ → Matrix (Fin 10) (Fin 10) ℝ → Matrix (Fin 10) (Fin 10) ℝ}
    (hs : LuSolver solve) {eigen : Matrix (Fin 10) (Fin 10) ℝ → Eigen} (he : EigensolverTen eigen) {xs ys : List (ℝ × ℝ)}
    (hl : xs.length = ys.length) {N : Fin 4 → Fin 9 → ℝ} (hN : Works kernel last4 xs ys N) (hu : IsUnit (left N)) {E R : M3 ℝ}
    {t : V3 ℝ} (hR : R.IsRotation) (hE : IsEssential E R t 1) (h0 : t ≠ V3.zero) (hf : ∀ p ∈ xs.zip ys, SeenByBoth R t p.1 p.2)
    (hsep : Separated (action (solve (left N) (right N))) N E) (out : List (M3 ℝ)) :
    ∃ all, fivePoint kernel last4 solve eigen xs ys out = .ok (true, all) ∧ ∃ F ∈ all, SameUpToScale E F := by
  refine C96_complete_partial hk h4 hs he hl hN hu hR hE ?_ ?_ hsep out
  · rintro rfl
    apply h0
    have key : ∀ v, t.cross v = V3.zero := by
      intro v
      have := hE (R.transpose.mulVec v)
      rw [← M3.mulVec_mul R, hR.right, M3.one_mulVec] at this
      simp only [M3.mulVec, V3.dot, V3.zero, zero_mul, add_zero, V3.smul, V3.mk.injEq, one_mul] at this
      apply V3.ext
      · exact this.1.symm
      · exact this.2.1.symm
      · exact this.2.2.symm
    have k1 := key ⟨1, 0, 0⟩
    have k2 := key ⟨0, 1, 0⟩
    simp [V3.cross, V3.zero] at k1 k2
    apply V3.ext
    · exact k2.2
    · exact k1.2
    · exact k1.1
  · intro p hp
    obtain ⟨a, b, c, hab, h⟩ := hf p hp
    unfold epipolarResidual
    rw [hE]
    generalize R.mulVec ⟨p.1.1, p.1.2, 1⟩ = q at h
    generalize (⟨p.2.1, p.2.2, 1⟩ : V3 ℝ) = y at h
    obtain ⟨q1, q2, q3⟩ := q
    obtain ⟨y1, y2, y3⟩ := y
    obtain ⟨t1, t2, t3⟩ := t
    simp only [V3.smul, V3.add, V3.mk.injEq] at h
    obtain ⟨e1, e2, e3⟩ := h
    simp only [V3.dot, V3.cross, V3.smul]
    rcases hab with ha | hb
    · apply mul_left_cancel₀ ha
      linear_combination (y2 * t3 - y3 * t2) * e1 + (y3 * t1 - y1 * t3) * e2 + (y1 * t2 - y2 * t1) * e3
    · apply mul_left_cancel₀ hb
      linear_combination (-(t2 * q3 - t3 * q2)) * e1 - (t3 * q1 - t1 * q3) * e2 - (t1 * q2 - t2 * q1) * e3

/-! ## A case that meets the hypotheses -/

section
variable {K L : Type} [Field K] [Field L] (f : K →+* L)

theorem mulOne_map (a b : Fin 4 → K) : mulOne (f ∘ a) (f ∘ b) = f ∘ mulOne a b := by
  funext i
  fin_cases i <;> simp [mulOne]

theorem mulTwo_map (a : Fin 10 → K) (b : Fin 4 → K) : mulTwo (f ∘ a) (f ∘ b) = f ∘ mulTwo a b := by
  funext i
  fin_cases i <;> simp [mulTwo]

theorem add_map {n : Nat} (a b : Fin n → K) : f ∘ a + f ∘ b = f ∘ (a + b) := by funext i; simp

theorem sub_map {n : Nat} (a b : Fin n → K) : f ∘ a - f ∘ b = f ∘ (a - b) := by funext i; simp

theorem two_map {n : Nat} (a : Fin n → K) : (2 : L) • (f ∘ a) = f ∘ ((2 : K) • a) := by funext i; simp [map_ofNat f 2]

theorem half_map {n : Nat} (a : Fin n → K) : (1 / 2 : L) • (f ∘ a) = f ∘ ((1 / 2 : K) • a) := by funext i; simp [map_ofNat f 2]

theorem constraint_map (n : Fin 3 → Fin 3 → Fin 4 → K) : constraint (fun i j => f ∘ n i j) = fun i => f ∘ constraint n i := by
  funext i
  fin_cases i <;> simp only [constraint, trace, determinant, eet, eeTranspose, mulOne_map, add_map, sub_map, two_map, half_map,
    mulTwo_map] <;> rfl

theorem arrange_map (N : Fin 4 → Fin 9 → K) : arrange (fun k => f ∘ N k) = fun i j => f ∘ arrange N i j := by
  funext i j
  fin_cases i <;> fin_cases j <;> rfl

theorem left_map (N : Fin 4 → Fin 9 → K) : left (fun k => f ∘ N k) = (left N).map f := by
  ext i j
  simp [left, arrange_map, constraint_map]

theorem right_map (N : Fin 4 → Fin 9 → K) : right (fun k => f ∘ N k) = (right N).map f := by
  ext i j
  simp [right, arrange_map, constraint_map]

theorem action_map (X : Matrix (Fin 10) (Fin 10) K) : action (X.map f) = (action X).map f := by
  ext i j
  fin_cases i
  case «6» | «7» | «8» | «9» => fin_cases j <;> simp [action]
  all_goals rfl

end

/-- Five points at distance one before two cameras side by side. -/
def firstPoints : List (ℝ × ℝ) := [(-2, -2), (-1, 0), (0, -2), (0, 1), (0, -1)]
def secondPoints : List (ℝ × ℝ) := [(-1, -2), (0, 0), (1, -2), (1, 1), (1, -1)]

/-- The matrices that satisfy the constraints. -/
def basisQ : Fin 4 → Fin 9 → ℚ :=
  ![![-2, 1, 0, 0, 0, 0, 0, 0, 0], ![2, 0, 0, -1, 0, 0, 0, 1, 0], ![0, 0, 1, 0, 0, 0, -1, 0, 1], ![0, 0, 0, 0, 0, 1, 0, -1, 0]]

def inverseQ : Matrix (Fin 10) (Fin 10) ℚ := Matrix.of
  ![![1/5, -1/10, 0, 3/5, 1/5, 1/2, -1/5, -1, 1/5, 4/5],
    ![1/4, 0, 1/4, 1/2, 1/4, 1/2, 0, -1, 1/4, 0],
    ![1/4, -1, 3/4, 1/2, 1/2, 3/2, -1/4, -2, 1/2, 0],
    ![5/16, -9/4, 21/16, 5/8, 13/16, 21/8, -1/2, -25/8, 13/16, -1/2],
    ![0, 0, 1/2, 0, 1/2, 0, 1/2, 0, 0, -1],
    ![0, -2, 1, 0, 1, 2, -1/2, -2, 1/2, 1],
    ![0, -2, 1, 0, 1, 2, -1/2, -2, 1/2, 0],
    ![0, -9/2, 1, 0, 1, 9/2, -2, -4, 1, 4],
    ![0, 0, 0, 0, 0, 0, 0, 1/2, 0, -2],
    ![0, 10, -5/2, 0, -5/2, -10, 9/2, 10, -2, -13]]

def solutionQ : Matrix (Fin 10) (Fin 10) ℚ := Matrix.of
  ![![13/2, -66/5, 26/5, -2, 2, -5/2, -4/5, -1/5, 0, 0],
    ![15/2, -15, 6, -3/2, 3/2, -5/2, 1, -2, 0, 0],
    ![35/2, -34, 15, 3, -3, -5/2, 1, -2, 0, 0],
    ![115/4, -227/4, 53/2, 69/8, -69/8, -5/2, 9/4, -13/4, 0, 0],
    ![2, -2, 0, 1, 0, 0, 2, -2, -1, 0],
    ![20, -36, 16, 9, -8, 0, -2, 2, -1, 0],
    ![20, -38, 18, 10, -9, 0, 0, 0, -1, 0],
    ![75/2, -72, 34, 18, -18, 1/2, -8, 9, 0, 0],
    ![-5/2, 0, 2, 2, -2, 1/2, 4, -3, 0, 0],
    ![-90, 162, -72, -37, 36, 0, 26, -26, 1, 0]]

def reducerQ : Matrix (Fin 10) (Fin 10) ℚ := Matrix.of
  ![![0, 0, 0, 0, 0, 0, -1, 0, 0, 0],
    ![0, 0, 0, 0, 0, 0, 0, -1, 0, 0],
    ![5, -86/9, 41/9, 9/4, -9/4, 0, 1/18, -19/18, 0, 0],
    ![0, 0, 0, 0, 0, 0, 0, 0, -1, 0],
    ![10, -170/9, 80/9, 9/2, -9/2, 0, -19/9, 19/9, -1, 0],
    ![35/2, -308/9, 146/9, 7, -7, -1/2, -34/9, 43/9, 0, 0],
    ![5/4, -2, 1, 13/4, -13/4, 5/4, -1, 0, 0, 0],
    ![5/4, -14/9, 5/9, 3, -3, 5/4, -17/18, -1/18, 0, 0],
    ![0, -8/9, 8/9, -1/2, -1/2, 0, -19/9, 19/9, -1, 0],
    ![0, 0, 0, 0, 0, 0, 0, 0, 0, 0]]

theorem inverseQ_left : inverseQ * left basisQ = 1 := by decide +kernel

theorem left_solutionQ : left basisQ * solutionQ = right basisQ := by decide +kernel

theorem reducerQ_action : reducerQ * action solutionQ = Matrix.diagonal fun i => if i = 9 then 0 else 1 := by decide +kernel

theorem exists_eigensolver : ∃ eigen, EigensolverTen eigen := by
  classical
  have key : ∀ A : Matrix (Fin 10) (Fin 10) ℝ, ∃ e : Eigen, (∀ i, e.im i = 0 → e.vector i ≠ 0 ∧ A.mulVec (e.vector i) = e.re i • e.vector i) ∧
      ∀ (s : ℝ) (v : Fin 10 → ℝ), v ≠ 0 → A.mulVec v = s • v → ∃ i, e.im i = 0 ∧ e.re i = s := by
    intro A
    have root : ∀ s : ℝ, s ∈ A.charpoly.roots.toFinset ↔ ∃ v, v ≠ 0 ∧ A.mulVec v = s • v := by
      intro s
      rw [Multiset.mem_toFinset, Polynomial.mem_roots A.charpoly_monic.ne_zero, Polynomial.IsRoot.def, Matrix.eval_charpoly,
        ← Matrix.exists_mulVec_eq_zero_iff]
      refine exists_congr fun v => and_congr_right fun _ => ?_
      rw [Matrix.sub_mulVec, sub_eq_zero, eq_comm]
      simp [Matrix.scalar_apply, Matrix.diagonal_const_mulVec]
    have hlen : A.charpoly.roots.toFinset.toList.length ≤ 10 := by
      rw [Finset.length_toList]
      refine (Multiset.toFinset_card_le _).trans ((Polynomial.card_roots' _).trans ?_)
      rw [Matrix.charpoly_natDegree_eq_dim]
      simp
    generalize hl : A.charpoly.roots.toFinset.toList = l at hlen
    have hmem : ∀ s, s ∈ l ↔ ∃ v, v ≠ 0 ∧ A.mulVec v = s • v := by
      intro s; rw [← hl, Finset.mem_toList, root]
    choose! g hg using fun s (h : s ∈ l) => (hmem s).1 h
    refine ⟨⟨fun i => if h : i.1 < l.length then l[i.1] else 0, fun i => if i.1 < l.length then 0 else 1,
      fun i => if h : i.1 < l.length then g l[i.1] else 0⟩, ?_, ?_⟩
    · intro i hi
      by_cases h : i.1 < l.length
      · simp only [h, dif_pos]
        exact hg _ (List.getElem_mem h)
      · simp [h] at hi
    · intro s v hv hs
      obtain ⟨n, hn, rfl⟩ := List.getElem_of_mem ((hmem s).2 ⟨v, hv, hs⟩)
      exact ⟨⟨n, by omega⟩, by simp [hn], by simp [hn]⟩
  choose e he using key
  exact ⟨e, he⟩

/-- The basis over the reals. -/
noncomputable def basisR : Fin 4 → Fin 9 → ℝ := fun k => (Rat.castHom ℝ) ∘ basisQ k

theorem basisR_eq : basisR = ![![-2, 1, 0, 0, 0, 0, 0, 0, 0], ![2, 0, 0, -1, 0, 0, 0, 1, 0], ![0, 0, 1, 0, 0, 0, -1, 0, 1],
    ![0, 0, 0, 0, 0, 1, 0, -1, 0]] := by
  funext i j
  fin_cases i <;> fin_cases j <;> simp [basisR, basisQ]

theorem basisR_null : NullBasis (List.zipWith sevenRow firstPoints secondPoints) basisR := by
  constructor
  · rw [Fintype.linearIndependent_iff]
    intro g hg
    have h1 := congrFun hg 1
    have h2 := congrFun hg 3
    have h3 := congrFun hg 2
    have h4 := congrFun hg 5
    simp [Fin.sum_univ_succ, basisR_eq, Fin.succ] at h1 h2 h3 h4
    intro i
    fin_cases i <;> assumption
  · intro v
    rw [fitsAll_rows]
    simp only [FitsAll, firstPoints, secondPoints, List.zip_cons_cons, List.zip_nil_right, List.mem_cons, List.not_mem_nil, or_false,
      forall_eq_or_imp, forall_eq, epipolarResidual, ofColumns, M3.mulVec, V3.dot]
    constructor
    · rintro ⟨h1, h2, h3, h4, h5⟩
      refine ⟨![v 1, -v 3, v 2, v 5], ?_⟩
      funext i
      fin_cases i <;> simp [Fin.sum_univ_succ, Fin.succ, basisR_eq] <;> linarith
    · rintro ⟨c, rfl⟩
      simp [Fin.sum_univ_succ, Fin.succ, basisR_eq]
      refine ⟨?_, ?_, ?_, ?_⟩ <;> ring

theorem left_unit : IsUnit (left basisR) := by
  have h : inverseQ.map (Rat.castHom ℝ) * left basisR = 1 := by
    have hl : left basisR = (left basisQ).map (Rat.castHom ℝ) := left_map _ _
    rw [hl, ← Matrix.map_mul, inverseQ_left]
    exact Matrix.map_one _ (map_zero _) (map_one _)
  exact ⟨⟨left basisR, inverseQ.map (Rat.castHom ℝ), mul_eq_one_comm.1 h, h⟩, rfl⟩

theorem solve_eq {solve : Matrix (Fin 10) (Fin 10) ℝ → Matrix (Fin 10) (Fin 10) ℝ → Matrix (Fin 10) (Fin 10) ℝ} (hs : LuSolver solve) :
    solve (left basisR) (right basisR) = solutionQ.map (Rat.castHom ℝ) := by
  have h1 := hs (left basisR) (right basisR) left_unit
  have h2 : left basisR * solutionQ.map (Rat.castHom ℝ) = right basisR := by
    have hl : left basisR = (left basisQ).map (Rat.castHom ℝ) := left_map _ _
    have hr : right basisR = (right basisQ).map (Rat.castHom ℝ) := right_map _ _
    rw [hl, hr, ← Matrix.map_mul, left_solutionQ]
  exact left_unit.mul_left_cancel (h1.trans h2.symm)

theorem separated {solve : Matrix (Fin 10) (Fin 10) ℝ → Matrix (Fin 10) (Fin 10) ℝ → Matrix (Fin 10) (Fin 10) ℝ} (hs : LuSolver solve) :
    Separated (action (solve (left basisR) (right basisR))) basisR ⟨⟨0, 0, 0⟩, ⟨0, 0, -1⟩, ⟨0, 1, 0⟩⟩ := by
  rw [solve_eq hs, action_map]
  have hred : reducerQ.map (Rat.castHom ℝ) * (action solutionQ).map (Rat.castHom ℝ) = Matrix.diagonal fun i : Fin 10 => if i = 9 then 0 else 1 := by
    rw [← Matrix.map_mul, reducerQ_action]
    ext i j
    by_cases hij : i = j
    · subst hij
      by_cases h9 : i = 9 <;> simp [h9]
    · simp [hij]
  have hker : ∀ u : Fin 10 → ℝ, ((action solutionQ).map (Rat.castHom ℝ)).mulVec u = 0 → ∀ i, i ≠ 9 → u i = 0 := by
    intro u hu i hi
    have : (Matrix.diagonal fun i : Fin 10 => if i = 9 then (0 : ℝ) else 1).mulVec u = 0 := by
      rw [← hred, ← Matrix.mulVec_mulVec, hu, Matrix.mulVec_zero]
    have := congrFun this i
    simpa [Matrix.mulVec_diagonal, hi] using this
  rintro s u v hv0 hv hu ⟨c, hc, hE⟩
  have h6 : v 6 = 0 ∧ v 9 = c := by
    simp [candidate, ofColumns, basisR_eq, multiple, V3.smul] at hE
    exact ⟨hE.2.1.1, hE.2.2.2.1⟩
  have hs0 : s = 0 := by
    have := congrFun hv 9
    simp [Matrix.mulVec, dotProduct, Fin.sum_univ_succ, Fin.succ, action, h6.1, h6.2] at this
    rcases this with h | h
    · exact h
    · exact absurd h hc
  subst hs0
  rw [zero_smul] at hv hu
  refine ⟨u 9 / v 9, ?_⟩
  funext i
  by_cases hi : i = 9
  · subst hi
    simp only [Pi.smul_apply, smul_eq_mul]
    rw [div_mul_cancel₀]
    rw [h6.2]; exact hc
  · simp [hker u hu i hi, hker v hv i hi]

/-- The cameras side by side: all hypotheses hold, for any solvers that do what they should and start with this basis. -/
example : ∃ (kernel : Kernel 9) (last4 : List (Fin 9 → ℝ) → Fin 4 → Fin 9 → ℝ)
    (solve : Matrix (Fin 10) (Fin 10) ℝ → Matrix (Fin 10) (Fin 10) ℝ → Matrix (Fin 10) (Fin 10) ℝ)
    (eigen : Matrix (Fin 10) (Fin 10) ℝ → Eigen), KernelSolver kernel ∧ LastFour last4 ∧ LuSolver solve ∧ EigensolverTen eigen ∧
    ∃ all, fivePoint kernel last4 solve eigen firstPoints secondPoints [] = .ok (true, all) ∧
      ∃ F ∈ all, SameUpToScale ⟨⟨0, 0, 0⟩, ⟨0, 0, -1⟩, ⟨0, 1, 0⟩⟩ F := by
  classical
  obtain ⟨kernel, hk, hk0⟩ := exists_kernelSolver_with _ ⟨4, basisR⟩ basisR_null.1 basisR_null.2
  obtain ⟨eigen, he⟩ := exists_eigensolver
  have h4 : ∃ last4, LastFour last4 := by
    refine ⟨fun A => if h : ∃ N, NullBasis A N then h.choose else 0, fun A N hN => ?_⟩
    have h : ∃ N, NullBasis A N := ⟨N, hN⟩
    simp only [h, dif_pos]
    exact h.choose_spec
  obtain ⟨last4, h4⟩ := h4
  have hs : LuSolver fun A B => A⁻¹ * B := by
    intro A B hA
    rw [← Matrix.mul_assoc, Matrix.mul_nonsing_inv A ((Matrix.isUnit_iff_isUnit_det A).1 hA), Matrix.one_mul]
  refine ⟨kernel, last4, _, eigen, hk, h4, hs, he, ?_⟩
  refine C96_motion_partial hk h4 hs he (xs := firstPoints) (ys := secondPoints) rfl (N := basisR) (Or.inl ⟨rfl, hk0⟩) left_unit (R := M3.one) (t := ⟨1, 0, 0⟩) ?_ ?_ ?_ ?_
    (separated hs) []
  · exact ⟨by simp [M3.transpose, M3.one, M3.mul, M3.mulVec, V3.dot], by simp [M3.transpose, M3.one, M3.mul, M3.mulVec, V3.dot],
      by simp [M3.det, M3.one, V3.dot, V3.cross]⟩
  · intro v
    apply V3.ext <;> simp [M3.mulVec, V3.dot, V3.cross, V3.smul, M3.one]
  · intro h
    simp [V3.zero] at h
  · intro p hp
    refine ⟨1, 1, 1, Or.inl one_ne_zero, ?_⟩
    simp only [firstPoints, secondPoints, List.zip_cons_cons, List.zip_nil_right, List.mem_cons, List.not_mem_nil, or_false] at hp
    rcases hp with rfl | rfl | rfl | rfl | rfl <;> norm_num [M3.mulVec, M3.one, V3.dot, V3.smul, V3.add]

end FivePoint
end Theia
