import Verif.Proof.LinearSolvers
import Verif.Props.CompanionRoots

/-!
# C77: the fundamental matrix from seven points
-/

namespace Theia

open Spec LinearSolvers CompanionRoots Polynomial
open PoseUtil (normalizePoints C59_normalize_defined)

/-- Two independent matrices that span the null space, in terms of the points. -/
private theorem pencil_of_kernel {N1 N2 : M3 ℝ} {φ ψ : ℝ × ℝ → ℝ × ℝ} (d1 : 0 < N1.det) (d2 : 0 < N2.det)
    (h1 : ∀ p, N1.mulVec (Triangulation.homog p) = Triangulation.homog (φ p))
    (h2 : ∀ p, N2.mulVec (Triangulation.homog p) = Triangulation.homog (ψ p)) (xs ys : List (ℝ × ℝ))
    {K : Fin 2 → Fin 9 → ℝ} (hK : LinearIndependent ℝ K)
    (hs : ∀ v, (∀ r ∈ List.zipWith sevenRow (xs.map φ) (ys.map ψ), ∑ i, r i * v i = 0) ↔ ∃ c : Fin 2 → ℝ, v = ∑ k, c k • K k) :
    Pencil (lift N1 N2 (ofColumns (K 0 - K 1))) (lift N1 N2 (ofColumns (K 1))) xs ys := by
  have e : ∀ a b, combine a (ofColumns (K 0 - K 1)) b (ofColumns (K 1)) = ofColumns (a • K 0 + (b - a) • K 1) := by
    intro a b
    apply columns_injective
    rw [columns_combine, columns_ofColumns, columns_ofColumns, columns_ofColumns]
    funext i
    simp only [Pi.add_apply, Pi.smul_apply, Pi.sub_apply, smul_eq_mul]
    ring
  have zl : lift N1 N2 (⟨V3.zero, V3.zero, V3.zero⟩ : M3 ℝ) = ⟨V3.zero, V3.zero, V3.zero⟩ := by
    apply M3.ext <;> apply V3.ext <;> simp only [lift, M3.mul, M3.transpose, M3.mulVec, V3.dot, V3.zero] <;> ring
  refine ⟨fun a b h => ?_, fun F => ?_⟩
  · rw [← lift_combine, ← zl] at h
    have h := lift_injective d1.ne' d2.ne' h
    rw [e] at h
    have h : a • K 0 + (b - a) • K 1 = 0 := by
      rw [← columns_ofColumns (a • K 0 + (b - a) • K 1), h]
      funext i
      fin_cases i <;> rfl
    have := Fintype.linearIndependent_iff.1 hK ![a, b - a] (by simpa [Fin.sum_univ_two] using h)
    have h0 := this 0
    have h1 := this 1
    simp at h0 h1
    constructor <;> linarith
  · obtain ⟨G, rfl⟩ := lift_surjective d1.ne' d2.ne' F
    rw [fitsAll_lift h1 h2]
    have := (fitsAll_rows (columns G) (xs.map φ) (ys.map ψ)).symm.trans (hs (columns G))
    rw [ofColumns_columns] at this
    rw [this]
    constructor
    · rintro ⟨c, hc⟩
      refine ⟨c 0, c 1 + c 0, ?_⟩
      rw [← lift_combine, e]
      congr 1
      rw [← ofColumns_columns G, hc, Fin.sum_univ_two]
      congr 1
      rw [add_sub_cancel_right]
    · rintro ⟨a, b, h⟩
      rw [← lift_combine, e] at h
      have h := lift_injective d1.ne' d2.ne' h
      refine ⟨![a, b - a], ?_⟩
      rw [h, columns_ofColumns]
      simp [Fin.sum_univ_two]

/-- C77: with seven points in each image, not all the same, nothing is written unless the matrices that satisfy the seven epipolar
constraints are the combinations of two of them, `A` and `B`; then there are such `A` and `B` so that the matrices written are
`x A + B`, where `x` ranges over the real parts of the roots of a polynomial `p` of degree at most three: the one with
`p(x) = c det(A + x B)`. The comment in the code says `det(x A + B)`. -/
theorem C77_pencil {kernel : Kernel 9} (hk : KernelSolver kernel) (find : List ℝ → Option (List ℝ)) (xs ys : List (ℝ × ℝ))
    (hx : xs.length = 7) (hy : ys.length = 7) (hx' : ∃ p ∈ xs, ∃ q ∈ xs, p ≠ q) (hy' : ∃ p ∈ ys, ∃ q ∈ ys, p ≠ q) :
    ∃ out, sevenPoint kernel find xs ys = .ok out ∧
      ((¬ ∃ A B, Pencil A B xs ys) → out = (false, [])) ∧
      ((∃ A B, Pencil A B xs ys) → ∃ A B p c, Pencil A B xs ys ∧ 0 < c ∧ p.length = 4 ∧
        (∀ x, (poly p).eval x = c * (combine 1 A x B).det) ∧ (∀ x, (poly p.reverse).eval x = c * (combine x A 1 B).det) ∧
        out.1 = !((find p).getD []).isEmpty ∧ out.2 = ((find p).getD []).map fun x => combine x A 1 B) := by
  obtain ⟨r1, hr1⟩ := (C59_normalize_defined xs).2 hx'
  obtain ⟨r2, hr2⟩ := (C59_normalize_defined ys).2 hy'
  obtain ⟨φ, e1, d1, h1⟩ := normalized_points hr1
  obtain ⟨ψ, e2, d2, h2⟩ := normalized_points hr2
  refine ⟨sevenCore kernel find r1.1 r2.1 r1.2 r2.2, ?_, ?_⟩
  · unfold sevenPoint
    rw [if_neg (by omega), hr1, hr2]
    rfl
  have hK := hk (List.zipWith sevenRow r1.1 r2.1)
  unfold sevenCore
  rw [e1, e2] at *
  generalize kernel (List.zipWith sevenRow (xs.map φ) (ys.map ψ)) = KK at hK
  -- a basis of two matrices means that the kernel has dimension two
  have dim : (∃ A B, Pencil A B xs ys) → KK.1 = 2 := by
    rintro ⟨A, B, hi, hs⟩
    obtain ⟨A, rfl⟩ := lift_surjective d1.ne' d2.ne' A
    obtain ⟨B, rfl⟩ := lift_surjective d1.ne' d2.ne' B
    refine kernel_dim hK.1 (L := ![columns A, columns B]) ?_ fun v => ?_
    · rw [Fintype.linearIndependent_iff]
      intro g hg
      have : combine (g 0) (lift r1.2 r2.2 A) (g 1) (lift r1.2 r2.2 B) = ⟨V3.zero, V3.zero, V3.zero⟩ := by
        rw [← lift_combine]
        have : combine (g 0) A (g 1) B = ofColumns 0 := by
          apply columns_injective
          rw [columns_combine, columns_ofColumns]
          simpa [Fin.sum_univ_two] using hg
        rw [this]
        apply M3.ext <;> apply V3.ext <;> simp [lift, ofColumns, M3.mul, M3.transpose, M3.mulVec, V3.dot, V3.zero]
      obtain ⟨h0, h1⟩ := hi _ _ this
      intro i
      fin_cases i
      · exact h0
      · exact h1
    · rw [← hK.2 v, fitsAll_rows, ← fitsAll_lift h1 h2, hs]
      simp only [← lift_combine]
      constructor
      · rintro ⟨a, b, h⟩
        refine ⟨![a, b], ?_⟩
        have h := congrArg columns (lift_injective d1.ne' d2.ne' h)
        rw [columns_ofColumns, columns_combine] at h
        rw [h]
        simp [Fin.sum_univ_two]
      · rintro ⟨c, hc⟩
        refine ⟨c 0, c 1, ?_⟩
        congr 1
        apply columns_injective
        rw [columns_ofColumns, columns_combine, hc]
        simp [Fin.sum_univ_two]
  obtain ⟨k, K⟩ := KK
  match k, K with
  | 0, _ => exact ⟨fun _ => rfl, fun h => absurd (dim h) (by simp)⟩
  | 1, _ => exact ⟨fun _ => rfl, fun h => absurd (dim h) (by simp)⟩
  | n + 3, _ => exact ⟨fun _ => rfl, fun h => absurd (dim h) (by simp)⟩
  | 2, K =>
    have hp := pencil_of_kernel d1 d2 h1 h2 xs ys hK.1 hK.2
    refine ⟨fun h => absurd ⟨_, _, hp⟩ h, fun _ => ⟨_, _, cubic (ofColumns (K 0 - K 1)) (ofColumns (K 1)), (r1.2.det * r2.2.det)⁻¹, hp,
      inv_pos.2 (mul_pos d1 d2), rfl, fun x => ?_, fun x => ?_, rfl, ?_⟩⟩
    · rw [← lift_combine, det_lift, eval_cubic, inv_mul_cancel_left₀ (mul_pos d1 d2).ne']
    · rw [← lift_combine, det_lift, eval_cubic_reverse, inv_mul_cancel_left₀ (mul_pos d1 d2).ne']
    · refine List.map_congr_left fun x _ => ?_
      rw [← lift_combine, ← pencil_eq]
      rfl

/-- C77: the program ends if there are not seven points in each image, and divides by zero if the points of an image are all the
same. -/
theorem C77_undefined (kernel : Kernel 9) (find : List ℝ → Option (List ℝ)) (xs ys : List (ℝ × ℝ)) :
    (sevenPoint kernel find xs ys = .abort ↔ ¬ (xs.length = 7 ∧ ys.length = 7)) ∧
      (sevenPoint kernel find xs ys = .ub ↔ (xs.length = 7 ∧ ys.length = 7) ∧
        ((∀ p ∈ xs, ∀ q ∈ xs, p = q) ∨ ∀ p ∈ ys, ∀ q ∈ ys, p = q)) := by
  rw [← normalize_ub, ← normalize_ub]
  unfold sevenPoint
  by_cases hl : xs.length = 7 ∧ ys.length = 7
  · rw [if_neg (by omega)]
    rcases normalize_total xs with ⟨r1, h1⟩ | h1
    · rcases normalize_total ys with ⟨r2, h2⟩ | h2
      · rw [h1, h2]
        exact ⟨⟨fun h => (nomatch h), fun h => absurd hl h⟩, ⟨fun h => (nomatch h), fun h => by rcases h.2 with h | h <;> cases h⟩⟩
      · rw [h1, h2]
        exact ⟨⟨fun h => (nomatch h), fun h => absurd hl h⟩, ⟨fun _ => ⟨hl, .inr rfl⟩, fun _ => rfl⟩⟩
    · rw [h1]
      exact ⟨⟨fun h => (nomatch h), fun h => absurd hl h⟩, ⟨fun _ => ⟨hl, .inl rfl⟩, fun _ => rfl⟩⟩
  · rw [if_pos (by omega)]
    exact ⟨⟨fun _ => hl, fun _ => rfl⟩, ⟨fun h => (nomatch h), fun h => absurd h.1 hl⟩⟩

/-- C77: every matrix that is written satisfies the seven epipolar constraints. -/
theorem C77_fits {kernel : Kernel 9} (hk : KernelSolver kernel) (find : List ℝ → Option (List ℝ)) (xs ys : List (ℝ × ℝ))
    (b : Bool) (Fs : List (M3 ℝ)) (h : sevenPoint kernel find xs ys = .ok (b, Fs)) :
    (b = true ↔ Fs ≠ []) ∧ ∀ F ∈ Fs, FitsAll F xs ys := by
  have hl : xs.length = 7 ∧ ys.length = 7 := by
    by_contra hl
    rw [(C77_undefined kernel find xs ys).1.2 hl] at h
    cases h
  have hd : (∃ p ∈ xs, ∃ q ∈ xs, p ≠ q) ∧ ∃ p ∈ ys, ∃ q ∈ ys, p ≠ q := by
    by_contra hd
    rw [not_and_or] at hd
    push Not at hd
    rw [(C77_undefined kernel find xs ys).2.2 ⟨hl, hd⟩] at h
    cases h
  obtain ⟨out, h1, h2, h3⟩ := C77_pencil hk find xs ys hl.1 hl.2 hd.1 hd.2
  rw [h1] at h
  cases h
  by_cases hp : ∃ A B, Pencil A B xs ys
  · obtain ⟨A, B, p, c, hp, -, -, -, -, e1, e2⟩ := h3 hp
    dsimp only at e1 e2
    subst e1 e2
    refine ⟨?_, fun F hF => ?_⟩
    · cases (find p).getD [] <;> simp
    · obtain ⟨x, -, rfl⟩ := List.mem_map.1 hF
      exact (hp.2 _).2 ⟨x, 1, rfl⟩
  · cases h2 hp
    simp

/-- C77, partial: if the coefficients were passed in the reverse order and only real roots were used, all matrices written would be
singular. Missing: the code passes them in the other order (`C77_not_singular_counterexample`) and uses the real parts of complex
roots. -/
theorem C77_reversed_partial {kernel : Kernel 9} (hk : KernelSolver kernel) (find : List ℝ → Option (List ℝ))
    (hfind : ∀ p rs, find p = some rs → ∀ x ∈ rs, (poly p).eval x = 0) (xs ys : List (ℝ × ℝ)) (b : Bool) (Fs : List (M3 ℝ))
    (h : sevenPoint kernel (fun p => find p.reverse) xs ys = .ok (b, Fs)) : ∀ F ∈ Fs, F.det = 0 ∧ FitsAll F xs ys := by
  intro F hF
  refine ⟨?_, (C77_fits hk _ xs ys b Fs h).2 F hF⟩
  have hl : xs.length = 7 ∧ ys.length = 7 := by
    by_contra hl
    rw [(C77_undefined kernel _ xs ys).1.2 hl] at h
    cases h
  have hd : (∃ p ∈ xs, ∃ q ∈ xs, p ≠ q) ∧ ∃ p ∈ ys, ∃ q ∈ ys, p ≠ q := by
    by_contra hd
    rw [not_and_or] at hd
    push Not at hd
    rw [(C77_undefined kernel _ xs ys).2.2 ⟨hl, hd⟩] at h
    cases h
  obtain ⟨out, h1, h2, h3⟩ := C77_pencil hk (fun p => find p.reverse) xs ys hl.1 hl.2 hd.1 hd.2
  rw [h1] at h
  cases h
  by_cases hp : ∃ A B, Pencil A B xs ys
  · obtain ⟨A, B, p, c, hp, hc, -, -, hr, -, e2⟩ := h3 hp
    dsimp only at e2
    subst e2
    obtain ⟨x, hx, rfl⟩ := List.mem_map.1 hF
    cases hf : find p.reverse with
    | none => rw [hf] at hx; cases hx
    | some rs =>
      rw [hf] at hx
      have := hfind _ _ hf x hx
      rw [hr] at this
      exact (mul_eq_zero.1 this).resolve_left hc.ne'
  · cases h2 hp
    cases hF

/-- Points of the first image. -/
private def xs0 : List (ℝ × ℝ) := [(2, -1), (0, -1), (-1, 0), (0, 1), (-2, 1), (1, 0), (0, 0)]

/-- Points of the second image. -/
private def ys0 : List (ℝ × ℝ) := [(0, -1), (1, 0), (1, -1), (1, 2), (-1, 0), (-1, 1), (-1, -1)]

/-- The basis of the null space that Gaussian elimination with full pivoting gives. -/
private noncomputable def K0 : Fin 2 → Fin 9 → ℝ :=
  ![![0, -1, 0, 1, -2, 1 / 2, 1 / 2, 1 / 2, 1], ![1, 1, 1, 0, 0, 1 / 2, 1 / 2, -1 / 2, 0]]

private theorem K0_independent : LinearIndependent ℝ K0 := by
  rw [Fintype.linearIndependent_iff]
  intro g hg
  have h1 := congrFun hg 0
  have h3 := congrFun hg 3
  simp [Fin.sum_univ_two, K0] at h1 h3
  intro i
  fin_cases i
  · exact h3
  · exact h1

private theorem K0_kernel (v : Fin 9 → ℝ) :
    (∀ r ∈ List.zipWith sevenRow xs0 ys0, ∑ i, r i * v i = 0) ↔ ∃ c : Fin 2 → ℝ, v = ∑ k, c k • K0 k := by
  rw [fitsAll_rows]
  simp only [FitsAll, xs0, ys0, List.zip_cons_cons, List.zip_nil_right, List.mem_cons, List.not_mem_nil, or_false, forall_eq_or_imp,
    forall_eq, epipolarResidual, ofColumns, M3.mulVec, V3.dot]
  constructor
  · rintro ⟨h1, h2, h3, h4, h5, h6, h7⟩
    refine ⟨![v 3, v 0], ?_⟩
    funext i
    fin_cases i <;> simp [Fin.sum_univ_two, K0] <;> linarith
  · rintro ⟨c, rfl⟩
    simp [Fin.sum_univ_two, K0]
    refine ⟨?_, ?_, ?_, ?_, ?_, ?_, ?_⟩ <;> ring

/-- C77: none of the matrices written need be singular, although three singular ones satisfy the constraints: the coefficients of the
polynomial are passed in the wrong order. The points are normalised already, and the basis of the null space is the one that
elimination with full pivoting finds. -/
theorem C77_not_singular_counterexample : ∃ (kernel : Kernel 9) (xs ys : List (ℝ × ℝ)), KernelSolver kernel ∧
    (∃ F1 F2 F3 : M3 ℝ, ∀ F ∈ [F1, F2, F3], F.det = 0 ∧ FitsAll F xs ys ∧ F.r1.cross F.r2 ≠ V3.zero) ∧
    ∀ {infExp : ℤ}, infExp.tdiv 2 = 0 → ∀ {eig : (n : Nat) → Matrix (Fin n) (Fin n) ℝ → Option (List ℂ)}, EigenvalueSolver eig →
      (∀ n A, (eig n A).isSome) → ∃ N Fs, (∀ fuel ≥ N, sevenPoint kernel (realParts infExp eig fuel) xs ys = .ok (true, Fs)) ∧
        ∀ F ∈ Fs, F.det ≠ 0 := by
  obtain ⟨kernel, hk, hk0⟩ := exists_kernelSolver_with _ ⟨2, K0⟩ K0_independent K0_kernel
  have hF : ∀ a x : ℝ, combine a (ofColumns (K0 0 - K0 1)) x (ofColumns (K0 1)) =
      ⟨⟨x - a, a, x / 2⟩, ⟨x - 2 * a, -2 * a, a - x / 2⟩, ⟨x - a, x / 2, a⟩⟩ := by
    intro a x
    apply M3.ext <;> apply V3.ext <;> simp [combine, ofColumns, K0, V3.add, V3.smul] <;> ring
  refine ⟨kernel, xs0, ys0, hk, ?_, ?_⟩
  · refine ⟨combine 1 (ofColumns (K0 0 - K0 1)) (3 / 2) (ofColumns (K0 1)), combine 1 (ofColumns (K0 0 - K0 1)) 2 (ofColumns (K0 1)),
      combine 1 (ofColumns (K0 0 - K0 1)) (-2) (ofColumns (K0 1)), ?_⟩
    have key : ∀ x : ℝ, x = 3 / 2 ∨ x = 2 ∨ x = -2 → (combine 1 (ofColumns (K0 0 - K0 1)) x (ofColumns (K0 1))).det = 0 ∧
        FitsAll (combine 1 (ofColumns (K0 0 - K0 1)) x (ofColumns (K0 1))) xs0 ys0 ∧
        (combine 1 (ofColumns (K0 0 - K0 1)) x (ofColumns (K0 1))).r1.cross (combine 1 (ofColumns (K0 0 - K0 1)) x (ofColumns (K0 1))).r2 ≠
          V3.zero := by
      intro x hx
      refine ⟨?_, ?_, ?_⟩
      · rw [hF]
        rcases hx with rfl | rfl | rfl <;> norm_num [M3.det, V3.dot, V3.cross]
      · rw [← ofColumns_columns (combine _ _ _ _), ← fitsAll_rows, K0_kernel, columns_combine, columns_ofColumns, columns_ofColumns]
        refine ⟨![1, x - 1], ?_⟩
        funext i
        simp [Fin.sum_univ_two]
        ring
      · intro h
        have h1 := congrArg V3.x h
        have h2 := congrArg V3.y h
        rw [hF] at h1 h2
        rcases hx with rfl | rfl | rfl <;>
          first | (norm_num [V3.cross, V3.zero] at h1; done) | (norm_num [V3.cross, V3.zero] at h2; done)
    intro F hF
    simp only [List.mem_cons, List.not_mem_nil, or_false] at hF
    rcases hF with rfl | rfl | rfl
    · exact key _ (.inl rfl)
    · exact key _ (.inr (.inl rfl))
    · exact key _ (.inr (.inr rfl))
  · intro infExp hinf eig heig hok
    have hc : cubic (ofColumns (K0 0 - K0 1)) (ofColumns (K0 1)) = [1 / 2, -3 / 4, -2, 3] := by
      simp [cubic, ofColumns, K0]
      norm_num
    have hp : poly (cubic (ofColumns (K0 0 - K0 1)) (ofColumns (K0 1))) = C (1 / 2) * ((X - C (3 / 2)) * (X - C 2) * (X + C 2)) := by
      rw [hc]
      refine Polynomial.funext fun x => ?_
      simp [poly]
      ring
    have hm : ((X - C (3 / 2 : ℝ)) * (X - C 2) * (X + C 2)).natDegree = 3 := by
      compute_degree!
    have hdeg : (poly (cubic (ofColumns (K0 0 - K0 1)) (ofColumns (K0 1)))).natDegree = 3 := by
      rw [hp, natDegree_C_mul (by norm_num), hm]
    obtain ⟨N, out, hN, hout⟩ := C65_roots hinf heig (p := cubic (ofColumns (K0 0 - K0 1)) (ofColumns (K0 1)))
      (by rw [hdeg]; norm_num) (by
        intro a h
        have h1 := congrArg (eval 0) h
        rw [hp] at h1
        norm_num at h1)
    rcases hout with ⟨re, im, rfl, hall⟩ | ⟨-, n, A, -, hA⟩
    · have hre : ∀ r ∈ re, r = 3 / 2 ∨ r = 2 ∨ r = -2 := by
        intro r hr
        obtain ⟨hlen, h⟩ := hall
        obtain ⟨i, hi, rfl⟩ := List.getElem_of_mem hr
        have hz : Complex.mk re[i] im[i] ∈ List.zipWith Complex.mk re im := by
          rw [List.mem_iff_getElem]
          exact ⟨i, by simp; omega, by simp⟩
        have h0 : (productOfRoots (List.zipWith Complex.mk re im)).eval (Complex.mk re[i] im[i]) = 0 := by
          unfold productOfRoots
          rw [eval_list_prod, List.prod_eq_zero]
          rw [List.map_map]
          exact List.mem_map.2 ⟨_, hz, by simp⟩
        have h1 := congrArg (eval (Complex.mk re[i] im[i])) h
        rw [eval_mul, h0, mul_zero, hp] at h1
        simp at h1
        generalize re[i] = a at *
        generalize im[i] = b at *
        rcases h1 with (h1 | h1) | h1
        · have := congrArg Complex.re h1
          norm_num at this
          left; linarith
        · have := congrArg Complex.re h1
          norm_num at this
          right; left; linarith
        · have := congrArg Complex.re h1
          norm_num at this
          right; right; linarith
      have hne : re ≠ [] := by
        rintro rfl
        have hmem := real_root_mem (x := 2) (fun h => by rw [h, natDegree_zero] at hdeg; cases hdeg) hall (by rw [hp]; simp)
        cases hmem
      have hx : normalizePoints xs0 = .ok (xs0, M3.one) :=
        normalize_self (by simp [xs0]) (by norm_num [xs0]) (by norm_num [xs0]) (by norm_num [xs0])
      have hy : normalizePoints ys0 = .ok (ys0, M3.one) :=
        normalize_self (by simp [ys0]) (by norm_num [ys0]) (by norm_num [ys0]) (by norm_num [ys0])
      refine ⟨N, re.map fun x => combine x (ofColumns (K0 0 - K0 1)) 1 (ofColumns (K0 1)), fun fuel hf => ?_, ?_⟩
      · have e : realParts infExp eig fuel (cubic (ofColumns (K0 0 - K0 1)) (ofColumns (K0 1))) = some re := by
          unfold realParts
          rw [hN fuel hf]
        unfold sevenPoint
        rw [if_neg (by simp [xs0, ys0]), hx, hy]
        show Outcome.ok (sevenCore kernel (realParts infExp eig fuel) xs0 ys0 M3.one M3.one) = _
        unfold sevenCore
        rw [hk0]
        simp only [e, Option.getD_some]
        congr 1
        refine Prod.ext ?_ ?_
        · cases re with
          | nil => exact absurd rfl hne
          | cons => rfl
        · refine List.map_congr_left fun x _ => ?_
          rw [pencil_eq, M3.mul_one]
          exact M3.one_mul _
      · intro F hF'
        obtain ⟨x, hx, rfl⟩ := List.mem_map.1 hF'
        rw [hF]
        rcases hre x hx with rfl | rfl | rfl <;> norm_num [M3.det, V3.dot, V3.cross]
    · have := hok n A
      rw [hA] at this
      cases this

/-- The hypotheses of `C77_pencil` and of its second case hold for these points. -/
example : (∃ kernel : Kernel 9, KernelSolver kernel) ∧ xs0.length = 7 ∧ ys0.length = 7 ∧ (∃ p ∈ xs0, ∃ q ∈ xs0, p ≠ q) ∧
    (∃ p ∈ ys0, ∃ q ∈ ys0, p ≠ q) ∧ ∃ A B, Pencil A B xs0 ys0 := by
  refine ⟨exists_kernelSolver 9, rfl, rfl, ⟨(2, -1), by simp [xs0], (0, -1), by simp [xs0], by norm_num⟩,
    ⟨(0, -1), by simp [ys0], (1, 0), by simp [ys0], by norm_num⟩, _, _,
    pencil_of_kernel (N1 := M3.one) (N2 := M3.one) (φ := id) (ψ := id) (by rw [M3.det_one]; norm_num) (by rw [M3.det_one]; norm_num)
      (fun p => M3.one_mulVec _) (fun p => M3.one_mulVec _) xs0 ys0 K0_independent (fun v => ?_)⟩
  rw [List.map_id, List.map_id]
  exact K0_kernel v

/-- C77: a root finder that returns no more roots than the degree gives at most three matrices. -/
theorem C77_count {kernel : Kernel 9} (find : List ℝ → Option (List ℝ))
    (hfind : ∀ p rs, find p = some rs → rs.length + 1 ≤ p.length) (xs ys : List (ℝ × ℝ)) (b : Bool) (Fs : List (M3 ℝ))
    (h : sevenPoint kernel find xs ys = .ok (b, Fs)) : Fs.length ≤ 3 := by
  unfold sevenPoint at h
  split at h
  · cases h
  rcases normalize_total xs with ⟨r1, h1⟩ | h1
  · rcases normalize_total ys with ⟨r2, h2⟩ | h2
    · rw [h1, h2] at h
      have h : sevenCore kernel find r1.1 r2.1 r1.2 r2.2 = (b, Fs) := by
        have := Outcome.ok.inj h
        exact this
      unfold sevenCore at h
      split at h
      · cases h
        rw [List.length_map]
        cases hf : find _ with
        | none => simp
        | some rs =>
          have := hfind _ _ hf
          simp [cubic] at this
          simp
          omega
      · cases h
        simp
    · rw [h1, h2] at h
      cases h
  · rw [h1] at h
    cases h

/-- Such a root finder: it finds nothing. That of C65 is another. -/
example : ∀ p rs, (fun _ : List ℝ => (none : Option (List ℝ))) p = some rs → rs.length + 1 ≤ p.length := by
  intro p rs h
  cases h

end Theia
