import Verif.Proof.SingularFit

/-!
# C78: the eight point solver
-/

namespace Theia

open Spec LinearSolvers
open Triangulation (homog)
open PoseUtil (normalizePoints C59_normalize_defined)

private theorem imageSq_eight (v : Fin 9 → ℝ) (xs ys : List (ℝ × ℝ)) :
    imageSq (List.zipWith eightRow xs ys) v = epipolarError (ofColumns v).transpose xs ys := by
  unfold imageSq epipolarError
  rw [← List.map_uncurry_zip_eq_zipWith, List.map_map]
  congr 1
  refine List.map_congr_left fun p _ => ?_
  simp only [Function.comp, Function.uncurry, eightRow_dot]

private theorem epipolarError_nonneg (F : M3 ℝ) (xs ys : List (ℝ × ℝ)) : 0 ≤ epipolarError F xs ys := by
  unfold epipolarError
  refine List.sum_nonneg fun x hx => ?_
  obtain ⟨p, -, rfl⟩ := List.mem_map.1 hx
  positivity

private theorem epipolarError_zero {F : M3 ℝ} {xs ys : List (ℝ × ℝ)} (h : FitsAll F xs ys) : epipolarError F xs ys = 0 := by
  unfold epipolarError
  refine List.sum_eq_zero fun x hx => ?_
  obtain ⟨p, hp, rfl⟩ := List.mem_map.1 hx
  rw [h p hp]
  ring

/-- What is found after the normalization. -/
private theorem eightVector_spec {kernel : Kernel 9} (hk : KernelSolver kernel) {last : List (Fin 9 → ℝ) → Fin 9 → ℝ}
    (hl : LastSingularVector last) (xs ys : List (ℝ × ℝ)) :
    (eightVector kernel last (List.zipWith eightRow xs ys) = none ↔
      (List.zipWith eightRow xs ys).length = 8 ∧ ¬ ∃ A, UniqueFit A xs ys) ∧
    ∀ f, eightVector kernel last (List.zipWith eightRow xs ys) = some f → f ≠ 0 ∧
      (∀ H, entriesSq H = entriesSq (ofColumns f).transpose → epipolarError (ofColumns f).transpose xs ys ≤ epipolarError H xs ys) ∧
      ((∃ A, UniqueFit A xs ys) → FitsAll (ofColumns f).transpose xs ys) := by
  have hK := hk (List.zipWith eightRow xs ys)
  have hL := hl (List.zipWith eightRow xs ys)
  have hfit := fun v => fitsAll_eightRows v xs ys
  have herr := fun v => imageSq_eight v xs ys
  unfold eightVector
  generalize List.zipWith eightRow xs ys = rows at *
  split
  · rename_i h8
    generalize kernel rows = KK at hK
    have dim : (∃ A, UniqueFit A xs ys) → KK.1 = 1 := by
      rintro ⟨A, hA, hs⟩
      refine kernel_dim hK.1 (L := ![columns A.transpose]) ?_ fun v => ?_
      · rw [Fintype.linearIndependent_iff]
        intro g hg i
        have hg : g 0 • columns A.transpose = 0 := by simpa using hg
        rcases smul_eq_zero.1 hg with h | h
        · fin_cases i
          exact h
        · exfalso
          apply hA
          rw [← columns_transpose A, h]
          rfl
      · rw [← hK.2 v, hfit, hs]
        constructor
        · rintro ⟨a, h⟩
          refine ⟨![a], ?_⟩
          have h := congrArg (fun F : M3 ℝ => columns F.transpose) h
          rw [M3.transpose_transpose, columns_ofColumns, transpose_combine, combine_zero] at h
          simpa using h
        · rintro ⟨c, hc⟩
          refine ⟨c 0, ?_⟩
          have hc : v = c 0 • columns A.transpose := by simpa using hc
          rw [hc, ← combine_zero, ← transpose_combine, columns_transpose]
    obtain ⟨k, K⟩ := KK
    match k, K with
    | 0, _ => exact ⟨⟨fun _ => ⟨h8, fun h => absurd (dim h) (by simp)⟩, fun _ => rfl⟩, fun f hf => by cases hf⟩
    | n + 2, _ => exact ⟨⟨fun _ => ⟨h8, fun h => absurd (dim h) (by simp)⟩, fun _ => rfl⟩, fun f hf => by cases hf⟩
    | 1, K =>
      have hn : K 0 ≠ 0 := hK.1.ne_zero 0
      have hf0 : FitsAll (ofColumns (K 0)).transpose xs ys := by
        rw [← hfit, hK.2]
        exact ⟨fun _ => 1, by simp⟩
      refine ⟨⟨fun h => (by cases h), fun h => absurd ?_ h.2⟩, fun f hf => ?_⟩
      · refine ⟨(ofColumns (K 0)).transpose, ?_, fun F => ?_⟩
        · intro h0
          apply hn
          have := congrArg (fun F : M3 ℝ => columns F.transpose) h0
          rw [M3.transpose_transpose, columns_ofColumns] at this
          rw [this]
          funext i
          fin_cases i <;> rfl
        · have := (hfit (columns F.transpose)).symm.trans (hK.2 _)
          rw [columns_transpose] at this
          rw [this]
          constructor
          · rintro ⟨c, hc⟩
            refine ⟨c 0, ?_⟩
            have hc : columns F.transpose = c 0 • K 0 := by simpa using hc
            rw [← columns_transpose F, hc, ← transpose_combine]
            congr 1
            apply columns_injective
            rw [combine_zero, columns_ofColumns, columns_ofColumns]
          · rintro ⟨a, rfl⟩
            refine ⟨fun _ => a, ?_⟩
            rw [transpose_combine, M3.transpose_transpose, combine_zero, columns_ofColumns]
            simp
      · cases hf
        refine ⟨hn, fun H _ => ?_, fun _ => hf0⟩
        rw [epipolarError_zero hf0]
        exact epipolarError_nonneg _ _ _
  · rename_i h8
    refine ⟨⟨fun h => (by cases h), fun h => absurd h.1 h8⟩, fun f hf => ?_⟩
    cases hf
    have key : ∀ H, entriesSq H = 1 → epipolarError (ofColumns (last rows)).transpose xs ys ≤ epipolarError H xs ys := by
      intro H hH
      have h1 := hL.2 (columns H.transpose) (by rw [← entriesSq_ofColumns, columns_transpose, hH])
      have e1 := herr (last rows)
      have e2 := herr (columns H.transpose)
      rw [columns_transpose] at e2
      rw [← e1, ← e2]
      exact h1
    refine ⟨?_, fun H hH => key H (by rw [hH, entriesSq_ofColumns, hL.1]), ?_⟩
    · intro h0
      have := hL.1
      rw [h0] at this
      simp at this
    · rintro ⟨A, hA, hs⟩
      have hpos : 0 < entriesSq A := by
        unfold entriesSq
        by_contra hn
        have h1 := V3.self_nonneg A.r1
        have h2 := V3.self_nonneg A.r2
        have h3 := V3.self_nonneg A.r3
        exact hA (M3.ext (V3.self_eq_zero (by linarith)) (V3.self_eq_zero (by linarith)) (V3.self_eq_zero (by linarith)))
      have hsq := Real.mul_self_sqrt hpos.le
      have h0 : entriesSq (combine (Real.sqrt (entriesSq A))⁻¹ A 0 A) = 1 := by
        have : entriesSq (combine (Real.sqrt (entriesSq A))⁻¹ A 0 A) = entriesSq A * (Real.sqrt (entriesSq A) * Real.sqrt (entriesSq A))⁻¹ := by
          rw [mul_inv]
          generalize Real.sqrt (entriesSq A) = s
          simp only [entriesSq, combine, V3.dot, V3.add, V3.smul]
          ring
        rw [this, hsq, mul_inv_cancel₀ hpos.ne']
      have h1 := key _ h0
      rw [epipolarError_zero ((hs _).2 ⟨_, rfl⟩)] at h1
      rw [← herr] at h1
      rw [← hfit, ← imageSq_eq_zero]
      exact le_antisymm h1 (imageSq_nonneg _ _)

private theorem uniqueFit_lift {N1 N2 : M3 ℝ} {φ ψ : ℝ × ℝ → ℝ × ℝ} (d1 : 0 < N1.det) (d2 : 0 < N2.det)
    (h1 : ∀ p, N1.mulVec (homog p) = homog (φ p)) (h2 : ∀ p, N2.mulVec (homog p) = homog (ψ p)) (xs ys : List (ℝ × ℝ)) (A : M3 ℝ) :
    UniqueFit A (xs.map φ) (ys.map ψ) ↔ UniqueFit (lift N1 N2 A) xs ys := by
  have z : lift N1 N2 ⟨V3.zero, V3.zero, V3.zero⟩ = ⟨V3.zero, V3.zero, V3.zero⟩ := by
    apply M3.ext <;> apply V3.ext <;> simp [lift, M3.mul, M3.transpose, M3.mulVec, V3.dot, V3.zero]
  unfold UniqueFit
  refine and_congr (not_congr ⟨fun h => ?_, fun h => ?_⟩) ⟨fun h F => ?_, fun h F => ?_⟩
  · rw [h, z]
  · rw [← z] at h
    exact lift_injective d1.ne' d2.ne' h
  · obtain ⟨G, rfl⟩ := lift_surjective d1.ne' d2.ne' F
    rw [fitsAll_lift h1 h2, h]
    simp only [← lift_combine]
    exact ⟨fun ⟨a, e⟩ => ⟨a, by rw [e]⟩, fun ⟨a, e⟩ => ⟨a, lift_injective d1.ne' d2.ne' e⟩⟩
  · rw [← fitsAll_lift h1 h2, h]
    simp only [← lift_combine]
    exact ⟨fun ⟨a, e⟩ => ⟨a, lift_injective d1.ne' d2.ne' e⟩, fun ⟨a, e⟩ => ⟨a, by rw [e]⟩⟩

private theorem eight_ok {kernel : Kernel 9} {last : List (Fin 9 → ℝ) → Fin 9 → ℝ} {svd : M3 ℝ → M3 ℝ × V3 ℝ × M3 ℝ}
    {xs ys : List (ℝ × ℝ)} (hlen : xs.length = ys.length) (h8 : 8 ≤ xs.length) {r1 r2} (h1 : normalizePoints xs = .ok r1)
    (h2 : normalizePoints ys = .ok r2) : eightPoint kernel last svd xs ys =
      .ok ((eightVector kernel last (List.zipWith eightRow r1.1 r2.1)).map fun f =>
        lift r1.2 r2.2 (((svd (ofColumns f).transpose).1.mul ⟨⟨(svd (ofColumns f).transpose).2.1.x, 0, 0⟩,
          ⟨0, (svd (ofColumns f).transpose).2.1.y, 0⟩, ⟨0, 0, 0⟩⟩).mul (svd (ofColumns f).transpose).2.2.transpose)) := by
  unfold eightPoint
  rw [if_neg (by omega), h1, h2]
  show (match eightVector kernel last (List.zipWith eightRow r1.1 r2.1) with | none => _ | some f => _) = _
  cases eightVector kernel last (List.zipWith eightRow r1.1 r2.1) <;> rfl

/-- C78: for eight or more pairs of points, not all the same in an image, the result is the fundamental matrix whose normalised form
is a singular matrix nearest to one with the least sum of squared residuals among those of its norm. Nothing is found exactly if
there are eight pairs and the matrices that satisfy the constraints are not the multiples of one. -/
theorem C78_eight_point {kernel : Kernel 9} (hk : KernelSolver kernel) {last : List (Fin 9 → ℝ) → Fin 9 → ℝ}
    (hl : LastSingularVector last) {svd : M3 ℝ → M3 ℝ × V3 ℝ × M3 ℝ} (hs : SvdSolver svd) (xs ys : List (ℝ × ℝ))
    (hlen : xs.length = ys.length) (h8 : 8 ≤ xs.length) (hx' : ∃ p ∈ xs, ∃ q ∈ xs, p ≠ q) (hy' : ∃ p ∈ ys, ∃ q ∈ ys, p ≠ q) :
    ∃ out, eightPoint kernel last svd xs ys = .ok out ∧ (out = none ↔ xs.length = 8 ∧ ¬ ∃ A, UniqueFit A xs ys) ∧
      ∀ F, out = some F → F.det = 0 ∧ ∃ xs' N1 ys' N2 G Q, normalizePoints xs = .ok (xs', N1) ∧ normalizePoints ys = .ok (ys', N2) ∧
        F = (N2.transpose.mul Q).mul N1 ∧ NearestSingular G Q ∧ G ≠ ⟨V3.zero, V3.zero, V3.zero⟩ ∧
        ∀ H, entriesSq H = entriesSq G → epipolarError G xs' ys' ≤ epipolarError H xs' ys' := by
  obtain ⟨r1, hr1⟩ := (C59_normalize_defined xs).2 hx'
  obtain ⟨r2, hr2⟩ := (C59_normalize_defined ys).2 hy'
  obtain ⟨φ, e1, d1, h1⟩ := normalized_points hr1
  obtain ⟨ψ, e2, d2, h2⟩ := normalized_points hr2
  obtain ⟨k1, k2⟩ := eightVector_spec hk hl r1.1 r2.1
  refine ⟨_, eight_ok hlen h8 hr1 hr2, ?_, fun F hF => ?_⟩
  · rw [Option.map_eq_none_iff, k1, e1, e2]
    refine and_congr ?_ (not_congr ⟨?_, ?_⟩)
    · simp
      omega
    · rintro ⟨A, hA⟩
      exact ⟨_, (uniqueFit_lift d1 d2 h1 h2 xs ys A).1 hA⟩
    · rintro ⟨A, hA⟩
      obtain ⟨A, rfl⟩ := lift_surjective d1.ne' d2.ne' A
      exact ⟨_, (uniqueFit_lift d1 d2 h1 h2 xs ys A).2 hA⟩
  · obtain ⟨f, hf, rfl⟩ := Option.map_eq_some_iff.1 hF
    obtain ⟨hf0, hmin, -⟩ := k2 f hf
    have hn := nearest_singular (hs (ofColumns f).transpose)
    refine ⟨by rw [det_lift, hn.1, mul_zero], r1.1, r1.2, r2.1, r2.2, _, _, hr1, hr2, rfl, hn, fun h => hf0 ?_, hmin⟩
    have := congrArg (fun F : M3 ℝ => columns F.transpose) h
    rw [M3.transpose_transpose, columns_ofColumns] at this
    rw [this]
    funext i
    fin_cases i <;> rfl

/-- C78: if the matrices that satisfy the constraints are the multiples of one singular matrix, a multiple of it is returned. -/
theorem C78_eight_point_exact {kernel : Kernel 9} (hk : KernelSolver kernel) {last : List (Fin 9 → ℝ) → Fin 9 → ℝ}
    (hl : LastSingularVector last) {svd : M3 ℝ → M3 ℝ × V3 ℝ × M3 ℝ} (hs : SvdSolver svd) (xs ys : List (ℝ × ℝ))
    (hlen : xs.length = ys.length) (h8 : 8 ≤ xs.length) (hx' : ∃ p ∈ xs, ∃ q ∈ xs, p ≠ q) (hy' : ∃ p ∈ ys, ∃ q ∈ ys, p ≠ q)
    (A : M3 ℝ) (hA : UniqueFit A xs ys) (hd : A.det = 0) :
    ∃ c, c ≠ 0 ∧ eightPoint kernel last svd xs ys = .ok (some (combine c A 0 A)) := by
  obtain ⟨r1, hr1⟩ := (C59_normalize_defined xs).2 hx'
  obtain ⟨r2, hr2⟩ := (C59_normalize_defined ys).2 hy'
  obtain ⟨φ, e1, d1, h1⟩ := normalized_points hr1
  obtain ⟨ψ, e2, d2, h2⟩ := normalized_points hr2
  obtain ⟨k1, k2⟩ := eightVector_spec hk hl r1.1 r2.1
  obtain ⟨A, rfl⟩ := lift_surjective d1.ne' d2.ne' A
  have hA' : UniqueFit A r1.1 r2.1 := by
    rw [e1, e2]
    exact (uniqueFit_lift d1 d2 h1 h2 xs ys A).2 hA
  cases hf : eightVector kernel last (List.zipWith eightRow r1.1 r2.1) with
  | none => exact absurd ⟨A, hA'⟩ (k1.1 hf).2
  | some f =>
    obtain ⟨hf0, -, hfit⟩ := k2 f hf
    obtain ⟨a, ha⟩ := (hA'.2 _).1 (hfit ⟨A, hA'⟩)
    have hdet : A.det = 0 := by
      rw [det_lift] at hd
      exact (mul_eq_zero.1 hd).resolve_left (mul_pos d1 d2).ne'
    have hd' : (ofColumns f).transpose.det = 0 := by
      rw [ha]
      have : (combine a A 0 A).det = a ^ 3 * A.det := by
        simp only [combine, M3.det, V3.dot, V3.cross, V3.add, V3.smul]
        ring
      rw [this, hdet, mul_zero]
    have hn := nearest_of_singular (nearest_singular (hs (ofColumns f).transpose)) hd'
    refine ⟨a, ?_, ?_⟩
    · rintro rfl
      apply hf0
      have := congrArg (fun F : M3 ℝ => columns F.transpose) ha
      rw [M3.transpose_transpose, columns_ofColumns, transpose_combine, combine_zero, zero_smul] at this
      exact this
    · rw [eight_ok hlen h8 hr1 hr2, hf, Option.map_some, hn, ha, lift_combine]

/-- C78: fewer than eight points, or lists of different lengths, end the program; so does, undefined, an image with a single point. -/
theorem C78_undefined (kernel : Kernel 9) (last : List (Fin 9 → ℝ) → Fin 9 → ℝ) (svd : M3 ℝ → M3 ℝ × V3 ℝ × M3 ℝ)
    (xs ys : List (ℝ × ℝ)) :
    (eightPoint kernel last svd xs ys = .abort ↔ xs.length < 8 ∨ xs.length ≠ ys.length) ∧
    (eightPoint kernel last svd xs ys = .ub ↔ 8 ≤ xs.length ∧ xs.length = ys.length ∧
      ((∀ p ∈ xs, ∀ q ∈ xs, p = q) ∨ ∀ p ∈ ys, ∀ q ∈ ys, p = q)) := by
  by_cases hc : xs.length = ys.length ∧ 8 ≤ xs.length
  · rw [← normalize_ub, ← normalize_ub]
    rcases normalize_total xs with ⟨r1, h1⟩ | h1
    · rcases normalize_total ys with ⟨r2, h2⟩ | h2
      · rw [eight_ok hc.1 hc.2 h1 h2, h1, h2]
        refine ⟨⟨fun h => (nomatch h), fun h => by omega⟩, ⟨fun h => (nomatch h), fun h => ?_⟩⟩
        rcases h.2.2 with h | h <;> cases h
      · have : eightPoint kernel last svd xs ys = .ub := by
          unfold eightPoint
          rw [if_neg (by omega), h1, h2]
          rfl
        rw [this, h2]
        exact ⟨⟨fun h => (nomatch h), fun h => by omega⟩, ⟨fun _ => ⟨hc.2, hc.1, .inr rfl⟩, fun _ => rfl⟩⟩
    · have : eightPoint kernel last svd xs ys = .ub := by
        unfold eightPoint
        rw [if_neg (by omega), h1]
        rfl
      rw [this, h1]
      exact ⟨⟨fun h => (nomatch h), fun h => by omega⟩, ⟨fun _ => ⟨hc.2, hc.1, .inl rfl⟩, fun _ => rfl⟩⟩
  · have : eightPoint kernel last svd xs ys = .abort := by
      unfold eightPoint
      rw [if_pos (by omega)]
    rw [this]
    exact ⟨⟨fun _ => by omega, fun _ => rfl⟩, ⟨fun h => (nomatch h), fun h => by omega⟩⟩

/-- Pairs of points with a single fundamental matrix, that of a translation along the rows. -/
private def xs8 : List (ℝ × ℝ) := [(0, 0), (1, 0), (0, 0), (1, 0), (0, 1), (0, -1), (1, 1), (0, 1)]

private def ys8 : List (ℝ × ℝ) := [(0, 0), (0, 0), (1, 0), (1, 0), (0, 1), (0, -1), (0, 1), (1, 1)]

/-- The hypotheses of `C78_eight_point` and of `C78_eight_point_exact` hold for these points. -/
example : (∃ kernel : Kernel 9, KernelSolver kernel) ∧ (∃ last : List (Fin 9 → ℝ) → Fin 9 → ℝ, LastSingularVector last) ∧
    (∃ svd, SvdSolver svd) ∧ xs8.length = ys8.length ∧ 8 ≤ xs8.length ∧ (∃ p ∈ xs8, ∃ q ∈ xs8, p ≠ q) ∧
    (∃ p ∈ ys8, ∃ q ∈ ys8, p ≠ q) ∧ UniqueFit ⟨⟨0, 0, 0⟩, ⟨0, 0, -1⟩, ⟨0, 1, 0⟩⟩ xs8 ys8 ∧
    (⟨⟨0, 0, 0⟩, ⟨0, 0, -1⟩, ⟨0, 1, 0⟩⟩ : M3 ℝ).det = 0 := by
  refine ⟨exists_kernelSolver 9, exists_last (by norm_num), exists_svdSolver, rfl, by simp [xs8],
    ⟨(0, 0), by simp [xs8], (1, 0), by simp [xs8], by norm_num⟩, ⟨(0, 0), by simp [ys8], (1, 0), by simp [ys8], by norm_num⟩,
    ⟨fun h => ?_, fun F => ?_⟩, by simp [M3.det, V3.dot, V3.cross]⟩
  · have := congrArg (fun m : M3 ℝ => m.r3.y) h
    simp [V3.zero] at this
  · obtain ⟨⟨a, b, c⟩, ⟨d, e, f⟩, ⟨g, h, i⟩⟩ := F
    simp only [FitsAll, xs8, ys8, List.zip_cons_cons, List.zip_nil_right, List.forall_mem_cons, epipolarResidual, M3.mulVec, V3.dot,
      combine, V3.smul, V3.add, M3.mk.injEq, V3.mk.injEq]
    constructor
    · rintro ⟨h1, h2, h3, h4, h5, h6, h7, h8, -⟩
      refine ⟨h, ⟨?_, ?_, ?_⟩, ⟨?_, ?_, ?_⟩, ?_, ?_, ?_⟩ <;> linarith
    · rintro ⟨t, ⟨h1, h2, h3⟩, ⟨h4, h5, h6⟩, h7, h8, h9⟩
      refine ⟨?_, ?_, ?_, ?_, ?_, ?_, ?_, ?_, by simp⟩ <;> rw [h1, h2, h3, h4, h5, h6, h7, h8, h9] <;> ring

end Theia
