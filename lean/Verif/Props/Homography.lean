import Verif.Proof.SingularFit

/-!
# C79: the four point homography
-/

namespace Theia

open Spec LinearSolvers
open Triangulation (homog)
open PoseUtil (normalizePoints C59_normalize_defined)

private theorem imageSq_action (v : Fin 9 → ℝ) (xs ys : List (ℝ × ℝ)) :
    imageSq (List.zipWith actionRows xs ys).flatten v = transferError (ofColumns v).transpose xs ys := by
  unfold imageSq transferError
  induction xs generalizing ys with
  | nil => simp
  | cons x xs ih =>
    cases ys with
    | nil => simp
    | cons y ys =>
      simp only [List.zipWith_cons_cons, List.flatten_cons, List.map_append, List.sum_append, List.zip_cons_cons, List.map_cons,
        List.sum_cons]
      rw [ih]
      congr 1
      simp [actionRows, Fin.sum_univ_succ, ofColumns, M3.transpose, M3.mulVec, V3.dot, V3.cross, Fin.succ]
      ring

private theorem entriesSq_pos {A : M3 ℝ} (hA : A ≠ ⟨V3.zero, V3.zero, V3.zero⟩) : 0 < entriesSq A := by
  unfold entriesSq
  by_contra hn
  have h1 := V3.self_nonneg A.r1
  have h2 := V3.self_nonneg A.r2
  have h3 := V3.self_nonneg A.r3
  exact hA (M3.ext (V3.self_eq_zero (by linarith)) (V3.self_eq_zero (by linarith)) (V3.self_eq_zero (by linarith)))

private theorem sends_iff (H : M3 ℝ) (x y : ℝ × ℝ) : SendsTo H x y ↔ ((H.mulVec ⟨x.1, x.2, 1⟩).cross ⟨y.1, y.2, 1⟩).x = 0 ∧
    ((H.mulVec ⟨x.1, x.2, 1⟩).cross ⟨y.1, y.2, 1⟩).y = 0 := by
  unfold SendsTo
  generalize H.mulVec ⟨x.1, x.2, 1⟩ = v
  obtain ⟨a, b, c⟩ := v
  simp only [V3.cross, V3.smul, V3.mk.injEq]
  constructor
  · rintro ⟨l, h1, h2, h3⟩
    constructor
    · rw [h2, h3]; ring
    · rw [h1, h3]; ring
  · rintro ⟨h1, h2⟩
    exact ⟨c, by linarith, by linarith, by ring⟩

private theorem transferError_nonneg (H : M3 ℝ) (xs ys : List (ℝ × ℝ)) : 0 ≤ transferError H xs ys := by
  unfold transferError
  refine List.sum_nonneg fun x hx => ?_
  obtain ⟨p, -, rfl⟩ := List.mem_map.1 hx
  positivity

private theorem transferError_eq_zero (H : M3 ℝ) (xs ys : List (ℝ × ℝ)) :
    transferError H xs ys = 0 ↔ ∀ p ∈ xs.zip ys, SendsTo H p.1 p.2 := by
  unfold transferError
  generalize xs.zip ys = l
  simp only [sends_iff]
  constructor
  · intro h p hp
    have h0 : ∀ x ∈ l.map fun p : (ℝ × ℝ) × (ℝ × ℝ) => ((H.mulVec ⟨p.1.1, p.1.2, 1⟩).cross ⟨p.2.1, p.2.2, 1⟩).x ^ 2 +
        ((H.mulVec ⟨p.1.1, p.1.2, 1⟩).cross ⟨p.2.1, p.2.2, 1⟩).y ^ 2, 0 ≤ x := by
      intro x hx
      obtain ⟨q, -, rfl⟩ := List.mem_map.1 hx
      positivity
    have := List.all_zero_of_le_zero_le_of_sum_eq_zero h0 h (List.mem_map.2 ⟨p, hp, rfl⟩)
    constructor
    · nlinarith [sq_nonneg ((H.mulVec ⟨p.1.1, p.1.2, 1⟩).cross ⟨p.2.1, p.2.2, 1⟩).x,
        sq_nonneg ((H.mulVec ⟨p.1.1, p.1.2, 1⟩).cross ⟨p.2.1, p.2.2, 1⟩).y]
    · nlinarith [sq_nonneg ((H.mulVec ⟨p.1.1, p.1.2, 1⟩).cross ⟨p.2.1, p.2.2, 1⟩).x,
        sq_nonneg ((H.mulVec ⟨p.1.1, p.1.2, 1⟩).cross ⟨p.2.1, p.2.2, 1⟩).y]
  · intro h
    refine List.sum_eq_zero fun x hx => ?_
    obtain ⟨p, hp, rfl⟩ := List.mem_map.1 hx
    rw [(h p hp).1, (h p hp).2]
    ring

/-- C79: for four or more pairs of points, not all the same in an image, the result is the matrix whose normalised form has the
least algebraic transfer error of all the matrices of norm one. -/
theorem C79_least {last : List (Fin 9 → ℝ) → Fin 9 → ℝ} (hl : LastSingularVector last) (xs ys : List (ℝ × ℝ))
    (hlen : xs.length = ys.length) (h4 : 4 ≤ xs.length) (hx' : ∃ p ∈ xs, ∃ q ∈ xs, p ≠ q) (hy' : ∃ p ∈ ys, ∃ q ∈ ys, p ≠ q) :
    ∃ H xs' N1 ys' N2 G, homography last xs ys = .ok H ∧ normalizePoints xs = .ok (xs', N1) ∧ normalizePoints ys = .ok (ys', N2) ∧
      N2.mul H = G.mul N1 ∧ entriesSq G = 1 ∧ ∀ G', entriesSq G' = 1 → transferError G xs' ys' ≤ transferError G' xs' ys' := by
  obtain ⟨r1, hr1⟩ := (C59_normalize_defined xs).2 hx'
  obtain ⟨r2, hr2⟩ := (C59_normalize_defined ys).2 hy'
  obtain ⟨φ, e1, d1, h1⟩ := normalized_points hr1
  obtain ⟨ψ, e2, d2, h2⟩ := normalized_points hr2
  have hL := hl (gram (List.zipWith actionRows r1.1 r2.1).flatten)
  refine ⟨((inverse r2.2).mul (ofColumns (last (gram (List.zipWith actionRows r1.1 r2.1).flatten))).transpose).mul r1.2,
    r1.1, r1.2, r2.1, r2.2, (ofColumns (last (gram (List.zipWith actionRows r1.1 r2.1).flatten))).transpose, ?_, hr1, hr2, ?_, ?_, ?_⟩
  · unfold homography
    rw [if_neg (by omega), hr1, hr2]
    rfl
  · rw [M3.mul_assoc, ← M3.mul_assoc, mul_inverse d2.ne', M3.one_mul]
  · rw [entriesSq_ofColumns, hL.1]
  · intro G' hG'
    rw [← imageSq_action, ← columns_transpose G', ← imageSq_action]
    refine gram_min hL.1 hL.2 _ ?_
    rw [← entriesSq_ofColumns, columns_transpose, hG']

/-- C79: fewer than four points, or lists of different lengths, end the program; so does, undefined, an image with a single point. -/
theorem C79_undefined (last : List (Fin 9 → ℝ) → Fin 9 → ℝ) (xs ys : List (ℝ × ℝ)) :
    (homography last xs ys = .abort ↔ xs.length < 4 ∨ xs.length ≠ ys.length) ∧
    (homography last xs ys = .ub ↔ 4 ≤ xs.length ∧ xs.length = ys.length ∧
      ((∀ p ∈ xs, ∀ q ∈ xs, p = q) ∨ ∀ p ∈ ys, ∀ q ∈ ys, p = q)) := by
  by_cases hc : xs.length < 4 ∨ xs.length ≠ ys.length
  · have : homography last xs ys = .abort := by
      unfold homography
      rw [if_pos hc]
    rw [this]
    refine ⟨⟨fun _ => hc, fun _ => rfl⟩, ⟨fun h => (nomatch h), fun h => ?_⟩⟩
    omega
  · rw [← normalize_ub, ← normalize_ub]
    unfold homography
    rw [if_neg hc]
    have hc' : 4 ≤ xs.length ∧ xs.length = ys.length := by omega
    rcases normalize_total xs with ⟨r1, h1⟩ | h1
    · rcases normalize_total ys with ⟨r2, h2⟩ | h2
      · rw [h1, h2]
        refine ⟨⟨fun h => (nomatch h), fun h => absurd h hc⟩, ⟨fun h => (nomatch h), fun h => ?_⟩⟩
        rcases h.2.2 with h | h <;> cases h
      · rw [h1, h2]
        exact ⟨⟨fun h => (nomatch h), fun h => absurd h hc⟩, ⟨fun _ => ⟨hc'.1, hc'.2, .inr rfl⟩, fun _ => rfl⟩⟩
    · rw [h1]
      exact ⟨⟨fun h => (nomatch h), fun h => absurd h hc⟩, ⟨fun _ => ⟨hc'.1, hc'.2, .inl rfl⟩, fun _ => rfl⟩⟩

private theorem triple_ne {a b c : ℝ × ℝ} (h : ¬ ThreeOnLine a b c) : (homog a).dot ((homog b).cross (homog c)) ≠ 0 := by
  intro h0
  apply h
  simp only [homog, V3.dot, V3.cross] at h0
  unfold ThreeOnLine
  linarith

private theorem smul_matrix_mulVec (M : M3 ℝ) (c : ℝ) (v : V3 ℝ) : (combine c M 0 M).mulVec v = (M.mulVec v).smul c := by
  apply V3.ext <;> simp only [combine, M3.mulVec, V3.dot, V3.add, V3.smul] <;> ring

/-- A matrix that multiplies three independent vectors by the same factor is a multiple of the identity. -/
private theorem scalar_of_three {M : M3 ℝ} {a b c : V3 ℝ} {l : ℝ} (ha : M.mulVec a = a.smul l) (hb : M.mulVec b = b.smul l)
    (hc : M.mulVec c = c.smul l) (h : a.dot (b.cross c) ≠ 0) (v : V3 ℝ) : M.mulVec v = v.smul l := by
  have cr : v.smul (a.dot (b.cross c)) =
      ((a.smul (v.dot (b.cross c))).add (b.smul (a.dot (v.cross c)))).add (c.smul (a.dot (b.cross v))) := by
    apply V3.ext <;> simp only [V3.smul, V3.add, V3.dot, V3.cross] <;> ring
  have e := congrArg M.mulVec cr
  rw [M3.mulVec_add, M3.mulVec_add, M3.mulVec_smul, M3.mulVec_smul, M3.mulVec_smul, M3.mulVec_smul, ha, hb, hc] at e
  have e' : (M.mulVec v).smul (a.dot (b.cross c)) = (v.smul (a.dot (b.cross c))).smul l := by
    rw [e, cr]
    apply V3.ext <;> simp only [V3.smul, V3.add] <;> ring
  have e'' : ((M.mulVec v).sub (v.smul l)).smul (a.dot (b.cross c)) = V3.zero := by
    have h1 := congrArg V3.x e'
    have h2 := congrArg V3.y e'
    have h3 := congrArg V3.z e'
    simp only [V3.smul] at h1 h2 h3
    apply V3.ext <;> simp only [V3.smul, V3.sub, V3.zero]
    · linear_combination h1
    · linear_combination h2
    · linear_combination h3
  exact V3.sub_eq_zero (V3.eq_zero_of_smul h e'')

private theorem ext_mulVec {A B : M3 ℝ} (h : ∀ v, A.mulVec v = B.mulVec v) : A = B := by
  have h1 := h ⟨1, 0, 0⟩
  have h2 := h ⟨0, 1, 0⟩
  have h3 := h ⟨0, 0, 1⟩
  simp [M3.mulVec, V3.dot] at h1 h2 h3
  exact M3.ext (V3.ext h1.1 h2.1 h3.1) (V3.ext h1.2.1 h2.2.1 h3.2.1) (V3.ext h1.2.2 h2.2.2 h3.2.2)

private theorem eq_of_multiples {H : M3 ℝ} (hd : H.det ≠ 0) {a b y : ℝ × ℝ} (ha : SendsTo H a y) (hb : SendsTo H b y) : a = b := by
  obtain ⟨l, hl⟩ := ha
  obtain ⟨m, hm⟩ := hb
  have inj : ∀ u v : V3 ℝ, H.mulVec u = H.mulVec v → u = v := by
    intro u v e
    have := congrArg (inverse H).mulVec e
    rwa [← M3.mulVec_mul, ← M3.mulVec_mul, inverse_mul hd, M3.one_mulVec, M3.one_mulVec] at this
  have e : (homog a).smul m = (homog b).smul l := by
    apply inj
    rw [M3.mulVec_smul, M3.mulVec_smul]
    show (H.mulVec ⟨a.1, a.2, 1⟩).smul m = (H.mulVec ⟨b.1, b.2, 1⟩).smul l
    rw [hl, hm, V3.smul_smul, V3.smul_smul, mul_comm]
  simp only [homog, V3.smul, V3.mk.injEq] at e
  obtain ⟨e1, e2, e3⟩ := e
  have hl0 : l ≠ 0 := by
    rintro rfl
    rw [V3.zero_smul'] at hl
    have := inj _ V3.zero (hl.trans (by simp [M3.mulVec, V3.dot, V3.zero]))
    have := congrArg V3.z this
    simp [V3.zero] at this
  have hml : m = l := by linarith
  subst hml
  have : a.1 = b.1 := mul_left_cancel₀ hl0 (by linarith)
  have : a.2 = b.2 := mul_left_cancel₀ hl0 (by linarith)
  exact Prod.ext ‹_› ‹_›

/-- C79: if an invertible matrix sends all the points of the first image to those of the second, and four points of the first are such
that no three are on a line, the result is a multiple of that matrix. -/
theorem C79_exact {last : List (Fin 9 → ℝ) → Fin 9 → ℝ} (hl : LastSingularVector last) (xs ys : List (ℝ × ℝ))
    (hlen : xs.length = ys.length) (h4 : 4 ≤ xs.length) (H0 : M3 ℝ) (hd : H0.det ≠ 0)
    (hs : ∀ p ∈ xs.zip ys, SendsTo H0 p.1 p.2) (a b c d : ℝ × ℝ) (ha : a ∈ xs) (hb : b ∈ xs) (hc : c ∈ xs) (hdd : d ∈ xs)
    (hg : GeneralPosition a b c d) : ∃ k, k ≠ 0 ∧ homography last xs ys = .ok (combine k H0 0 H0) := by
  obtain ⟨g1, g2, g3, g4⟩ := hg
  have hab : a ≠ b := by
    rintro rfl
    exact g1 (by simp [ThreeOnLine])
  have pair : ∀ p ∈ xs, ∃ q, (p, q) ∈ xs.zip ys := by
    intro p hp
    obtain ⟨n, hn, rfl⟩ := List.mem_iff_getElem.1 hp
    exact ⟨ys[n]'(by omega), List.mem_iff_getElem.2 ⟨n, by simp; omega, by simp⟩⟩
  obtain ⟨qa, pa⟩ := pair a ha
  obtain ⟨qb, pb⟩ := pair b hb
  obtain ⟨qc, pc⟩ := pair c hc
  obtain ⟨qd, pd⟩ := pair d hdd
  have hq : qa ≠ qb := by
    rintro rfl
    exact hab (eq_of_multiples hd (hs _ pa) (hs _ pb))
  obtain ⟨H, xs', N1, ys', N2, G, hH, hr1, hr2, hN, hG, hmin⟩ := C79_least hl xs ys hlen h4 ⟨a, ha, b, hb, hab⟩
    ⟨qa, (List.of_mem_zip pa).2, qb, (List.of_mem_zip pb).2, hq⟩
  obtain ⟨φ, e1, d1, h1⟩ := normalized_points hr1
  obtain ⟨ψ, e2, d2, h2⟩ := normalized_points hr2
  dsimp only at e1 e2 d1 d2 h1 h2
  -- the normalised form of the given matrix
  have hG0 : (N2.mul H0).mul (inverse N1) ≠ ⟨V3.zero, V3.zero, V3.zero⟩ := by
    intro h
    have h := congrArg M3.det h
    have hi : (inverse N1).det ≠ 0 := by
      intro h0
      have := congrArg M3.det (mul_inverse d1.ne')
      rw [M3.det_mul, h0, mul_zero, M3.det_one] at this
      norm_num at this
    rw [M3.det_mul, M3.det_mul] at h
    exact mul_ne_zero (mul_ne_zero d2.ne' hd) hi (h.trans (by simp [M3.det, V3.dot, V3.cross, V3.zero]))
  have hpos := entriesSq_pos hG0
  have hsends : ∀ p ∈ xs'.zip ys', SendsTo ((N2.mul H0).mul (inverse N1)) p.1 p.2 := by
    rw [e1, e2, List.zip_map]
    intro pq hpq
    obtain ⟨p, hp, rfl⟩ := List.mem_map.1 hpq
    obtain ⟨l, hl⟩ := hs p hp
    refine ⟨l, ?_⟩
    show ((N2.mul H0).mul (inverse N1)).mulVec (homog (φ p.1)) = (homog (ψ p.2)).smul l
    rw [← h1, ← h2, ← M3.mulVec_mul, M3.mul_assoc, inverse_mul d1.ne', M3.mul_one, M3.mulVec_mul, ← M3.mulVec_smul]
    exact congrArg N2.mulVec hl
  -- so the least error is zero
  have hz : transferError G xs' ys' = 0 := by
    refine le_antisymm ?_ (transferError_nonneg _ _ _)
    generalize (N2.mul H0).mul (inverse N1) = G0 at *
    have hsq := Real.mul_self_sqrt hpos.le
    have hs0 : Real.sqrt (entriesSq G0) ≠ 0 := by
      intro h0
      rw [h0, zero_mul] at hsq
      linarith
    refine (hmin (combine (Real.sqrt (entriesSq G0))⁻¹ G0 0 G0) ?_).trans (le_of_eq ?_)
    · have : entriesSq (combine (Real.sqrt (entriesSq G0))⁻¹ G0 0 G0) =
          entriesSq G0 * (Real.sqrt (entriesSq G0) * Real.sqrt (entriesSq G0))⁻¹ := by
        rw [mul_inv]
        generalize Real.sqrt (entriesSq G0) = s
        simp only [entriesSq, combine, V3.dot, V3.add, V3.smul]
        ring
      rw [this, hsq, mul_inv_cancel₀ hpos.ne']
    · rw [transferError_eq_zero]
      intro p hp
      obtain ⟨l, hl⟩ := hsends p hp
      refine ⟨(Real.sqrt (entriesSq G0))⁻¹ * l, ?_⟩
      rw [smul_matrix_mulVec, hl, V3.smul_smul]
  rw [transferError_eq_zero] at hz
  -- and the result sends the points to each other
  have hHs : ∀ p ∈ xs.zip ys, SendsTo H p.1 p.2 := by
    intro p hp
    obtain ⟨l, hl⟩ := hz (φ p.1, ψ p.2) (by rw [e1, e2, List.zip_map]; exact List.mem_map.2 ⟨p, hp, rfl⟩)
    refine ⟨l, ?_⟩
    have e : N2.mulVec (H.mulVec (homog p.1)) = N2.mulVec ((homog p.2).smul l) := by
      rw [← M3.mulVec_mul, hN, M3.mulVec_mul, h1, M3.mulVec_smul, h2]
      exact hl
    have := congrArg (inverse N2).mulVec e
    rwa [← M3.mulVec_mul (inverse N2) N2, ← M3.mulVec_mul (inverse N2) N2, inverse_mul d2.ne', M3.one_mulVec, M3.one_mulVec] at this
  have heig : ∀ p q, (p, q) ∈ xs.zip ys → ∃ m, ((inverse H0).mul H).mulVec (homog p) = (homog p).smul m := by
    intro p q hp
    obtain ⟨l, hl⟩ := hs _ hp
    obtain ⟨m, hm⟩ := hHs _ hp
    dsimp only at hl hm
    have hl' : homog p = ((inverse H0).mulVec (homog q)).smul l := by
      rw [← M3.mulVec_smul]
      have := congrArg (inverse H0).mulVec hl
      rw [← M3.mulVec_mul, inverse_mul hd, M3.one_mulVec] at this
      exact this
    have hl0 : l ≠ 0 := by
      rintro rfl
      have := congrArg V3.z hl'
      simp [homog, V3.smul] at this
    refine ⟨m * l⁻¹, ?_⟩
    have hm' : H.mulVec (homog p) = (homog q).smul m := hm
    rw [M3.mulVec_mul, hm', M3.mulVec_smul, hl', V3.smul_smul, mul_assoc, inv_mul_cancel₀ hl0, mul_one]
  obtain ⟨i, ea⟩ := heig _ _ pa
  obtain ⟨j, eb⟩ := heig _ _ pb
  obtain ⟨k, ec⟩ := heig _ _ pc
  obtain ⟨l, ed⟩ := heig _ _ pd
  have t1 := triple_ne g1
  have t2 := triple_ne g2
  have t3 := triple_ne g3
  have t4 := triple_ne g4
  obtain ⟨ei, ej, ek⟩ := scalar_of_four ea eb ec ed t1 (fun h => t4 (by simp only [homog, V3.dot, V3.cross] at h ⊢; linarith))
    (fun h => t3 (by simp only [homog, V3.dot, V3.cross] at h ⊢; linarith)) t2
  rw [ei] at ea
  rw [ej] at eb
  rw [ek] at ec
  have hM := scalar_of_three ea eb ec t1
  have hHe : H = combine l H0 0 H0 := by
    apply ext_mulVec
    intro v
    rw [smul_matrix_mulVec, ← M3.mulVec_smul, ← hM v, ← M3.mulVec_mul, ← M3.mul_assoc, mul_inverse hd, M3.one_mul]
  refine ⟨l, ?_, by rw [hH, hHe]⟩
  rintro rfl
  have hG0 : G = ⟨V3.zero, V3.zero, V3.zero⟩ := by
    have e : G = (N2.mul H).mul (inverse N1) := by
      rw [hN, M3.mul_assoc, mul_inverse d1.ne', M3.mul_one]
    rw [e, hHe]
    apply M3.ext <;> apply V3.ext <;> simp [combine, M3.mul, M3.transpose, M3.mulVec, V3.dot, V3.smul, V3.add, V3.zero]
  rw [hG0] at hG
  simp [entriesSq, V3.dot, V3.zero] at hG

/-- The corners of a square. -/
private def square : List (ℝ × ℝ) := [(0, 0), (1, 0), (0, 1), (1, 1)]

/-- The hypotheses of `C79_least` and of `C79_exact` hold for a square and a projective map. -/
example : (∃ last : List (Fin 9 → ℝ) → Fin 9 → ℝ, LastSingularVector last) ∧ ∃ (H0 : M3 ℝ) (ys : List (ℝ × ℝ)),
    H0.det ≠ 0 ∧ square.length = ys.length ∧ 4 ≤ square.length ∧ (∀ p ∈ square.zip ys, SendsTo H0 p.1 p.2) ∧
    (∃ p ∈ square, ∃ q ∈ square, p ≠ q) ∧ (∃ p ∈ ys, ∃ q ∈ ys, p ≠ q) ∧ GeneralPosition (0, 0) (1, 0) (0, 1) (1, 1) := by
  refine ⟨exists_last (by norm_num), ⟨⟨1, 0, 2⟩, ⟨0, 1, 3⟩, ⟨1, 0, 1⟩⟩, [(2, 3), (3 / 2, 3 / 2), (2, 4), (3 / 2, 2)], ?_, rfl,
    by simp [square], ?_, ⟨(0, 0), by simp [square], (1, 0), by simp [square], by norm_num⟩, ⟨(2, 3), by simp, (2, 4), by simp, by norm_num⟩, ?_⟩
  · norm_num [M3.det, V3.dot, V3.cross]
  · simp only [square, List.zip_cons_cons, List.zip_nil_right, List.forall_mem_cons, SendsTo, M3.mulVec, V3.dot, V3.smul, V3.mk.injEq]
    exact ⟨⟨1, by norm_num⟩, ⟨2, by norm_num⟩, ⟨1, by norm_num⟩, ⟨2, by norm_num⟩, by simp⟩
  · norm_num [GeneralPosition, ThreeOnLine]

/-- Four points of a line. -/
private noncomputable def line : List (ℝ × ℝ) := [(-8 / 5, 0), (8 / 5, 0), (-6 / 5, 0), (6 / 5, 0)]

private def flat : Fin 9 → ℝ := ![0, 0, 0, 0, 1, 0, 0, 0, 0]

/-- C79: success is reported also for a singular matrix that sends every given point to the zero vector, which is not a point. This
can happen if the points are on a line. -/
theorem C79_degenerate_counterexample : ∃ last : List (Fin 9 → ℝ) → Fin 9 → ℝ, LastSingularVector last ∧
    ∃ (xs : List (ℝ × ℝ)) (H : M3 ℝ), xs.length = 4 ∧ xs.Nodup ∧ homography last xs xs = .ok H ∧ H.det = 0 ∧
      ∀ p ∈ xs, H.mulVec ⟨p.1, p.2, 1⟩ = V3.zero := by
  have hz : ∀ r ∈ (List.zipWith actionRows line line).flatten, ∑ i, r i * flat i = 0 := by
    rw [← imageSq_eq_zero, imageSq_action, transferError_eq_zero]
    simp [line, SendsTo, flat, ofColumns, M3.transpose, M3.mulVec, V3.dot, V3.smul]
  have hg : imageSq (gram (List.zipWith actionRows line line).flatten) flat = 0 := by
    rw [imageSq_eq_zero]
    intro r hr
    obtain ⟨i, rfl⟩ := (List.mem_ofFn' _ _).1 hr
    rw [gram_row]
    unfold gramMul
    refine List.sum_eq_zero fun x hx => ?_
    obtain ⟨r, hr, rfl⟩ := List.mem_map.1 hx
    rw [hz r hr, mul_zero]
  obtain ⟨last, hl, he⟩ := exists_last_with (by norm_num) (gram (List.zipWith actionRows line line).flatten) flat
    (by simp [flat, Fin.sum_univ_succ, Fin.succ]) (fun w _ => by rw [hg]; exact imageSq_nonneg _ _)
  have hn : normalizePoints line = .ok (line, M3.one) := by
    refine normalize_self (by simp [line]) ?_ ?_ ?_ <;> norm_num [line]
  refine ⟨last, hl, line, (ofColumns flat).transpose, rfl, ?_, ?_, ?_, ?_⟩
  · norm_num [line]
  · unfold homography
    rw [if_neg (by simp [line]), hn]
    show Outcome.ok (((inverse M3.one).mul (ofColumns (last (gram (List.zipWith actionRows line line).flatten))).transpose).mul M3.one) = _
    have h1 : inverse (M3.one : M3 ℝ) = M3.one := by
      have := mul_inverse (m := M3.one) (by rw [M3.det_one]; norm_num)
      rwa [M3.one_mul] at this
    rw [he, h1, M3.one_mul, M3.mul_one]
  · simp [flat, ofColumns, M3.transpose, M3.det, V3.dot, V3.cross]
  · simp [line, flat, ofColumns, M3.transpose, M3.mulVec, V3.dot, V3.zero]

end Theia
