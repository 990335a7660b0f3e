import Mathlib.Algebra.Order.Chebyshev
import Verif.Model.PoseUtil
import Verif.Spec.PoseUtil
import Verif.Props.ProjectionMatrix

/-!
# C59: rotations from matrices, normalised points and the Sampson distance
-/

namespace Theia
namespace PoseUtil

open Triangulation Spec EssentialMatrix ProjectionMatrix

/-! ## Projection to rotations -/

/-- The matrix returned is always a rotation. -/
theorem C59_project_rotation {svd : M3 ℝ → M3 ℝ × M3 ℝ} {m : M3 ℝ} (h : IsSvd m (svd m).1 (svd m).2) :
    (projectToRotation svd m).IsRotation :=
  projectToRotation_isRotation h.1 h.2.1

/-- A rotation is returned unchanged. -/
theorem C59_project_fixed {svd : M3 ℝ → M3 ℝ × M3 ℝ} {m : M3 ℝ} (h : IsSvd m (svd m).1 (svd m).2) (hm : m.IsRotation) :
    projectToRotation svd m = m :=
  projectToRotation_of_rotation h hm

/-- The sign of the determinant of a matrix is that of the product of its singular matrices. -/
theorem svd_det {m U V : M3 ℝ} (h : IsSvd m U V) :
    ∃ p, 0 ≤ p ∧ m.det = (U.mul V.transpose).det * p := by
  obtain ⟨-, -, s, h12, h23, h3, hm⟩ := h
  refine ⟨s.x * s.y * s.z, mul_nonneg (mul_nonneg (by linarith) (by linarith)) h3, ?_⟩
  rw [hm, M3.det_mul, M3.det_mul, M3.det_mul]
  have : (⟨⟨s.x, 0, 0⟩, ⟨0, s.y, 0⟩, ⟨0, 0, s.z⟩⟩ : M3 ℝ).det = s.x * s.y * s.z := by
    simp only [M3.det, V3.dot, V3.cross]; ring
  rw [this]; ring

/-- For a matrix with a positive determinant, the rotation returned is the nearest one in the Frobenius norm. -/
theorem C59_project_nearest_partial {svd : M3 ℝ → M3 ℝ × M3 ℝ} {m : M3 ℝ} (h : IsSvd m (svd m).1 (svd m).2) (hd : 0 < m.det) :
    NearestRotation m (projectToRotation svd m) := by
  refine ⟨C59_project_rotation h, fun q hq => ?_⟩
  obtain ⟨p, hp, he⟩ := svd_det h
  have hpos : 0 < ((svd m).1.mul (svd m).2.transpose).det := by
    by_contra hn
    have := mul_nonneg (neg_nonneg.2 (not_lt.1 hn)) hp
    linarith
  unfold projectToRotation
  simp only
  rw [if_neg (not_lt.2 hpos.le)]
  exact nearest_orthogonal h (isOrthogonal_of_isRotation hq)

/-- For a matrix with a negative determinant it is the farthest of all, and never the nearest, contrary to the header. -/
theorem C59_project_negative_counterexample {svd : M3 ℝ → M3 ℝ × M3 ℝ} {m : M3 ℝ} (h : IsSvd m (svd m).1 (svd m).2)
    (hd : m.det < 0) :
    (∀ q : M3 ℝ, q.IsRotation → frobeniusSq m q ≤ frobeniusSq m (projectToRotation svd m)) ∧
    ¬ NearestRotation m (projectToRotation svd m) := by
  obtain ⟨p, hp, he⟩ := svd_det h
  have hneg : ((svd m).1.mul (svd m).2.transpose).det < 0 := by
    by_contra hn
    have := mul_nonneg (not_lt.1 hn) hp
    linarith
  have hrot := C59_project_rotation h
  have hproj : projectToRotation svd m = scale (-1) ((svd m).1.mul (svd m).2.transpose) := by
    unfold projectToRotation
    simp only
    rw [if_pos hneg]
  have ho := isOrthogonal_mul h.1 (isOrthogonal_transpose h.2.1)
  have htr : ∀ a b : M3 ℝ, tr (a.mul (scale (-1) b)) = -tr (a.mul b) := by
    intro a b; simp only [tr, scale, M3.mul, M3.transpose, M3.mulVec, V3.dot, V3.smul]; ring
  have hfar : ∀ q : M3 ℝ, q.IsRotation → frobeniusSq m q ≤ frobeniusSq m (projectToRotation svd m) := by
    intro q hq
    -- the negative of `q` is orthogonal
    have hq' : IsOrthogonal (scale (-1) q) := by
      have := orth_neg_rows (isOrthogonal_of_isRotation hq) (a := -1) (b := -1) (c := -1) (by norm_num) (by norm_num)
        (by norm_num)
      exact this
    have hle := nearest_orthogonal h hq'
    rw [frobenius_eq ho, frobenius_eq hq', htr] at hle
    rw [frobenius_eq (isOrthogonal_of_isRotation hq), frobenius_eq (isOrthogonal_of_isRotation hrot), hproj, htr]
    linarith
  refine ⟨hfar, fun hn => ?_⟩
  -- turning two axes around changes the distance
  obtain ⟨hU, hV, s, h12, h23, h3, hm⟩ := h
  have hz : 0 < s.z := by
    refine lt_of_le_of_ne h3 fun h0 => ?_
    rw [hm, M3.det_mul, M3.det_mul] at hd
    have : (⟨⟨s.x, 0, 0⟩, ⟨0, s.y, 0⟩, ⟨0, 0, s.z⟩⟩ : M3 ℝ).det = 0 := by
      simp only [M3.det, V3.dot, V3.cross, ← h0]; ring
    rw [this] at hd
    simp at hd
  have hflip : (⟨⟨1, 0, 0⟩, ⟨0, 1, 0⟩, ⟨0, 0, -1⟩⟩ : M3 ℝ).det = -1 ∧
      IsOrthogonal (⟨⟨1, 0, 0⟩, ⟨0, 1, 0⟩, ⟨0, 0, -1⟩⟩ : M3 ℝ) := by
    refine ⟨by norm_num [M3.det, V3.dot, V3.cross], ?_, ?_⟩ <;> apply M3.ext <;> apply V3.ext <;>
      norm_num [M3.mul, M3.transpose, M3.mulVec, V3.dot, M3.one]
  have hq : ((svd m).1.mul ((⟨⟨1, 0, 0⟩, ⟨0, 1, 0⟩, ⟨0, 0, -1⟩⟩ : M3 ℝ).mul (svd m).2.transpose)).IsRotation := by
    have o := isOrthogonal_mul hU (isOrthogonal_mul hflip.2 (isOrthogonal_transpose hV))
    refine ⟨o.1, o.2, ?_⟩
    have hsq := det_sq ho
    rw [M3.det_mul] at hneg hsq
    rw [M3.det_mul, M3.det_mul, hflip.1]
    nlinarith
  have hle := hn.2 _ hq
  rw [frobenius_eq (isOrthogonal_of_isRotation hrot), frobenius_eq (isOrthogonal_of_isRotation hq), hproj, htr] at hle
  have key : ∀ d : M3 ℝ, tr (m.transpose.mul ((svd m).1.mul (d.mul (svd m).2.transpose))) =
      tr ((⟨⟨s.x, 0, 0⟩, ⟨0, s.y, 0⟩, ⟨0, 0, s.z⟩⟩ : M3 ℝ).mul d) := by
    intro d
    have e : m.transpose = (svd m).2.mul ((⟨⟨s.x, 0, 0⟩, ⟨0, s.y, 0⟩, ⟨0, 0, s.z⟩⟩ : M3 ℝ).mul (svd m).1.transpose) := by
      conv_lhs => rw [hm]
      rw [M3.transpose_mul, M3.transpose_mul]; rfl
    rw [e, M3.mul_assoc, tr_comm, M3.mul_assoc, M3.mul_assoc, M3.mul_assoc (svd m).1, ← M3.mul_assoc (svd m).1.transpose (svd m).1, hU.1, M3.one_mul,
      M3.mul_assoc, hV.1, M3.mul_one]
  have k1 := key M3.one
  have k2 := key ⟨⟨1, 0, 0⟩, ⟨0, 1, 0⟩, ⟨0, 0, -1⟩⟩
  rw [M3.one_mul] at k1
  rw [k1, k2] at hle
  simp only [tr, M3.mul, M3.transpose, M3.mulVec, V3.dot, M3.one] at hle
  linarith

/-- A decomposition of a reflection. -/
noncomputable def mirrorSvd : M3 ℝ → M3 ℝ × M3 ℝ := fun _ => (⟨⟨1, 0, 0⟩, ⟨0, 1, 0⟩, ⟨0, 0, -1⟩⟩, M3.one)

example : ∃ m : M3 ℝ, IsSvd m (mirrorSvd m).1 (mirrorSvd m).2 ∧ m.det < 0 ∧ projectToRotation mirrorSvd m =
    ⟨⟨-1, 0, 0⟩, ⟨0, -1, 0⟩, ⟨0, 0, 1⟩⟩ := by
  refine ⟨⟨⟨3, 0, 0⟩, ⟨0, 2, 0⟩, ⟨0, 0, -1⟩⟩, ?_, by norm_num [M3.det, V3.dot, V3.cross], ?_⟩
  · refine ⟨⟨?_, ?_⟩, ⟨?_, ?_⟩, ⟨3, 2, 1⟩, by norm_num, by norm_num, by norm_num, ?_⟩ <;>
      apply M3.ext <;> apply V3.ext <;> norm_num [mirrorSvd, M3.mul, M3.transpose, M3.mulVec, M3.one, V3.dot]
  · unfold projectToRotation
    rw [if_pos (by norm_num [mirrorSvd, M3.mul, M3.transpose, M3.mulVec, M3.one, V3.dot, M3.det, V3.cross])]
    apply M3.ext <;> apply V3.ext <;> norm_num [mirrorSvd, scale, V3.smul, M3.mul, M3.transpose, M3.mulVec, M3.one, V3.dot]

/-- A matrix with a positive determinant that is not a rotation. -/
example : NearestRotation ⟨⟨3, 0, 0⟩, ⟨0, 2, 0⟩, ⟨0, 0, 1⟩⟩
    (projectToRotation (fun _ => (M3.one, M3.one)) ⟨⟨3, 0, 0⟩, ⟨0, 2, 0⟩, ⟨0, 0, 1⟩⟩) := by
  refine C59_project_nearest_partial ⟨⟨?_, ?_⟩, ⟨?_, ?_⟩, ⟨3, 2, 1⟩, by norm_num, by norm_num, by norm_num, ?_⟩
    (by norm_num [M3.det, V3.dot, V3.cross])
  all_goals
    apply M3.ext <;> apply V3.ext <;> norm_num [M3.mul, M3.transpose, M3.mulVec, M3.one, V3.dot]

/-! ## The Sampson distance -/

/-- The partial derivatives of the residual. -/
theorem corrects_iff (F : M3 ℝ) (x y dx dy : V2) :
    CorrectsFirstOrder F x y dx dy ↔ epipolarResidual F x y + ((homog y).dot F.transpose.r1 * dx.1
      + (homog y).dot F.transpose.r2 * dx.2 + (F.mulVec (homog x)).x * dy.1 + (F.mulVec (homog x)).y * dy.2) = 0 := by
  unfold CorrectsFirstOrder epipolarResidual
  simp only [homog, M3.transpose, M3.mulVec, V3.dot, Prod.fst_add, Prod.snd_add]
  constructor <;> intro h <;> linear_combination h

/-- The Sampson distance is the smallest squared length of a move of the two points that removes the residual to first order,
and a move of this length exists. -/
theorem C59_sampson_minimal {F : M3 ℝ} {x y : V2} {d : ℝ} (h : sampson F x y = .ok d) :
    (∃ dx dy, CorrectsFirstOrder F x y dx dy ∧ movedSq dx dy = d) ∧
    ∀ dx dy, CorrectsFirstOrder F x y dx dy → d ≤ movedSq dx dy := by
  unfold sampson at h
  simp only at h
  have he : (homog y).dot (F.mulVec (homog x)) = epipolarResidual F x y := rfl
  rw [he] at h
  simp only [corrects_iff]
  generalize epipolarResidual F x y = e at h
  generalize (homog y).dot F.transpose.r1 = a at h
  generalize (homog y).dot F.transpose.r2 = b at h
  generalize (F.mulVec (homog x)).x = c at h
  generalize (F.mulVec (homog x)).y = f at h
  split at h
  · cases h
  · rename_i hn
    simp only [Outcome.ok.injEq] at h
    subst h
    have hpos : 0 < a * a + b * b + c * c + f * f :=
      lt_of_le_of_ne (by nlinarith [mul_self_nonneg a, mul_self_nonneg b, mul_self_nonneg c, mul_self_nonneg f]) (Ne.symm hn)
    generalize hD : a * a + b * b + c * c + f * f = D at hpos hn ⊢
    constructor
    · refine ⟨(-e * a / D, -e * b / D), (-e * c / D, -e * f / D), ?_, ?_⟩
      · simp only
        field_simp
        linear_combination (-e) * hD
      · simp only [movedSq]
        field_simp
        linear_combination e ^ 2 * hD
    · intro dx dy hc
      rw [div_le_iff₀ hpos, ← hD]
      have he : e = -(a * dx.1 + b * dx.2 + c * dy.1 + f * dy.2) := by linarith
      rw [he]
      unfold movedSq
      nlinarith [mul_self_nonneg (a * dx.2 - b * dx.1), mul_self_nonneg (a * dy.1 - c * dx.1),
        mul_self_nonneg (a * dy.2 - f * dx.1), mul_self_nonneg (b * dy.1 - c * dx.2),
        mul_self_nonneg (b * dy.2 - f * dx.2), mul_self_nonneg (c * dy.2 - f * dy.1)]

/-- It is zero exactly for the correspondences that satisfy the epipolar constraint, and never negative. -/
theorem C59_sampson_zero {F : M3 ℝ} {x y : V2} {d : ℝ} (h : sampson F x y = .ok d) :
    0 ≤ d ∧ (d = 0 ↔ epipolarResidual F x y = 0) := by
  unfold sampson at h
  simp only at h
  have he : (homog y).dot (F.mulVec (homog x)) = epipolarResidual F x y := rfl
  rw [he] at h
  split at h
  · cases h
  · rename_i hn
    simp only [Outcome.ok.injEq] at h
    subst h
    refine ⟨div_nonneg (mul_self_nonneg _) ?_, ?_⟩
    · nlinarith [mul_self_nonneg ((homog y).dot F.transpose.r1), mul_self_nonneg ((homog y).dot F.transpose.r2),
        mul_self_nonneg ((F.mulVec (homog x)).x), mul_self_nonneg ((F.mulVec (homog x)).y)]
    · rw [div_eq_zero_iff, or_iff_left hn, mul_self_eq_zero]

/-- It is defined unless no move of the points changes the residual to first order. -/
theorem C59_sampson_defined (F : M3 ℝ) (x y : V2) :
    (∃ d, sampson F x y = .ok d) ↔
      ∃ dx dy, epipolarResidual F (x + dx) y - epipolarResidual F x y + (epipolarResidual F x (y + dy) - epipolarResidual F x y)
        ≠ 0 := by
  have hlin : ∀ dx dy : V2, epipolarResidual F (x + dx) y - epipolarResidual F x y
      + (epipolarResidual F x (y + dy) - epipolarResidual F x y) = (homog y).dot F.transpose.r1 * dx.1
      + (homog y).dot F.transpose.r2 * dx.2 + (F.mulVec (homog x)).x * dy.1 + (F.mulVec (homog x)).y * dy.2 := by
    intro dx dy
    unfold epipolarResidual
    simp only [homog, M3.transpose, M3.mulVec, V3.dot, Prod.fst_add, Prod.snd_add]
    ring
  simp only [hlin]
  unfold sampson
  simp only
  generalize (homog y).dot F.transpose.r1 = a
  generalize (homog y).dot F.transpose.r2 = b
  generalize hc : (F.mulVec (homog x)).x = c
  generalize hf : (F.mulVec (homog x)).y = f
  split
  · rename_i h0
    have ha := mul_self_nonneg a
    have hb := mul_self_nonneg b
    have hcc := mul_self_nonneg c
    have hff := mul_self_nonneg f
    have a0 : a = 0 := mul_self_eq_zero.1 (by linarith)
    have b0 : b = 0 := mul_self_eq_zero.1 (by linarith)
    have c0 : c = 0 := mul_self_eq_zero.1 (by linarith)
    have f0 : f = 0 := mul_self_eq_zero.1 (by linarith)
    constructor
    · rintro ⟨d, h⟩; cases h
    · rintro ⟨dx, dy, h⟩; rw [a0, b0, c0, f0] at h; exact absurd (by ring) h
  · rename_i hn
    refine ⟨fun _ => ⟨(a, b), (c, f), by simpa using hn⟩, fun _ => ⟨_, rfl⟩⟩

/-- Multiples of the matrix give the same distance, and so does the transposed matrix with the points exchanged. -/
theorem C59_sampson_symmetric (F : M3 ℝ) (x y : V2) :
    (∀ s : ℝ, s ≠ 0 → sampson (scale s F) x y = sampson F x y) ∧ sampson F.transpose y x = sampson F x y := by
  constructor
  · intro s hs
    unfold sampson
    simp only
    have e1 : (homog y).dot ((scale s F).mulVec (homog x)) = s * (homog y).dot (F.mulVec (homog x)) := by
      simp only [scale, M3.mulVec, V3.dot, V3.smul]; ring
    have e2 : (homog y).dot (scale s F).transpose.r1 = s * (homog y).dot F.transpose.r1 := by
      simp only [scale, M3.transpose, V3.dot, V3.smul]; ring
    have e3 : (homog y).dot (scale s F).transpose.r2 = s * (homog y).dot F.transpose.r2 := by
      simp only [scale, M3.transpose, V3.dot, V3.smul]; ring
    have e4 : ((scale s F).mulVec (homog x)).x = s * (F.mulVec (homog x)).x := by
      simp only [scale, M3.mulVec, V3.dot, V3.smul]; ring
    have e5 : ((scale s F).mulVec (homog x)).y = s * (F.mulVec (homog x)).y := by
      simp only [scale, M3.mulVec, V3.dot, V3.smul]; ring
    rw [e1, e2, e3, e4, e5]
    generalize (homog y).dot (F.mulVec (homog x)) = e
    generalize (homog y).dot F.transpose.r1 = a
    generalize (homog y).dot F.transpose.r2 = b
    generalize (F.mulVec (homog x)).x = c
    generalize (F.mulVec (homog x)).y = f
    have hD : s * a * (s * a) + s * b * (s * b) + s * c * (s * c) + s * f * (s * f) =
        s * s * (a * a + b * b + c * c + f * f) := by ring
    rw [hD]
    by_cases h0 : a * a + b * b + c * c + f * f = 0
    · rw [if_pos h0, if_pos (by rw [h0, mul_zero])]
    · rw [if_neg h0, if_neg (mul_ne_zero (mul_ne_zero hs hs) h0)]
      congr 1
      field_simp
  · unfold sampson
    simp only
    have e1 : (homog x).dot (F.transpose.mulVec (homog y)) = (homog y).dot (F.mulVec (homog x)) := by
      simp only [M3.transpose, M3.mulVec, V3.dot, homog]; ring
    have e2 : (homog x).dot F.transpose.transpose.r1 = (F.mulVec (homog x)).x := by
      simp only [M3.transpose, M3.mulVec, V3.dot, homog]; ring
    have e3 : (homog x).dot F.transpose.transpose.r2 = (F.mulVec (homog x)).y := by
      simp only [M3.transpose, M3.mulVec, V3.dot, homog]; ring
    have e4 : (F.transpose.mulVec (homog y)).x = (homog y).dot F.transpose.r1 := by
      simp only [M3.transpose, M3.mulVec, V3.dot, homog]; ring
    have e5 : (F.transpose.mulVec (homog y)).y = (homog y).dot F.transpose.r2 := by
      simp only [M3.transpose, M3.mulVec, V3.dot, homog]; ring
    rw [e1, e2, e3, e4, e5]
    generalize (homog y).dot F.transpose.r1 = a
    generalize (homog y).dot F.transpose.r2 = b
    generalize (F.mulVec (homog x)).x = c
    generalize (F.mulVec (homog x)).y = f
    have hD : c * c + f * f + a * a + b * b = a * a + b * b + c * c + f * f := by ring
    rw [hD]

/-- Two cameras side by side; the points differ by two rows. The distance is 2: each moves by one row. -/
example : sampson ⟨⟨0, 0, 0⟩, ⟨0, 0, -1⟩, ⟨0, 1, 0⟩⟩ (5, 3) (7, 1) = .ok 2 := by
  unfold sampson
  rw [if_neg (by norm_num [homog, M3.mulVec, M3.transpose, V3.dot])]
  norm_num [homog, M3.mulVec, M3.transpose, V3.dot]

/-! ## Normalisation of image points -/

theorem sum_map_sub_const (l : List ℝ) (c : ℝ) : (l.map fun v => v - c).sum = l.sum - l.length * c := by
  induction l with
  | nil => simp
  | cons a l ih => simp only [List.map_cons, List.sum_cons, ih, List.length_cons, Nat.cast_add, Nat.cast_one]; ring

theorem sum_map_mul_left (l : List ℝ) (c : ℝ) : (l.map fun v => c * v).sum = c * l.sum := by
  induction l with
  | nil => simp
  | cons a l ih => simp only [List.map_cons, List.sum_cons, ih]; ring

theorem sum_nonneg (l : List V2) (c : V2) : 0 ≤ (l.map fun p => (p.1 - c.1) ^ 2 + (p.2 - c.2) ^ 2).sum := by
  apply List.sum_nonneg
  intro x hx
  obtain ⟨p, -, rfl⟩ := List.mem_map.1 hx
  positivity

/-- The distance is zero only if all points are the centroid. -/
theorem rms_eq_zero {ps : List V2} (hne : ps ≠ []) : rmsDistance ps = 0 ↔ ∀ p ∈ ps, p = centroid ps := by
  have hlen : (0 : ℝ) < ps.length := by exact_mod_cast List.length_pos_iff.2 hne
  unfold rmsDistance
  rw [Real.sqrt_eq_zero (div_nonneg (sum_nonneg _ _) hlen.le), div_eq_zero_iff, or_iff_left hlen.ne']
  generalize centroid ps = c
  have : ∀ l : List V2, (l.map fun p => (p.1 - c.1) ^ 2 + (p.2 - c.2) ^ 2).sum = 0 ↔ ∀ p ∈ l, p = c := by
    intro l
    induction l with
    | nil => simp
    | cons a l ih =>
      simp only [List.map_cons, List.sum_cons, List.mem_cons, forall_eq_or_imp]
      rw [← ih]
      have h1 := sum_nonneg l c
      have h2 : 0 ≤ (a.1 - c.1) ^ 2 + (a.2 - c.2) ^ 2 := by positivity
      constructor
      · intro h
        have ha : (a.1 - c.1) ^ 2 + (a.2 - c.2) ^ 2 = 0 := by linarith
        refine ⟨?_, by linarith⟩
        have s1 := sq_nonneg (a.1 - c.1)
        have s2 := sq_nonneg (a.2 - c.2)
        have z1 := pow_eq_zero_iff (two_ne_zero) |>.1 (show (a.1 - c.1) ^ 2 = 0 by linarith)
        have z2 := pow_eq_zero_iff (two_ne_zero) |>.1 (show (a.2 - c.2) ^ 2 = 0 by linarith)
        exact Prod.ext (by linarith) (by linarith)
      · rintro ⟨rfl, h⟩
        rw [h]; simp
  exact this ps

/-- What the function computes. -/
theorem normalize_eq {ps qs : List V2} {N : M3 ℝ} (h : normalizePoints ps = .ok (qs, N)) :
    ps ≠ [] ∧ 0 < rmsDistance ps ∧ ∃ k, k = Real.sqrt 2 / rmsDistance ps ∧
      N = ⟨⟨k, 0, -1 * k * (centroid ps).1⟩, ⟨0, k, -1 * k * (centroid ps).2⟩, ⟨0, 0, 1⟩⟩ ∧
      qs = ps.map fun p => (k * (p.1 - (centroid ps).1), k * (p.2 - (centroid ps).2)) := by
  unfold normalizePoints at h
  split at h
  · cases h
  · rename_i h1
    split at h
    · cases h
    · rename_i h2
      simp only [Outcome.ok.injEq, Prod.mk.injEq] at h
      obtain ⟨rfl, rfl⟩ := h
      refine ⟨h1, lt_of_le_of_ne (Real.sqrt_nonneg _) (Ne.symm h2), _, rfl, rfl, ?_⟩
      apply List.map_congr_left
      intro p _
      simp only [dehomog, M3.mulVec, V3.dot, homog]
      apply Prod.ext <;> simp only <;> ring

/-- The function is defined exactly for lists of points that are not all the same. -/
theorem C59_normalize_defined (ps : List V2) :
    (∃ r, normalizePoints ps = .ok r) ↔ ∃ p ∈ ps, ∃ q ∈ ps, p ≠ q := by
  have hmean : ∀ c, ps ≠ [] → (∀ p ∈ ps, p = c) → centroid ps = c := by
    intro c hne hall
    have hlen : (0 : ℝ) < ps.length := by exact_mod_cast List.length_pos_iff.2 hne
    have : ps = List.replicate ps.length c := List.eq_replicate_iff.2 ⟨rfl, hall⟩
    unfold centroid
    rw [this]
    simp only [List.map_replicate, List.sum_replicate, nsmul_eq_mul, List.length_replicate]
    apply Prod.ext <;> simp only <;> field_simp
  constructor
  · rintro ⟨⟨qs, N⟩, h⟩
    obtain ⟨hne, hpos, -⟩ := normalize_eq h
    by_contra hc
    push Not at hc
    obtain ⟨p, hp⟩ := List.exists_mem_of_ne_nil ps hne
    have hall : ∀ q ∈ ps, q = p := fun q hq => hc q hq p hp
    have := (rms_eq_zero hne).2 fun q hq => by rw [hmean p hne hall]; exact hall q hq
    exact hpos.ne' this
  · rintro ⟨p, hp, q, hq, hpq⟩
    have hne : ps ≠ [] := List.ne_nil_of_mem hp
    unfold normalizePoints
    rw [if_neg hne, if_neg]
    · exact ⟨_, rfl⟩
    · intro h0
      have := (rms_eq_zero hne).1 h0
      exact hpq ((this p hp).trans (this q hq).symm)

/-- The normalised points are the images of the points under the matrix returned, which is invertible; their centroid is the
origin, and their root mean square distance from it is `sqrt 2`. -/
theorem C59_normalize {ps qs : List V2} {N : M3 ℝ} (h : normalizePoints ps = .ok (qs, N)) :
    (∀ i (hi : i < ps.length), ∃ hi' : i < qs.length, N.mulVec ⟨(ps[i]).1, (ps[i]).2, 1⟩ = ⟨(qs[i]).1, (qs[i]).2, 1⟩) ∧
    qs.length = ps.length ∧ 0 < N.det ∧
    (qs.map Prod.fst).sum = 0 ∧ (qs.map Prod.snd).sum = 0 ∧
    (qs.map fun q => q.1 ^ 2 + q.2 ^ 2).sum = 2 * (ps.length : ℝ) := by
  obtain ⟨hne, hpos, k, hk, hN, hqs⟩ := normalize_eq h
  have hlen : (0 : ℝ) < ps.length := by exact_mod_cast List.length_pos_iff.2 hne
  have hk0 : 0 < k := by rw [hk]; exact div_pos (Real.sqrt_pos.2 (by norm_num)) hpos
  have hl : qs.length = ps.length := by rw [hqs, List.length_map]
  refine ⟨fun i hi => ⟨by omega, ?_⟩, hl, ?_, ?_, ?_, ?_⟩
  · have : qs[i]'(by omega) = (k * ((ps[i]).1 - (centroid ps).1), k * ((ps[i]).2 - (centroid ps).2)) := by
      simp only [hqs, List.getElem_map]
    rw [this, hN]
    apply V3.ext <;> simp only [M3.mulVec, V3.dot] <;> ring
  · rw [hN]; simp only [M3.det, V3.dot, V3.cross]
    have := mul_pos hk0 hk0
    linarith
  · have : (qs.map Prod.fst) = ((ps.map Prod.fst).map fun v => v - (centroid ps).1).map fun v => k * v := by
      rw [hqs]; simp [List.map_map, Function.comp_def]
    rw [this, sum_map_mul_left, sum_map_sub_const, List.length_map]
    simp only [centroid]
    field_simp
    ring
  · have : (qs.map Prod.snd) = ((ps.map Prod.snd).map fun v => v - (centroid ps).2).map fun v => k * v := by
      rw [hqs]; simp [List.map_map, Function.comp_def]
    rw [this, sum_map_mul_left, sum_map_sub_const, List.length_map]
    simp only [centroid]
    field_simp
    ring
  · have : (qs.map fun q => q.1 ^ 2 + q.2 ^ 2) =
        (ps.map fun p => (p.1 - (centroid ps).1) ^ 2 + (p.2 - (centroid ps).2) ^ 2).map fun v => k ^ 2 * v := by
      rw [hqs]; simp only [List.map_map]
      apply List.map_congr_left
      intro p _
      simp only [Function.comp]
      ring
    rw [this, sum_map_mul_left]
    have hsq : rmsDistance ps ^ 2 = (ps.map fun p => (p.1 - (centroid ps).1) ^ 2 + (p.2 - (centroid ps).2) ^ 2).sum
        / ps.length := Real.sq_sqrt (div_nonneg (sum_nonneg _ _) hlen.le)
    have h2 : Real.sqrt 2 ^ 2 = 2 := Real.sq_sqrt (by norm_num)
    rw [hk, div_pow, h2]
    generalize (ps.map fun p => (p.1 - (centroid ps).1) ^ 2 + (p.2 - (centroid ps).2) ^ 2).sum = S at hsq
    have hS : S = rmsDistance ps ^ 2 * ps.length := by rw [hsq]; field_simp
    rw [hS]
    have := hpos.ne'
    field_simp

theorem sqrt_sum_le (l : List ℝ) (hl : ∀ x ∈ l, 0 ≤ x) :
    (l.map Real.sqrt).sum ^ 2 ≤ l.length * l.sum := by
  have key : ∀ l : List ℝ, (∀ x ∈ l, 0 ≤ x) → (l.map Real.sqrt).sum ^ 2 ≤ l.length * l.sum ∧ 0 ≤ l.sum ∧
      ∀ t : ℝ, 2 * t * (l.map Real.sqrt).sum ≤ l.sum + l.length * t ^ 2 := by
    intro l
    induction l with
    | nil => intro _; simp
    | cons a l ih =>
      intro h
      obtain ⟨h1, h2, h3⟩ := ih fun x hx => h x (List.mem_cons_of_mem _ hx)
      have ha := h a List.mem_cons_self
      have hs := Real.sq_sqrt ha
      simp only [List.map_cons, List.sum_cons, List.length_cons, Nat.cast_add, Nat.cast_one]
      refine ⟨?_, by linarith, fun t => ?_⟩
      · have := h3 (Real.sqrt a)
        nlinarith
      · have := h3 t
        nlinarith [sq_nonneg (Real.sqrt a - t)]
  exact (key l hl).1

/-- The average distance from the origin, which the header promises to be `sqrt 2`, is at most that. -/
theorem C59_normalize_average {ps qs : List V2} {N : M3 ℝ} (h : normalizePoints ps = .ok (qs, N)) :
    (qs.map fun q => Real.sqrt (q.1 ^ 2 + q.2 ^ 2)).sum / qs.length ≤ Real.sqrt 2 := by
  obtain ⟨-, hl, -, -, -, hsum⟩ := C59_normalize h
  have hne := (normalize_eq h).1
  have hlen : (0 : ℝ) < ps.length := by exact_mod_cast List.length_pos_iff.2 hne
  rw [hl, div_le_iff₀ hlen]
  have h1 := sqrt_sum_le (qs.map fun q => q.1 ^ 2 + q.2 ^ 2) (by
    intro x hx; obtain ⟨q, -, rfl⟩ := List.mem_map.1 hx; positivity)
  rw [List.map_map, List.length_map, hl, hsum] at h1
  refine le_of_sq_le_sq ?_ (by positivity)
  rw [mul_pow, Real.sq_sqrt (by norm_num)]
  calc _ ≤ _ := h1
    _ = _ := by ring

/-- The header promises an average distance of √2 from the origin; it can be less. -/
theorem C59_normalize_average_counterexample :
    ∃ qs N, normalizePoints [(0, 0), (0, 0), (3, 0)] = .ok (qs, N) ∧
      (qs.map fun q => Real.sqrt (q.1 ^ 2 + q.2 ^ 2)).sum / qs.length = 4 / 3 ∧ (4 / 3 : ℝ) < Real.sqrt 2 := by
  have hc : centroid [(0, 0), (0, 0), (3, 0)] = (1, 0) := by norm_num [centroid]
  have hr : rmsDistance [(0, 0), (0, 0), (3, 0)] = Real.sqrt 2 := by
    unfold rmsDistance
    rw [hc]
    norm_num
  have h2 : Real.sqrt 2 ≠ 0 := by positivity
  obtain ⟨⟨qs, N⟩, h⟩ := (C59_normalize_defined [(0, 0), (0, 0), (3, 0)]).2
    ⟨(0, 0), by simp, (3, 0), by simp, by norm_num⟩
  obtain ⟨-, -, k, hk, -, hqs⟩ := normalize_eq h
  rw [hr, div_self h2] at hk
  rw [hk, hc] at hqs
  refine ⟨qs, N, h, ?_, ?_⟩
  · rw [hqs]
    simp only [List.map_cons, List.map_nil, List.sum_cons, List.sum_nil, List.length_cons, List.length_nil]
    norm_num
    rw [show (4 : ℝ) = 2 ^ 2 by norm_num, Real.sqrt_sq (by norm_num)]
    norm_num
  · rw [Real.lt_sqrt (by norm_num)]; norm_num

end PoseUtil
end Theia
