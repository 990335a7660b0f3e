import Verif.Spec.AlignPoints
import Verif.Proof.ProjectionMatrix
import Verif.Proof.Svd

/-!
# Alignment of point clouds: proofs
-/

namespace Theia
namespace AlignPoints

open Spec ProjectionMatrix EssentialMatrix

/-- The sum of the products of the entries. -/
noncomputable def pairing (a b : M3 ℝ) : ℝ := a.r1.dot b.r1 + a.r2.dot b.r2 + a.r3.dot b.r3

/-- The error over a list of matches. -/
noncomputable def matchError (ms : List Match) (R : M3 ℝ) (t : V3 ℝ) (s : ℝ) : ℝ :=
  (ms.map (fun m => m.weight * (m.right.sub (similarity R t s m.left)).dot (m.right.sub (similarity R t s m.left)))).sum

theorem matchError_zip (left right : List (V3 ℝ)) (weights : List ℝ) (R : M3 ℝ) (t : V3 ℝ) (s : ℝ) :
    matchError (zipMatches left right weights) R t s = alignmentError left right weights R t s := by
  unfold matchError zipMatches alignmentError
  rw [List.map_map]
  rfl

theorem error_expand {R : M3 ℝ} (hR : R.IsRotation) (t : V3 ℝ) (s : ℝ) (cx cy : V3 ℝ) : ∀ ms : List Match,
    matchError ms R t s = (ms.map (fun m => m.weight * (m.right.sub cy).dot (m.right.sub cy))).sum
      + s * s * (ms.map (fun m => (m.left.sub cx).dot (m.left.sub cx) * m.weight)).sum
      + weightSum ms * (cy.sub (similarity R t s cx)).dot (cy.sub (similarity R t s cx))
      - 2 * s * pairing R (sumM (ms.map (fun m => scaleM m.weight (outer (m.left.sub cx) (m.right.sub cy))))).transpose
      + 2 * ((sumV (ms.map (fun m => m.right.smul m.weight))).sub (cy.smul (weightSum ms))).dot
          (cy.sub (similarity R t s cx))
      - 2 * s * (R.mulVec ((sumV (ms.map (fun m => m.left.smul m.weight))).sub (cx.smul (weightSum ms)))).dot
          (cy.sub (similarity R t s cx)) := by
  intro ms
  induction ms with
  | nil =>
    simp only [matchError, List.map_nil, List.sum_nil, weightSum, sumM, sumV, pairing, M3.transpose, V3.zero, V3.dot, V3.sub,
      V3.smul, M3.mulVec]
    ring
  | cons m ms ih =>
    have hd := hR.dot (m.left.sub cx) (m.left.sub cx)
    unfold matchError at ih ⊢
    simp only [List.map_cons, List.sum_cons, weightSum, sumM, sumV] at ih ⊢
    rw [ih, ← hd]
    generalize (ms.map (fun m => m.weight * (m.right.sub cy).dot (m.right.sub cy))).sum = a1
    generalize (ms.map (fun m => m.weight)).sum = a2
    generalize sumM (ms.map (fun m => scaleM m.weight (outer (m.left.sub cx) (m.right.sub cy)))) = a3
    generalize sumV (ms.map (fun m => m.right.smul m.weight)) = a4
    generalize sumV (ms.map (fun m => m.left.smul m.weight)) = a5
    simp only [similarity, pairing, addM, scaleM, outer, M3.transpose, V3.dot, V3.sub, V3.smul, V3.add, M3.mulVec]
    ring

/-- The error in terms of the quantities the code computes. -/
theorem error_eq {ms : List Match} (hW : weightSum ms ≠ 0) {R : M3 ℝ} (hR : R.IsRotation) (t : V3 ℝ) (s : ℝ) :
    matchError ms R t s =
      (ms.map (fun m => m.weight * (m.right.sub (rightCentroid ms)).dot (m.right.sub (rightCentroid ms)))).sum
      + weightSum ms * (s * s * sigma ms - 2 * s * pairing R (crossCorrelation ms).transpose
        + ((rightCentroid ms).sub (similarity R t s (leftCentroid ms))).dot
          ((rightCentroid ms).sub (similarity R t s (leftCentroid ms)))) := by
  rw [error_expand hR t s (leftCentroid ms) (rightCentroid ms)]
  have hi : weightSum ms * (weightSum ms)⁻¹ = 1 := mul_inv_cancel₀ hW
  have z1 : (sumV (ms.map (fun m => m.right.smul m.weight))).sub ((rightCentroid ms).smul (weightSum ms)) = V3.zero := by
    unfold rightCentroid
    rw [V3.smul_smul, hi, V3.one_smul']
    simp [V3.sub, V3.zero]
  have z2 : (sumV (ms.map (fun m => m.left.smul m.weight))).sub ((leftCentroid ms).smul (weightSum ms)) = V3.zero := by
    unfold leftCentroid
    rw [V3.smul_smul, hi, V3.one_smul']
    simp [V3.sub, V3.zero]
  have z3 : R.mulVec V3.zero = V3.zero := by simp [M3.mulVec, V3.dot, V3.zero]
  rw [z1, z2, z3, V3.zero_dot]
  have s1 : (ms.map (fun m => (m.left.sub (leftCentroid ms)).dot (m.left.sub (leftCentroid ms)) * m.weight)).sum =
      weightSum ms * sigma ms := by
    unfold sigma
    field_simp
  have s2 : pairing R (sumM (ms.map (fun m => scaleM m.weight (outer (m.left.sub (leftCentroid ms))
      (m.right.sub (rightCentroid ms)))))).transpose = weightSum ms * pairing R (crossCorrelation ms).transpose := by
    unfold crossCorrelation
    generalize sumM (ms.map (fun m => scaleM m.weight (outer (m.left.sub (leftCentroid ms))
      (m.right.sub (rightCentroid ms))))) = a
    simp only [pairing, scaleM, M3.transpose, V3.dot, V3.smul]
    linear_combination (-(R.r1.x * a.r1.x + R.r1.y * a.r2.x + R.r1.z * a.r3.x + R.r2.x * a.r1.y + R.r2.y * a.r2.y +
      R.r2.z * a.r3.y + R.r3.x * a.r1.z + R.r3.y * a.r2.z + R.r3.z * a.r3.z)) * hi
  rw [s1, s2]
  ring

/-! ## The best rotation -/

theorem pairing_eq_tr (a b : M3 ℝ) : pairing a b = tr (b.transpose.mul a) := by
  simp only [pairing, tr, M3.mul, M3.transpose, M3.mulVec, V3.dot]; ring

/-- The trace of a rotation is at least minus one. -/
theorem trace_ge {R : M3 ℝ} (hR : R.IsRotation) : -1 ≤ tr R := by
  obtain ⟨w, hw, _⟩ := AngleAxis.exists_log hR
  have h := AngleAxis.trace_toM w
  rw [hw] at h
  have hc := Real.neg_one_le_cos (Real.sqrt (w.dot w))
  have e : tr R = AngleAxis.trace R := rfl
  rw [e, h]
  linarith

/-- The sign of the determinants, as in the code. -/
noncomputable def signOf (U V : M3 ℝ) : ℝ := if 0 < U.det * V.transpose.det then 1 else -1

theorem signOf_eq {U V : M3 ℝ} (hU : IsOrthogonal U) (hV : IsOrthogonal V) : signOf U V = U.det * V.det := by
  have h1 := det_sq hU
  have h2 := det_sq hV
  unfold signOf
  rw [M3.det_transpose]
  rcases mul_self_eq_one_iff.1 h1 with e1 | e1 <;> rcases mul_self_eq_one_iff.1 h2 with e2 | e2 <;> rw [e1, e2] <;> norm_num

/-- The diagonal of an orthogonal matrix of determinant `e`, weighted by decreasing numbers. -/
theorem diagonal_bound {Q : M3 ℝ} (hQ : IsOrthogonal Q) {e : ℝ} (he : Q.det = e) {d : V3 ℝ} (h12 : d.y ≤ d.x)
    (h23 : d.z ≤ d.y) (h3 : 0 ≤ d.z) : d.x * Q.r1.x + d.y * Q.r2.y + d.z * Q.r3.z ≤ d.x + d.y + e * d.z := by
  obtain ⟨b1, b2, b3⟩ := entry_le_one hQ
  have hs := det_sq hQ
  rw [he] at hs
  rcases mul_self_eq_one_iff.1 hs with rfl | rfl
  · have a1 := mul_le_mul_of_nonneg_left b1 (show 0 ≤ d.x by linarith)
    have a2 := mul_le_mul_of_nonneg_left b2 (show 0 ≤ d.y by linarith)
    have a3 := mul_le_mul_of_nonneg_left b3 h3
    linarith
  · have hrot : (scale (-1) Q).IsRotation := by
      refine ⟨?_, ?_, ?_⟩
      · rw [← hQ.1]
        apply M3.ext <;> apply V3.ext <;> simp only [scale, M3.mul, M3.transpose, M3.mulVec, V3.dot, V3.smul] <;> ring
      · rw [← hQ.2]
        apply M3.ext <;> apply V3.ext <;> simp only [scale, M3.mul, M3.transpose, M3.mulVec, V3.dot, V3.smul] <;> ring
      · have : (scale (-1) Q).det = -Q.det := by simp only [scale, M3.det, V3.dot, V3.cross, V3.smul]; ring
        rw [this, he]; norm_num
    have ht := trace_ge hrot
    simp only [tr, scale, V3.smul] at ht
    have a1 := mul_le_mul_of_nonneg_left b1 (show 0 ≤ d.x - d.y by linarith)
    have a2 := mul_le_mul_of_nonneg_left (add_le_add b1 b2) (show 0 ≤ d.y - d.z by linarith)
    have a3 := mul_le_mul_of_nonneg_left (show Q.r1.x + Q.r2.y + Q.r3.z ≤ 1 by linarith) h3
    linarith

/-- No rotation has a larger pairing than the sum of the signed singular values. -/
theorem pairing_le {M U V : M3 ℝ} {d : V3 ℝ} (h : IsFullSvd M U V d) {R : M3 ℝ} (hR : R.IsRotation) :
    pairing R M ≤ d.x + d.y + signOf U V * d.z := by
  obtain ⟨hU, hV, h12, h23, h3, hM⟩ := h
  have hQ : IsOrthogonal ((U.transpose.mul R).mul V) :=
    isOrthogonal_mul (isOrthogonal_mul (isOrthogonal_transpose hU) (isOrthogonal_of_isRotation hR)) hV
  have hdet : ((U.transpose.mul R).mul V).det = signOf U V := by
    rw [signOf_eq hU hV, M3.det_mul, M3.det_mul, M3.det_transpose, hR.det]; ring
  have key : pairing R M = d.x * ((U.transpose.mul R).mul V).r1.x + d.y * ((U.transpose.mul R).mul V).r2.y +
      d.z * ((U.transpose.mul R).mul V).r3.z := by
    have e : M.transpose = V.mul ((⟨⟨d.x, 0, 0⟩, ⟨0, d.y, 0⟩, ⟨0, 0, d.z⟩⟩ : M3 ℝ).mul U.transpose) := by
      rw [hM, M3.transpose_mul, M3.transpose_mul]; rfl
    rw [pairing_eq_tr, e, M3.mul_assoc, tr_comm, M3.mul_assoc, M3.mul_assoc, ← M3.mul_assoc U.transpose]
    generalize (U.transpose.mul R).mul V = w
    simp only [tr, M3.mul, M3.transpose, M3.mulVec, V3.dot]
    ring
  rw [key]
  exact diagonal_bound hQ hdet h12 h23 h3

/-- The rotation the code computes. -/
noncomputable def bestRotation (U V : M3 ℝ) : M3 ℝ :=
  (U.mul ⟨⟨1, 0, 0⟩, ⟨0, 1, 0⟩, ⟨0, 0, signOf U V⟩⟩).mul V.transpose

theorem sign_sq (U V : M3 ℝ) : signOf U V * signOf U V = 1 := by
  unfold signOf
  split_ifs <;> norm_num

theorem bestRotation_isRotation {U V : M3 ℝ} (hU : IsOrthogonal U) (hV : IsOrthogonal V) :
    (bestRotation U V).IsRotation := by
  have hs := sign_sq U V
  have hD : IsOrthogonal (⟨⟨1, 0, 0⟩, ⟨0, 1, 0⟩, ⟨0, 0, signOf U V⟩⟩ : M3 ℝ) := by
    constructor
    · apply M3.ext <;> apply V3.ext <;> simp [M3.mul, M3.transpose, M3.mulVec, V3.dot, M3.one, hs]
    · apply M3.ext <;> apply V3.ext <;> simp [M3.mul, M3.transpose, M3.mulVec, V3.dot, M3.one, hs]
  have ho := isOrthogonal_mul (isOrthogonal_mul hU hD) (isOrthogonal_transpose hV)
  refine ⟨ho.1, ho.2, ?_⟩
  unfold bestRotation
  have hd : (⟨⟨1, 0, 0⟩, ⟨0, 1, 0⟩, ⟨0, 0, signOf U V⟩⟩ : M3 ℝ).det = signOf U V := by
    simp only [M3.det, V3.dot, V3.cross]; ring
  rw [M3.det_mul, M3.det_mul, M3.det_transpose, hd]
  calc U.det * signOf U V * V.det = signOf U V * (U.det * V.det) := by ring
    _ = 1 := by rw [← signOf_eq hU hV, hs]

theorem pairing_best {M U V : M3 ℝ} {d : V3 ℝ} (h : IsFullSvd M U V d) :
    pairing (bestRotation U V) M = d.x + d.y + signOf U V * d.z := by
  obtain ⟨hU, hV, -, -, -, hM⟩ := h
  have e : M.transpose = V.mul ((⟨⟨d.x, 0, 0⟩, ⟨0, d.y, 0⟩, ⟨0, 0, d.z⟩⟩ : M3 ℝ).mul U.transpose) := by
    rw [hM, M3.transpose_mul, M3.transpose_mul]; rfl
  unfold bestRotation
  rw [pairing_eq_tr, e, M3.mul_assoc, tr_comm, M3.mul_assoc, M3.mul_assoc, ← M3.mul_assoc U.transpose, ← M3.mul_assoc U.transpose,
    ← M3.mul_assoc U.transpose, hU.1, M3.one_mul, M3.mul_assoc, hV.1, M3.mul_one]
  simp only [tr, M3.mul, M3.transpose, M3.mulVec, V3.dot]
  ring

theorem sigma_nonneg {ms : List Match} (hw : ∀ m ∈ ms, 0 ≤ m.weight) : 0 ≤ sigma ms := by
  unfold sigma
  apply div_nonneg
  · apply List.sum_nonneg
    intro x hx
    obtain ⟨m, hm, rfl⟩ := List.mem_map.1 hx
    exact mul_nonneg (V3.self_nonneg _) (hw m hm)
  · unfold weightSum
    apply List.sum_nonneg
    intro x hx
    obtain ⟨m, hm, rfl⟩ := List.mem_map.1 hx
    exact hw m hm

/-- The result has the least error among all similarities with nonnegative scale. -/
theorem fromSvd_optimal {ms : List Match} (hw : ∀ m ∈ ms, 0 ≤ m.weight) (hW : 0 < weightSum ms) (hσ : sigma ms ≠ 0)
    {d : M3 ℝ × M3 ℝ × V3 ℝ} (hd : IsFullSvd (crossCorrelation ms).transpose d.1 d.2.1 d.2.2) :
    (fromSvd ms d).rotation.IsRotation ∧ 0 ≤ (fromSvd ms d).scale ∧
    ∀ (R : M3 ℝ) (t : V3 ℝ) (s : ℝ), R.IsRotation → 0 ≤ s →
      matchError ms (fromSvd ms d).rotation (fromSvd ms d).translation (fromSvd ms d).scale ≤ matchError ms R t s := by
  have hpos : 0 < sigma ms := lt_of_le_of_ne (sigma_nonneg hw) (Ne.symm hσ)
  have hrot : (fromSvd ms d).rotation = bestRotation d.1 d.2.1 := rfl
  have hscale : (fromSvd ms d).scale = (d.2.2.x + d.2.2.y + signOf d.1 d.2.1 * d.2.2.z) / sigma ms := rfl
  have htrans : (fromSvd ms d).translation =
      (rightCentroid ms).sub (((fromSvd ms d).rotation.mulVec (leftCentroid ms)).smul (fromSvd ms d).scale) := rfl
  have hR0 : (fromSvd ms d).rotation.IsRotation := bestRotation_isRotation hd.1 hd.2.1
  have hD : 0 ≤ d.2.2.x + d.2.2.y + signOf d.1 d.2.1 * d.2.2.z := by
    obtain ⟨-, -, h12, h23, h3, -⟩ := hd
    unfold signOf
    split_ifs <;> linarith
  refine ⟨hR0, ?_, ?_⟩
  · rw [hscale]; exact div_nonneg hD hpos.le
  · intro R t s hR hs
    rw [error_eq hW.ne' hR0, error_eq hW.ne' hR]
    have hz : (rightCentroid ms).sub (similarity (fromSvd ms d).rotation (fromSvd ms d).translation (fromSvd ms d).scale
        (leftCentroid ms)) = V3.zero := by
      rw [htrans]
      simp only [similarity, V3.sub, V3.add, V3.smul, V3.zero]
      apply V3.ext <;> simp only <;> ring
    rw [hz, V3.zero_dot, hrot, pairing_best hd]
    have hp := pairing_le hd hR
    have he := V3.self_nonneg ((rightCentroid ms).sub (similarity R t s (leftCentroid ms)))
    have hsig : (fromSvd ms d).scale * sigma ms = d.2.2.x + d.2.2.y + signOf d.1 d.2.1 * d.2.2.z := by
      rw [hscale]; field_simp
    rw [← hsig] at hp ⊢
    generalize (fromSvd ms d).scale = s0 at hp ⊢
    have h1 : s * pairing R (crossCorrelation ms).transpose ≤ s * (s0 * sigma ms) := mul_le_mul_of_nonneg_left hp hs
    have h2 : 0 ≤ (s - s0) * (s - s0) * sigma ms := mul_nonneg (mul_self_nonneg _) hpos.le
    have h3 : s0 * s0 * sigma ms - 2 * s0 * (s0 * sigma ms) + 0 ≤ s * s * sigma ms -
        2 * s * pairing R (crossCorrelation ms).transpose +
        ((rightCentroid ms).sub (similarity R t s (leftCentroid ms))).dot
          ((rightCentroid ms).sub (similarity R t s (leftCentroid ms))) := by nlinarith
    have h4 := mul_le_mul_of_nonneg_left h3 hW.le
    linarith

/-! ## Uniqueness -/

/-- Two similarities that agree on points not on one line are equal. -/
theorem similarity_unique {R R' : M3 ℝ} (hR : R.IsRotation) (hR' : R'.IsRotation) {t t' : V3 ℝ} {s s' : ℝ} (hs : 0 < s)
    (hs' : 0 ≤ s') {a b c : V3 ℝ} (hn : (b.sub a).cross (c.sub a) ≠ V3.zero)
    (ha : similarity R t s a = similarity R' t' s' a) (hb : similarity R t s b = similarity R' t' s' b)
    (hc : similarity R t s c = similarity R' t' s' c) : R' = R ∧ t' = t ∧ s' = s := by
  have diff : ∀ {x : V3 ℝ}, similarity R t s x = similarity R' t' s' x →
      (R.mulVec (x.sub a)).smul s = (R'.mulVec (x.sub a)).smul s' := by
    intro x hx
    simp only [similarity, V3.add, V3.smul, V3.mk.injEq, M3.mulVec, V3.dot] at ha hx
    apply V3.ext <;> simp only [V3.smul, M3.mulVec, V3.dot, V3.sub]
    · linarith [hx.1, ha.1]
    · linarith [hx.2.1, ha.2.1]
    · linarith [hx.2.2, ha.2.2]
  have hu := diff hb
  have hv := diff hc
  generalize hub : b.sub a = u at hu hn
  generalize hvc : c.sub a = v at hv hn
  have hu0 : u ≠ V3.zero := by
    rintro rfl
    exact hn (by simp [V3.cross, V3.zero])
  have hnorm : s * s * u.dot u = s' * s' * u.dot u := by
    have e1 : ((R.mulVec u).smul s).dot ((R.mulVec u).smul s) = s * s * u.dot u := by
      rw [← hR.dot u u]; simp only [V3.dot, V3.smul]; ring
    have e2 : ((R'.mulVec u).smul s').dot ((R'.mulVec u).smul s') = s' * s' * u.dot u := by
      rw [← hR'.dot u u]; simp only [V3.dot, V3.smul]; ring
    rw [← e1, hu, e2]
  have hss : s' = s := by
    have := mul_right_cancel₀ (V3.self_pos hu0).ne' hnorm
    exact ((mul_self_inj hs.le hs').1 this).symm
  subst hss
  have cancel : ∀ {x y : V3 ℝ}, x.smul s' = y.smul s' → x = y := by
    intro x y h
    simp only [V3.smul, V3.mk.injEq] at h
    exact V3.ext (mul_left_cancel₀ hs.ne' h.1) (mul_left_cancel₀ hs.ne' h.2.1) (mul_left_cancel₀ hs.ne' h.2.2)
  have hu' := cancel hu
  have hv' := cancel hv
  have hw' : R.mulVec (u.cross v) = R'.mulVec (u.cross v) := by
    rw [AngleAxis.mulVec_cross hR, AngleAxis.mulVec_cross hR', hu', hv']
  -- every vector is a combination of the three
  have hk := V3.self_pos hn
  have hRR : R' = R := by
    apply eq_of_mulVec
    intro p
    have hp : p.smul ((u.cross v).dot (u.cross v)) = ((u.smul ((p.cross v).dot (u.cross v))).add
        (v.smul ((u.cross p).dot (u.cross v)))).add ((u.cross v).smul (p.dot (u.cross v))) := by
      apply V3.ext <;> simp only [V3.smul, V3.add, V3.dot, V3.cross] <;> ring
    have hA : ∀ A : M3 ℝ, (A.mulVec p).smul ((u.cross v).dot (u.cross v)) =
        (((A.mulVec u).smul ((p.cross v).dot (u.cross v))).add
          ((A.mulVec v).smul ((u.cross p).dot (u.cross v)))).add ((A.mulVec (u.cross v)).smul (p.dot (u.cross v))) := by
      intro A
      rw [← M3.mulVec_smul, hp, M3.mulVec_add, M3.mulVec_add, M3.mulVec_smul, M3.mulVec_smul, M3.mulVec_smul]
    have h1 := hA R
    have h2 := hA R'
    rw [hu', hv', hw', ← h2] at h1
    simp only [V3.smul, V3.mk.injEq] at h1
    exact V3.ext (mul_left_cancel₀ hk.ne' h1.1.symm) (mul_left_cancel₀ hk.ne' h1.2.1.symm)
      (mul_left_cancel₀ hk.ne' h1.2.2.symm)
  refine ⟨hRR, ?_, rfl⟩
  subst hRR
  simp only [similarity, V3.add, V3.mk.injEq] at ha
  apply V3.ext
  · linarith [ha.1]
  · linarith [ha.2.1]
  · linarith [ha.2.2]

theorem error_zero {ms : List Match} (hw : ∀ m ∈ ms, 0 < m.weight) {R : M3 ℝ} {t : V3 ℝ} {s : ℝ}
    (h : matchError ms R t s ≤ 0) : ∀ m ∈ ms, m.right = similarity R t s m.left := by
  unfold matchError at h
  induction ms with
  | nil => intro m hm; simp at hm
  | cons d ds ih =>
    rw [List.map_cons, List.sum_cons] at h
    have hd := hw d List.mem_cons_self
    have h1 := mul_nonneg hd.le (V3.self_nonneg (d.right.sub (similarity R t s d.left)))
    have h2 : 0 ≤ (ds.map (fun m => m.weight * (m.right.sub (similarity R t s m.left)).dot
        (m.right.sub (similarity R t s m.left)))).sum := by
      apply List.sum_nonneg
      intro x hx
      obtain ⟨m, hm, rfl⟩ := List.mem_map.1 hx
      exact mul_nonneg (hw m (List.mem_cons_of_mem _ hm)).le (V3.self_nonneg _)
    intro m hm
    rcases List.mem_cons.1 hm with rfl | hm
    · have h3 : m.weight * (m.right.sub (similarity R t s m.left)).dot (m.right.sub (similarity R t s m.left)) = 0 := by
        linarith
      exact V3.sub_eq_zero (V3.self_eq_zero ((mul_eq_zero.1 h3).resolve_left hd.ne'))
    · exact ih (fun m hm => hw m (List.mem_cons_of_mem _ hm)) (by linarith) m hm

/-- `sigma` is zero exactly if all the points with positive weight are equal. -/
theorem sigma_eq_zero {ms : List Match} (hw : ∀ m ∈ ms, 0 ≤ m.weight) (hW : 0 < weightSum ms) (h : sigma ms = 0) :
    ∀ m ∈ ms, m.weight ≠ 0 → m.left = leftCentroid ms := by
  have hsum : (ms.map (fun m => (m.left.sub (leftCentroid ms)).dot (m.left.sub (leftCentroid ms)) * m.weight)).sum = 0 := by
    unfold sigma at h
    exact (div_eq_zero_iff.1 h).resolve_right hW.ne'
  generalize leftCentroid ms = c at hsum ⊢
  clear h hW
  induction ms with
  | nil => intro m hm; simp at hm
  | cons d ds ih =>
    rw [List.map_cons, List.sum_cons] at hsum
    have h1 := mul_nonneg (V3.self_nonneg (d.left.sub c)) (hw d List.mem_cons_self)
    have h2 : 0 ≤ (ds.map (fun m => (m.left.sub c).dot (m.left.sub c) * m.weight)).sum := by
      apply List.sum_nonneg
      intro x hx
      obtain ⟨m, hm, rfl⟩ := List.mem_map.1 hx
      exact mul_nonneg (V3.self_nonneg _) (hw m (List.mem_cons_of_mem _ hm))
    intro m hm hmw
    rcases List.mem_cons.1 hm with rfl | hm
    · have h3 : (m.left.sub c).dot (m.left.sub c) * m.weight = 0 := by linarith
      exact V3.sub_eq_zero (V3.self_eq_zero ((mul_eq_zero.1 h3).resolve_right hmw))
    · exact ih (fun m hm => hw m (List.mem_cons_of_mem _ hm)) (by linarith) m hm hmw

theorem sum_smul_const (c : V3 ℝ) : ∀ (ms : List Match), (∀ m ∈ ms, m.weight ≠ 0 → m.left = c) →
    sumV (ms.map (fun m => m.left.smul m.weight)) = c.smul (weightSum ms) := by
  intro ms
  induction ms with
  | nil => intro _; simp [sumV, weightSum, V3.zero, V3.smul]
  | cons d ds ih =>
    intro h
    rw [List.map_cons, sumV, ih (fun m hm => h m (List.mem_cons_of_mem _ hm))]
    have e : d.left.smul d.weight = c.smul d.weight := by
      by_cases hz : d.weight = 0
      · rw [hz, V3.zero_smul', V3.zero_smul']
      · rw [h d List.mem_cons_self hz]
    rw [e]
    simp only [weightSum, List.map_cons, List.sum_cons]
    apply V3.ext <;> simp only [V3.add, V3.smul] <;> ring

theorem sigma_zero_of_equal {ms : List Match} (hW : 0 < weightSum ms) {c : V3 ℝ}
    (h : ∀ m ∈ ms, m.weight ≠ 0 → m.left = c) : sigma ms = 0 := by
  have hc : leftCentroid ms = c := by
    unfold leftCentroid
    rw [sum_smul_const c ms h, V3.smul_smul, inv_mul_cancel₀ hW.ne', V3.one_smul']
  unfold sigma
  rw [hc]
  have e : ms.map (fun m => (m.left.sub c).dot (m.left.sub c) * m.weight) = ms.map (fun _ => (0 : ℝ)) := by
    apply List.map_congr_left
    intro m hm
    by_cases hz : m.weight = 0
    · rw [hz, mul_zero]
    · rw [h m hm hz]; simp [V3.sub, V3.dot]
  rw [e]
  simp

/-- Every matrix has a singular value decomposition with its singular values. -/
theorem exists_fullSvd : ∃ svd : M3 ℝ → M3 ℝ × M3 ℝ × V3 ℝ, ∀ m, IsFullSvd m (svd m).1 (svd m).2.1 (svd m).2.2 := by
  have h : ∀ m, ∃ U V s, IsFullSvd m U V s := by
    intro m
    obtain ⟨U, V, hU, hV, s, h1, h2, h3, e⟩ := Svd.exists_svd m
    exact ⟨U, V, s, hU, hV, h1, h2, h3, e⟩
  choose U V s hs using h
  exact ⟨fun m => (U m, V m, s m), hs⟩

end AlignPoints
end Theia
