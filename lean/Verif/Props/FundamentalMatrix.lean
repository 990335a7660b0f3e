import Verif.Proof.FundamentalMatrix

/-!
# C57: fundamental matrices relate the images of the same point
-/

namespace Theia

open Triangulation FundamentalMatrix Spec

/-! ## Projection matrices -/

/-- The fundamental matrix of two projection matrices satisfies `point1^t F point2 = 0` for the images of every point. -/
theorem C57_from_projections (P1 P2 : P34) {X p1 p2 : V3 ℝ} {w : ℝ} (h1 : ImageOf P1.1 P1.2 X w p1)
    (h2 : ImageOf P2.1 P2.2 X w p2) : Epipolar p1 (fromProjections P1 P2) p2 := by
  rw [ImageOf] at h1 h2
  subst h1 h2
  exact epipolar_identity P1 P2 (X, w)

/-- The projection matrices made from a fundamental matrix satisfy its constraint, with the first camera on the left. -/
theorem C57_to_projections {nullVector : M3 ℝ → V3 ℝ} {F : M3 ℝ} (hn : UnitNull F (nullVector F)) {X p1 p2 : V3 ℝ} {w : ℝ}
    (h1 : ImageOf (toProjections nullVector F).1.1 (toProjections nullVector F).1.2 X w p1)
    (h2 : ImageOf (toProjections nullVector F).2.1 (toProjections nullVector F).2.2 X w p2) : Epipolar p1 F p2 := by
  simp only [ImageOf, toProjections] at h1 h2
  subst h1 h2
  have hn := hn.2
  generalize nullVector F = e at hn
  rw [Epipolar, M3.one_mulVec, M3.mulVec_add, M3.mulVec_smul, hn, M3.mulVec_mul, crossMatrix_mulVec]
  have e1 : (X.add (V3.zero.smul w)) = X := by
    apply V3.ext <;> simp [V3.add, V3.smul, V3.zero]
  rw [e1]
  have e2 : (F.mulVec (e.cross (F.transpose.mulVec X))).add (V3.zero.smul w) = F.mulVec (e.cross (F.transpose.mulVec X)) := by
    apply V3.ext <;> simp [V3.add, V3.smul, V3.zero]
  rw [e2, dot_transpose]
  simp only [V3.dot, V3.cross]; ring

/-- The fundamental matrix of the projection matrices made from `F` is `F` again. -/
theorem C57_projections_round_trip {nullVector : M3 ℝ → V3 ℝ} {F : M3 ℝ} (hn : UnitNull F (nullVector F)) :
    fromProjections (toProjections nullVector F).1 (toProjections nullVector F).2 = F := by
  obtain ⟨hu, hn⟩ := hn
  simp only [toProjections]
  generalize nullVector F = e at hu hn
  simp only [M3.mulVec, V3.zero, V3.mk.injEq, V3.dot] at hn
  obtain ⟨n1, n2, n3⟩ := hn
  simp only [V3.dot] at hu
  apply M3.ext <;> apply V3.ext <;>
    simp only [fromProjections, fundamentalEntry, index1, index2, row, det4, M3.one, V3.zero, crossMatrix, M3.mul, M3.transpose,
      M3.mulVec, V3.dot, V3.cross]
  · linear_combination F.r1.x * hu - e.x * n1
  · linear_combination F.r1.y * hu - e.y * n1
  · linear_combination F.r1.z * hu - e.z * n1
  · linear_combination F.r2.x * hu - e.x * n2
  · linear_combination F.r2.y * hu - e.y * n2
  · linear_combination F.r2.z * hu - e.z * n2
  · linear_combination F.r3.x * hu - e.x * n3
  · linear_combination F.r3.y * hu - e.y * n3
  · linear_combination F.r3.z * hu - e.z * n3

/-- A matrix of rank two, with its null vector. -/
example : fromProjections (toProjections (fun _ => ⟨0, 0, 1⟩) ⟨⟨1, 2, 0⟩, ⟨0, 1, 0⟩, ⟨3, 4, 0⟩⟩).1
    (toProjections (fun _ => ⟨0, 0, 1⟩) ⟨⟨1, 2, 0⟩, ⟨0, 1, 0⟩, ⟨3, 4, 0⟩⟩).2 = ⟨⟨1, 2, 0⟩, ⟨0, 1, 0⟩, ⟨3, 4, 0⟩⟩ :=
  C57_projections_round_trip ⟨by norm_num [V3.dot], by apply V3.ext <;> norm_num [M3.mulVec, V3.dot, V3.zero]⟩

/-! ## Composing -/

/-- The composed matrix satisfies `point2^t F point1 = 0` for the images of every point in the cameras `K1 [I | 0]` and
`K2 [R | t]`. -/
theorem C57_compose {f1 f2 : ℝ} (h1 : f1 ≠ 0) (h2 : f2 ≠ 0) (R : M3 ℝ) (t : V3 ℝ) :
    ∃ F, compose f1 f2 R t = .ok F ∧ ∀ (X : V3 ℝ) (w : ℝ) (p1 p2 : V3 ℝ), ImageOf (Calib f1) V3.zero X w p1 →
      ImageOf ((Calib f2).mul R) ((Calib f2).mulVec t) X w p2 → Epipolar p2 F p1 := by
  refine ⟨_, if_neg (by simp [h1, h2]), fun X w p1 p2 i1 i2 => ?_⟩
  rw [ImageOf] at i1 i2
  subst i1 i2
  have e1 : (focalDiag (1 / f1)).mulVec (((Calib f1).mulVec X).add (V3.zero.smul w)) = X := by
    apply V3.ext <;> simp only [focalDiag, Calib, M3.mulVec, V3.dot, V3.add, V3.smul, V3.zero] <;> field_simp <;> ring
  have e2 : ((focalDiag (1 / f2)).transpose.mulVec ((((Calib f2).mul R).mulVec X).add (((Calib f2).mulVec t).smul w))) =
      (R.mulVec X).add (t.smul w) := by
    rw [M3.mulVec_mul, ← M3.mulVec_smul, ← M3.mulVec_add]
    generalize (R.mulVec X).add (t.smul w) = v
    apply V3.ext <;> simp only [focalDiag, Calib, M3.mulVec, M3.transpose, V3.dot] <;> field_simp <;> ring
  simp only [Epipolar, M3.mulVec_mul _ (focalDiag (1 / f1)), e1]
  rw [M3.mulVec_mul ((focalDiag (1 / f2)).mul (crossMatrix t)) R, M3.mulVec_mul (focalDiag _) (crossMatrix t), crossMatrix_mulVec, dot_transpose, e2]
  simp only [V3.dot, V3.cross, V3.add, V3.smul]; ring

/-- The essential matrix extracted from the composed matrix is `[t]_x R`; with a focal length of zero the result is
undefined. -/
theorem C57_compose_round_trip (f1 f2 : ℝ) (R : M3 ℝ) (t : V3 ℝ) :
    (f1 ≠ 0 → f2 ≠ 0 → ∃ F, compose f1 f2 R t = .ok F ∧
      ∀ v, (essentialOf F f1 f2).mulVec v = t.cross (R.mulVec v)) ∧
    (f1 = 0 ∨ f2 = 0 → compose f1 f2 R t = .ub) := by
  refine ⟨fun h1 h2 => ⟨_, if_neg (by simp [h1, h2]), fun v => ?_⟩, fun h => if_pos h⟩
  have e : ∀ {f : ℝ}, f ≠ 0 → ∀ v, (focalDiag (1 / f)).mulVec ((focalDiag f).mulVec v) = v := by
    intro f hf v
    apply V3.ext <;> simp only [focalDiag, M3.mulVec, V3.dot] <;> field_simp <;> ring
  have e' : ∀ {f : ℝ}, f ≠ 0 → ∀ v, (focalDiag f).mulVec ((focalDiag (1 / f)).mulVec v) = v := by
    intro f hf v
    apply V3.ext <;> simp only [focalDiag, M3.mulVec, V3.dot] <;> field_simp <;> ring
  simp only [essentialOf, M3.mulVec_mul, crossMatrix_mulVec, e h1, e' h2]

example : ∃ F, compose 2 3 M3.one ⟨1, 0, 0⟩ = .ok F ∧
    ∀ v, (essentialOf F 2 3).mulVec v = (⟨1, 0, 0⟩ : V3 ℝ).cross (M3.one.mulVec v) :=
  (C57_compose_round_trip 2 3 M3.one ⟨1, 0, 0⟩).1 (by norm_num) (by norm_num)

/-! ## Focal lengths -/

/-- From a multiple of the fundamental matrix of two cameras in general position, both focal lengths are recovered. -/
theorem C57_focal_lengths {nullVector : M3 ℝ → V3 ℝ} {F R : M3 ℝ} {k f1 f2 : ℝ} {t : V3 ℝ} (hR : R.IsRotation) (hk : k ≠ 0)
    (hf1 : 0 < f1) (hf2 : 0 < f2) (hF : FundamentalOf F k f1 f2 R t) (hg : Generic R t) (hn1 : UnitNull F (nullVector F))
    (hn2 : UnitNull F.transpose (nullVector F.transpose)) : focalLengths nullVector F = .ok (some (f1, f2)) := by
  have ht : t ≠ V3.zero := by
    rintro rfl; exact hg.column2 rfl
  obtain ⟨l, hl, he1⟩ := epipole1 hR ht hk hf1.ne' hF hn1
  obtain ⟨m, hm, he2⟩ := epipole2 hR ht hk hf2.ne' hF hn2
  unfold focalLengths
  simp only
  generalize nullVector F = e1 at he1
  generalize nullVector F.transpose = e2 at he2
  have hx1 : e1.x ≠ 0 := by
    rw [he1]; simp only [Calib, M3.mulVec, V3.dot, V3.smul, zero_mul, add_zero]
    have := hg.column1
    simp only [M3.mulVec] at this
    exact mul_ne_zero hl (mul_ne_zero hf1.ne' this)
  have hx2 : e2.x ≠ 0 := by
    rw [he2]; simp only [Calib, M3.mulVec, V3.dot, V3.smul, zero_mul, add_zero]
    exact mul_ne_zero hm (mul_ne_zero hf2.ne' hg.column2)
  rw [if_neg (by simp [hx1, hx2])]
  obtain ⟨r1, hr1, hz1⟩ := zRotation_epipole hx1
  obtain ⟨r2, hr2, hz2⟩ := zRotation_epipole hx2
  generalize atan2 (-e1.y) e1.x = θ1 at hz1 ⊢
  generalize atan2 (-e2.y) e2.x = θ2 at hz2 ⊢
  have hZ1 := isRotation_zRotation θ1
  have hZ2 := isRotation_zRotation θ2
  have hs : ((((zRotation θ2).mul R).mul (zRotation θ1).transpose).transpose).mulVec ((zRotation θ2).mulVec t) =
      (zRotation θ1).mulVec (R.transpose.mulVec t) := by
    have h' : (((zRotation θ2).mul R).mul (zRotation θ1).transpose).mulVec ((zRotation θ1).mulVec (R.transpose.mulVec t)) =
        (zRotation θ2).mulVec t := by
      rw [M3.mulVec_mul, M3.mulVec_mul, hZ1.transpose_mulVec, hR.mulVec_transpose]
    conv_lhs => rw [← h']
    rw [((hZ2.mul hR).mul hZ1.transpose).transpose_mulVec]
  have he1' : (zRotation θ1).mulVec e1 = ((Calib f1).mulVec ((zRotation θ1).mulVec (R.transpose.mulVec t))).smul l := by
    rw [he1, M3.mulVec_smul, calib_zRotation]
  have he2' : (zRotation θ2).mulVec e2 = ((Calib f2).mulVec ((zRotation θ2).mulVec t)).smul m := by
    rw [he2, M3.mulVec_smul, calib_zRotation]
  have hc : ∀ v : V3 ℝ, ((zRotation θ2).mulVec t).cross ((((zRotation θ2).mul R).mul (zRotation θ1).transpose).mulVec v) =
      (zRotation θ2).mulVec (t.cross (R.mulVec ((zRotation θ1).transpose.mulVec v))) := by
    intro v
    rw [M3.mulVec_mul, M3.mulVec_mul, ← AngleAxis.mulVec_cross hZ2]
  have hax := zRotation_axis θ1
  have hax2 := zRotation_axis θ2
  have hdotaxis : ∀ v : V3 ℝ, axis.dot ((zRotation θ2).mulVec v) = axis.dot v := by
    intro v; rw [dot_transpose, hax2.2]
  -- coordinates of the rotated epipoles
  have c1 : (r1 = l * (f1 * ((zRotation θ1).mulVec (R.transpose.mulVec t)).x)) ∧
      (0 = l * (f1 * ((zRotation θ1).mulVec (R.transpose.mulVec t)).y)) := by
    have := he1'
    rw [hz1] at this
    generalize (zRotation θ1).mulVec (R.transpose.mulVec t) = s at this
    simp only [Calib, M3.mulVec, V3.dot, V3.smul, V3.mk.injEq] at this
    exact ⟨by linarith [this.1], by linarith [this.2.1]⟩
  have c2 : (r2 = m * (f2 * ((zRotation θ2).mulVec t).x)) ∧ (0 = m * (f2 * ((zRotation θ2).mulVec t).y)) := by
    have := he2'
    rw [hz2] at this
    generalize (zRotation θ2).mulVec t = s at this
    simp only [Calib, M3.mulVec, V3.dot, V3.smul, V3.mk.injEq] at this
    exact ⟨by linarith [this.1], by linarith [this.2.1]⟩
  refine focal_rotated (R := ((zRotation θ2).mul R).mul (zRotation θ1).transpose) (t := (zRotation θ2).mulVec t) (k := k)
    ((hZ2.mul hR).mul hZ1.transpose) hk hf1 hf2 ?_ ?_ ?_ ?_ ?_ ?_ ?_ ?_ ?_ hl hm ?_ he2'
  · intro v
    rw [M3.mulVec_mul, M3.mulVec_mul, hc, calib_zRotation, ← calib_zRotation_transpose, hF, M3.mulVec_smul]
  · exact ((mul_eq_zero.1 ((mul_eq_zero.1 c2.2.symm).resolve_left hm)).resolve_left hf2.ne')
  · rw [hs]; exact ((mul_eq_zero.1 ((mul_eq_zero.1 c1.2.symm).resolve_left hl)).resolve_left hf1.ne')
  · intro h; rw [h] at c2; exact hr2 (by rw [c2.1]; ring)
  · rw [hs]; intro h; rw [h] at c1; exact hr1 (by rw [c1.1]; ring)
  · simpa [zRotation, M3.mulVec, V3.dot] using hg.depth2
  · rw [hs]
    have : ∀ v : V3 ℝ, ((zRotation θ1).mulVec v).z = v.z := by
      intro v; simp [zRotation, M3.mulVec, V3.dot]
    rw [this]; exact hg.depth1
  · rw [hc, hax.2, hdotaxis]; exact hg.skew
  · have : ((zRotation θ2).mulVec t).cross axis = (zRotation θ2).mulVec (t.cross axis) := by
      rw [AngleAxis.mulVec_cross hZ2, hax2.1]
    rw [hc, hax.2, this, hZ2.dot]; exact hg.notPerpendicular
  · rw [hs]; exact he1'

/-- The rotation by a 3-4-5 angle about the vertical axis. -/
noncomputable def turn345 : M3 ℝ := ⟨⟨4 / 5, 0, 3 / 5⟩, ⟨0, 1, 0⟩, ⟨-(3 / 5), 0, 4 / 5⟩⟩

theorem isRotation_turn345 : turn345.IsRotation := by
  refine ⟨?_, ?_, ?_⟩
  · apply M3.ext <;> apply V3.ext <;> norm_num [turn345, M3.mul, M3.transpose, M3.mulVec, M3.one, V3.dot]
  · apply M3.ext <;> apply V3.ext <;> norm_num [turn345, M3.mul, M3.transpose, M3.mulVec, M3.one, V3.dot]
  · norm_num [turn345, M3.det, V3.dot, V3.cross]

/-- General positions exist. -/
example : Generic turn345 ⟨1, 1, 1⟩ := by
  constructor <;> norm_num [turn345, axis, V3.dot, V3.cross, M3.mulVec, M3.transpose]

/-- Cameras in general position, their fundamental matrix and its null vectors. -/
example : ∃ nullVector F, FundamentalOf F 1 2 3 turn345 ⟨1, 1, 1⟩ ∧ focalLengths nullVector F = .ok (some (2, 3)) := by
  obtain ⟨N, hN⟩ := exists_nullVector
  obtain ⟨F, -, hF⟩ := (C57_compose_round_trip 2 3 turn345 ⟨1, 1, 1⟩).1 (by norm_num) (by norm_num)
  have hF' : FundamentalOf F 1 2 3 turn345 ⟨1, 1, 1⟩ := by
    intro v
    have := hF v
    rw [essentialOf, M3.mulVec_mul, M3.mulVec_mul] at this
    rw [V3.one_smul']
    exact this
  have h0 := fundamentalOf_null isRotation_turn345 (by intro h; simpa [V3.zero] using congrArg V3.z h) (by norm_num)
    (by norm_num) hF'
  refine ⟨N, F, hF', C57_focal_lengths isRotation_turn345 one_ne_zero (by norm_num) (by norm_num) hF' ?_ (hN _ h0.1) (hN _ h0.2)⟩
  constructor <;> norm_num [turn345, axis, V3.dot, V3.cross, M3.mulVec, M3.transpose]

/-- Whenever two positive focal lengths are returned, the calibrated matrix is an essential matrix: there are a rotation and
a translation of which the given matrix is the fundamental matrix with these focal lengths. -/
theorem C57_focal_lengths_valid {nullVector : M3 ℝ → V3 ℝ} {F : M3 ℝ} {f1 f2 : ℝ} (hn1 : UnitNull F (nullVector F))
    (hn2 : UnitNull F.transpose (nullVector F.transpose)) (h : focalLengths nullVector F = .ok (some (f1, f2)))
    (hf1 : 0 < f1) (hf2 : 0 < f2) : ∃ (R : M3 ℝ) (t : V3 ℝ) (k : ℝ), R.IsRotation ∧ t ≠ V3.zero ∧ k ≠ 0 ∧
      FundamentalOf F k f1 f2 R t := by
  unfold focalLengths at h
  simp only at h
  generalize nullVector F = e1 at h hn1
  generalize nullVector F.transpose = e2 at h hn2
  by_cases hx : e1.x = 0 ∨ e2.x = 0
  · rw [if_pos hx] at h; simp at h
  rw [if_neg hx, ] at h
  rw [not_or] at hx
  obtain ⟨r1, hr1, hz1⟩ := zRotation_epipole hx.1
  obtain ⟨r2, hr2, hz2⟩ := zRotation_epipole hx.2
  generalize atan2 (-e1.y) e1.x = θ1 at hz1 h
  generalize atan2 (-e2.y) e2.x = θ2 at hz2 h
  have hZ1 := isRotation_zRotation θ1
  have hZ2 := isRotation_zRotation θ2
  rw [hz1, hz2] at h
  have m1 : (((zRotation θ2).mul F).mul (zRotation θ1).transpose).mulVec ⟨r1, 0, e1.z⟩ = V3.zero := by
    rw [← hz1, M3.mulVec_mul, M3.mulVec_mul, hZ1.transpose_mulVec, hn1.2, mulVec_zero']
  have m2 : (((zRotation θ2).mul F).mul (zRotation θ1).transpose).transpose.mulVec ⟨r2, 0, e2.z⟩ = V3.zero := by
    have : ∀ v, (((zRotation θ2).mul F).mul (zRotation θ1).transpose).transpose.mulVec v =
        (zRotation θ1).mulVec (F.transpose.mulVec ((zRotation θ2).transpose.mulVec v)) := by
      intro v
      rw [M3.transpose_mul, M3.transpose_mul, M3.mulVec_mul, M3.mulVec_mul]; rfl
    rw [this, ← hz2, hZ2.transpose_mulVec, hn2.2, mulVec_zero']
  obtain ⟨R, t, k, hR, ht, hk, hF⟩ := focal_sound hf1 hf2 hr1 hr2 m1 m2 h
  refine ⟨((zRotation θ2).transpose.mul R).mul (zRotation θ1), (zRotation θ2).transpose.mulVec t, k,
    (hZ2.transpose.mul hR).mul hZ1, ?_, hk, fun v => ?_⟩
  · intro h0
    exact ht (EssentialMatrix.mulVec_eq_zero hZ2.transpose h0)
  · have := congrArg (zRotation θ2).transpose.mulVec (hF ((zRotation θ1).mulVec v))
    rw [M3.mulVec_mul, M3.mulVec_mul, calib_zRotation_transpose' hZ1, hZ1.transpose_mulVec, calib_zRotation,
      hZ2.transpose_mulVec, M3.mulVec_smul, AngleAxis.mulVec_cross hZ2.transpose] at this
    rw [this, M3.mulVec_mul, M3.mulVec_mul]

/-- The check for degenerate epipoles is made before they are rotated, so two cameras one of which is straight above the
other in depth, although otherwise in general position, are refused. -/
theorem C57_focal_vertical_counterexample {nullVector : M3 ℝ → V3 ℝ} {F : M3 ℝ} {k f1 f2 : ℝ} (hk : k ≠ 0) (hf2 : f2 ≠ 0)
    (hF : FundamentalOf F k f1 f2 turn345 ⟨0, 1, 1⟩) (hn2 : UnitNull F.transpose (nullVector F.transpose)) :
    focalLengths nullVector F = .ok none ∧
      axis.dot ((⟨0, 1, 1⟩ : V3 ℝ).cross (turn345.mulVec axis)) ≠ 0 ∧
      ((⟨0, 1, 1⟩ : V3 ℝ).cross axis).dot ((⟨0, 1, 1⟩ : V3 ℝ).cross (turn345.mulVec axis)) ≠ 0 ∧
      (turn345.transpose.mulVec (⟨0, 1, 1⟩ : V3 ℝ)).z ≠ 0 := by
  refine ⟨?_, ?_, ?_, ?_⟩
  · obtain ⟨m, -, he⟩ := epipole2 isRotation_turn345 (by intro h; simpa [V3.zero] using congrArg V3.z h) hk hf2 hF hn2
    unfold focalLengths
    refine if_pos (Or.inr ?_)
    rw [he]; simp [Calib, M3.mulVec, V3.dot, V3.smul]
  · norm_num [turn345, axis, V3.dot, V3.cross, M3.mulVec]
  · norm_num [turn345, axis, V3.dot, V3.cross, M3.mulVec]
  · norm_num [turn345, V3.dot, M3.mulVec, M3.transpose]

/-- If the second camera moves sideways only, the function divides by zero instead of returning false. -/
theorem C57_focal_sideways_counterexample {nullVector : M3 ℝ → V3 ℝ} {F R : M3 ℝ} {k f1 f2 : ℝ} {t : V3 ℝ} (hR : R.IsRotation)
    (hk : k ≠ 0) (hf1 : f1 ≠ 0) (hf2 : f2 ≠ 0) (hF : FundamentalOf F k f1 f2 R t) (hn1 : UnitNull F (nullVector F))
    (hn2 : UnitNull F.transpose (nullVector F.transpose)) (hx2 : t.x ≠ 0) (hx1 : (R.transpose.mulVec t).x ≠ 0) (hz : t.z = 0) :
    focalLengths nullVector F = .ub := by
  have ht : t ≠ V3.zero := by
    rintro rfl; exact hx2 rfl
  obtain ⟨l, hl, he1⟩ := epipole1 hR ht hk hf1 hF hn1
  obtain ⟨m, hm, he2⟩ := epipole2 hR ht hk hf2 hF hn2
  unfold focalLengths
  simp only
  generalize nullVector F = e1 at he1
  generalize nullVector F.transpose = e2 at he2
  have hx1' : e1.x ≠ 0 := by
    rw [he1]; simp only [Calib, M3.mulVec, V3.dot, V3.smul, zero_mul, add_zero]
    simp only [M3.mulVec] at hx1
    exact mul_ne_zero hl (mul_ne_zero hf1 hx1)
  have hx2' : e2.x ≠ 0 := by
    rw [he2]; simp only [Calib, M3.mulVec, V3.dot, V3.smul, zero_mul, add_zero]
    exact mul_ne_zero hm (mul_ne_zero hf2 hx2)
  have hz2 : e2.z = 0 := by
    rw [he2]; simp [Calib, M3.mulVec, V3.dot, V3.smul, hz]
  rw [if_neg (by simp [hx1', hx2'])]
  unfold focalFromRotated
  refine if_pos (Or.inr (Or.inr (Or.inr ?_)))
  simp [zRotation, M3.mulVec, V3.dot, hz2]

end Theia
