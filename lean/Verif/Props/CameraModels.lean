import Mathlib.Analysis.Real.Pi.Bounds
import Verif.Proof.CameraTangential
import Verif.Proof.CameraLenses
import Verif.Spec.CameraModels

/-!
# C46: projection and back-projection
-/

namespace Theia

open CameraModels Spec AngleAxis

/-! ## Pinhole -/

/-- C46. Without distortion the pinhole model projects and back-projects exactly. -/
theorem C46_pinhole (c : Calibration) (hf : c.focal ≠ 0) (ha : c.aspect ≠ 0) :
    (∀ pixel, PixelReturns (pinholeToPixel c 0 0) (pinholeToCamera c 0 0) pixel) ∧
    (∀ point : V3 ℝ, point.z ≠ 0 → RayReturns (pinholeToPixel c 0 0) (pinholeToCamera c 0 0) point ∧
      DepthInvariant (pinholeToPixel c 0 0) point) := by
  have hdist : ∀ u, pinholeDistort 0 0 u = u := by
    intro u
    simp [pinholeDistort, radialFactor]
  have hund : ∀ p, pinholeUndistort 0 0 p = .ok p := by
    intro p
    have hn : pinholeNext 0 0 p p = .ok p := by simp [pinholeNext, radialFactor, divide]
    unfold pinholeUndistort undistortLoop
    rw [hn, Outcome.ok_bind, if_pos (by simp)]
  refine ⟨?_, ?_⟩
  · intro pixel
    obtain ⟨d, hd, hap⟩ := undo_ok hf ha pixel
    refine ⟨⟨d.1, d.2, 1⟩, ?_, rfl, ?_⟩
    · unfold pinholeToCamera
      rw [hd, Outcome.ok_bind, hund, Outcome.ok_bind]
    · unfold pinholeToPixel
      rw [normalized_one, Outcome.ok_bind, hdist, hap]
  · intro point hz
    refine ⟨⟨c.apply (point.x / point.z, point.y / point.z), ?_, ?_⟩, ?_⟩
    · unfold pinholeToPixel
      rw [normalized_ok hz, Outcome.ok_bind, hdist]
    · unfold pinholeToCamera
      rw [undo_apply hf ha, Outcome.ok_bind, hund, Outcome.ok_bind]
      congr 1
      apply V3.ext <;> simp only [V3.smul] <;> field_simp
    · intro s hs
      unfold pinholeToPixel
      rw [normalized_smul hz hs]

/-- C46. With moderate radial distortion, distorting the undistorted point gives the point back up to 1e-10 in each
coordinate: the iteration converges within its 100 steps. -/
theorem C46_pinhole_undistort_distort (k1 k2 : ℝ) (p : ℝ × ℝ) (hm : Spec.Moderate k1 k2 (p.1 * p.1 + p.2 * p.2))
    (h1 : |p.1| ≤ 10 ^ 9) (h2 : |p.2| ≤ 10 ^ 9) :
    ∃ u, pinholeUndistort k1 k2 p = .ok u ∧ Near (pinholeDistort k1 k2 u) p (1 / 10 ^ 10) (1 / 10 ^ 10) := by
  have hs : 0 ≤ p.1 * p.1 + p.2 * p.2 := add_nonneg (mul_self_nonneg _) (mul_self_nonneg _)
  obtain ⟨d', hd', hu, hcase⟩ := undistort_radial hm
  refine ⟨_, hu, ?_, ?_⟩
  · show |p.1 / d' * radialFactor k1 k2 (p.1 / d', p.2 / d') - p.1| ≤ _
    rw [radialFactor_div]
    refine backward_coord hd' h1 ?_
    rcases hcase with ⟨d'', hd'', he, ha, _⟩ | h
    · refine Or.inl ⟨d'', hd'', ?_, ha⟩
      conv_lhs => rw [he]
      exact nextD_contract hs hm (he ▸ hd') hd'' |>.trans (by rw [← he])
    · exact Or.inr h
  · show |p.2 / d' * radialFactor k1 k2 (p.1 / d', p.2 / d') - p.2| ≤ _
    rw [radialFactor_div]
    refine backward_coord hd' h2 ?_
    rcases hcase with ⟨d'', hd'', he, _, ha⟩ | h
    · refine Or.inl ⟨d'', hd'', ?_, ha⟩
      conv_lhs => rw [he]
      exact nextD_contract hs hm (he ▸ hd') hd'' |>.trans (by rw [← he])
    · exact Or.inr h

/-- C46. With moderate radial distortion, undistorting the distorted point gives the point back up to 3e-10 in each
coordinate. -/
theorem C46_pinhole_distort_undistort (k1 k2 : ℝ) (u : ℝ × ℝ) (hm : Spec.Moderate k1 k2 (2 * (u.1 * u.1 + u.2 * u.2)))
    (h1 : |u.1| ≤ 10 ^ 8) (h2 : |u.2| ≤ 10 ^ 8) :
    ∃ u', pinholeUndistort k1 k2 (pinholeDistort k1 k2 u) = .ok u' ∧ Near u' u (3 / 10 ^ 10) (3 / 10 ^ 10) := by
  obtain ⟨hds, hB, hfix, hq1, hq2⟩ := distorted_facts hm
  have hs : 0 ≤ (pinholeDistort k1 k2 u).1 * (pinholeDistort k1 k2 u).1 +
      (pinholeDistort k1 k2 u).2 * (pinholeDistort k1 k2 u).2 := add_nonneg (mul_self_nonneg _) (mul_self_nonneg _)
  have big : ∀ x : ℝ, |x| ≤ 10 ^ 8 → |x * radialFactor k1 k2 u| ≤ 10 ^ 9 := by
    intro x hx
    rw [abs_mul, abs_of_pos (inv_bounds hds).2.2]
    exact (mul_le_mul hx hds.2 (inv_bounds hds).2.2.le (by norm_num)).trans (by norm_num)
  obtain ⟨d', hd', hu, hcase⟩ := undistort_radial hB
  have hG := nextD_contract hs hB hd' hds
  rw [hfix] at hG
  refine ⟨_, hu, ?_, ?_⟩
  · have := forward_coord (x := (pinholeDistort k1 k2 u).1) hd' hds (big _ h1) hG (by
      rcases hcase with ⟨d'', hd'', he, ha, _⟩ | h
      · refine Or.inl ⟨d'', hd'', ?_, ha⟩
        have := nextD_contract hs hB hd'' hds
        rwa [hfix, ← he] at this
      · exact Or.inr h)
    rwa [hq1] at this
  · have := forward_coord (x := (pinholeDistort k1 k2 u).2) hd' hds (big _ h2) hG (by
      rcases hcase with ⟨d'', hd'', he, _, ha⟩ | h
      · refine Or.inl ⟨d'', hd'', ?_, ha⟩
        have := nextD_contract hs hB hd'' hds
        rwa [hfix, ← he] at this
      · exact Or.inr h)
    rwa [hq2] at this

/-- C46. With moderate radial distortion a pixel goes to a ray of unit depth that projects back within 1e-10 focal
lengths, and the ray of a point's pixel passes the point within 3e-10 at unit depth; all points of a line through the
camera centre have the same pixel. -/
theorem C46_pinhole_radial (c : Calibration) (k1 k2 : ℝ) (hf : c.focal ≠ 0) (ha : c.aspect ≠ 0) :
    (∀ d : ℝ × ℝ, Moderate k1 k2 (d.1 * d.1 + d.2 * d.2) → |d.1| ≤ 10 ^ 9 → |d.2| ≤ 10 ^ 9 →
      ∃ ray pixel', pinholeToCamera c k1 k2 (c.apply d) = .ok ray ∧ ray.z = 1 ∧ pinholeToPixel c k1 k2 ray = .ok pixel' ∧
        Near pixel' (c.apply d) ((|c.focal| + |c.skew|) / 10 ^ 10) (|c.focal * c.aspect| / 10 ^ 10)) ∧
    (∀ pixel, ∃ d, c.apply d = pixel) ∧
    (∀ point : V3 ℝ, point.z ≠ 0 →
      Moderate k1 k2 (2 * (point.x / point.z * (point.x / point.z) + point.y / point.z * (point.y / point.z))) →
      |point.x / point.z| ≤ 10 ^ 8 → |point.y / point.z| ≤ 10 ^ 8 →
      ∃ pixel ray, pinholeToPixel c k1 k2 point = .ok pixel ∧ pinholeToCamera c k1 k2 pixel = .ok ray ∧ ray.z = 1 ∧
        Near (ray.x, ray.y) (point.x / point.z, point.y / point.z) (3 / 10 ^ 10) (3 / 10 ^ 10)) ∧
    (∀ point : V3 ℝ, point.z ≠ 0 → DepthInvariant (pinholeToPixel c k1 k2) point) := by
  refine ⟨?_, ?_, ?_, ?_⟩
  · intro d hm h1 h2
    obtain ⟨u, hu, n1, n2⟩ := C46_pinhole_undistort_distort k1 k2 d hm h1 h2
    refine ⟨⟨u.1, u.2, 1⟩, c.apply (pinholeDistort k1 k2 u), ?_, rfl, ?_, ?_⟩
    · unfold pinholeToCamera
      rw [undo_apply hf ha, Outcome.ok_bind, hu, Outcome.ok_bind]
    · unfold pinholeToPixel
      rw [normalized_one, Outcome.ok_bind]
    · exact apply_near c n1 n2
  · intro pixel
    obtain ⟨d, _, h⟩ := undo_ok hf ha pixel
    exact ⟨d, h⟩
  · intro point hz hm h1 h2
    obtain ⟨u, hu, n⟩ := C46_pinhole_distort_undistort k1 k2 (point.x / point.z, point.y / point.z) hm h1 h2
    refine ⟨c.apply (pinholeDistort k1 k2 (point.x / point.z, point.y / point.z)), ⟨u.1, u.2, 1⟩, ?_, ?_, rfl, n⟩
    · unfold pinholeToPixel
      rw [normalized_ok hz, Outcome.ok_bind]
    · unfold pinholeToCamera
      rw [undo_apply hf ha, Outcome.ok_bind, hu, Outcome.ok_bind]
  · intro point hz s hs
    unfold pinholeToPixel
    rw [normalized_smul hz hs]

/-- Moderate distortion of a typical photo at its corner meets the hypotheses. -/
example : Moderate (-1 / 50) (1 / 100) (1 / 2 * (1 / 2) + 2 / 5 * (2 / 5)) := by
  unfold Moderate
  rw [abs_of_neg (by norm_num), abs_of_pos (by norm_num)]
  norm_num

/-- With strong distortion the iteration need not end at a solution: it may not even stay finite. -/
theorem C46_pinhole_strong_counterexample :
    pinholeUndistort (-1) 0 (1, 0) = .ub ∧ ¬∃ u, pinholeUndistort (-1) 0 (1, 0) = .ok u := by
  have h : pinholeUndistort (-1) 0 (1, 0) = .ub := by
    unfold pinholeUndistort undistortLoop pinholeNext radialFactor divide
    norm_num
  exact ⟨h, by rw [h]; rintro ⟨u, hu⟩; cases hu⟩

/-! ## Radial and tangential distortion -/

/-- The distortion is moderate in the square of half side `R`. -/
def Spec.ModerateRT (k : RadialTangential) (R : ℝ) : Prop :=
  16 * R * (|k.t1| + |k.t2|) + 8 * R ^ 2 * |k.k1| + 32 * R ^ 4 * |k.k2| + 96 * R ^ 6 * |k.k3| ≤ 1 / 2

/-- C46. With moderate distortion, undistorting and distorting are inverse up to 1e-10 in each coordinate. -/
theorem C46_rt_distortion (k : RadialTangential) (R : ℝ) (hR : R ≤ 10 ^ 9) (hk : ModerateRT k R) :
    (∀ p : ℝ × ℝ, |p.1| ≤ R / 4 → |p.2| ≤ R / 4 →
      ∃ u, rtUndistort k p = .ok u ∧ Near (rtDistort k u) p (1 / 10 ^ 10) (1 / 10 ^ 10)) ∧
    (∀ u : ℝ × ℝ, |u.1| ≤ R → |u.2| ≤ R → |(rtDistort k u).1| ≤ R / 4 → |(rtDistort k u).2| ≤ R / 4 →
      ∃ u', rtUndistort k (rtDistort k u) = .ok u' ∧ Near u' u (1 / 10 ^ 10) (1 / 10 ^ 10)) := by
  refine ⟨?_, ?_⟩
  · intro p h1 h2
    obtain ⟨u, hu, hb, hw⟩ := rt_undistort hk hR (p := p) ⟨h1, h2⟩
    exact ⟨u, hu, rt_backward hk hb hw⟩
  · intro u h1 h2 g1 g2
    obtain ⟨u', hu, hb, hw⟩ := rt_undistort hk hR (p := rtDistort k u) ⟨g1, g2⟩
    have hf : k.factor u ≠ 0 := by linarith [(factor_bounds hk (u := u) ⟨h1, h2⟩).1]
    have := near_fixed (rt_contraction hk (p := rtDistort k u) ⟨g1, g2⟩) hb ⟨h1, h2⟩ (rtStep_fixed hf) hw
    refine ⟨u', hu, ?_, ?_⟩
    · linarith [this.1]
    · linarith [this.2]

/-- Coefficients of a typical calibration meet the hypothesis. -/
example : ModerateRT ⟨-1 / 100, 1 / 1000, 1 / 10000, 1 / 5000, -1 / 5000⟩ 1 := by
  unfold ModerateRT
  rw [abs_of_neg (by norm_num : (-1 / 100 : ℝ) < 0), abs_of_neg (by norm_num : (-1 / 5000 : ℝ) < 0),
    abs_of_pos (by norm_num), abs_of_pos (by norm_num), abs_of_pos (by norm_num)]
  norm_num

/-- C46. The same for pixels and rays; without distortion the model is exact. -/
theorem C46_rt (c : Calibration) (hf : c.focal ≠ 0) (ha : c.aspect ≠ 0) :
    (∀ k R, R ≤ 10 ^ 9 → ModerateRT k R → ∀ d : ℝ × ℝ, |d.1| ≤ R / 4 → |d.2| ≤ R / 4 →
      ∃ ray pixel', rtToCamera c k (c.apply d) = .ok ray ∧ ray.z = 1 ∧ rtToPixel c k ray = .ok pixel' ∧
        Near pixel' (c.apply d) ((|c.focal| + |c.skew|) / 10 ^ 10) (|c.focal * c.aspect| / 10 ^ 10)) ∧
    (∀ k R, R ≤ 10 ^ 9 → ModerateRT k R → ∀ point : V3 ℝ, point.z ≠ 0 → |point.x / point.z| ≤ R →
      |point.y / point.z| ≤ R → |(rtDistort k (point.x / point.z, point.y / point.z)).1| ≤ R / 4 →
      |(rtDistort k (point.x / point.z, point.y / point.z)).2| ≤ R / 4 →
      ∃ pixel ray, rtToPixel c k point = .ok pixel ∧ rtToCamera c k pixel = .ok ray ∧ ray.z = 1 ∧
        Near (ray.x, ray.y) (point.x / point.z, point.y / point.z) (1 / 10 ^ 10) (1 / 10 ^ 10)) ∧
    (∀ pixel, PixelReturns (rtToPixel c ⟨0, 0, 0, 0, 0⟩) (rtToCamera c ⟨0, 0, 0, 0, 0⟩) pixel) ∧
    (∀ point : V3 ℝ, point.z ≠ 0 → RayReturns (rtToPixel c ⟨0, 0, 0, 0, 0⟩) (rtToCamera c ⟨0, 0, 0, 0, 0⟩) point) ∧
    (∀ k, ∀ point : V3 ℝ, point.z ≠ 0 → DepthInvariant (rtToPixel c k) point) := by
  have hdist : ∀ u, rtDistort ⟨0, 0, 0, 0, 0⟩ u = u := by
    intro u
    simp [rtDistort, RadialTangential.factor, RadialTangential.tangential]
  have hund : ∀ p, rtUndistort ⟨0, 0, 0, 0, 0⟩ p = .ok p := by
    intro p
    have hn : rtNext ⟨0, 0, 0, 0, 0⟩ p p = .ok p := by
      simp [rtNext, RadialTangential.factor, RadialTangential.tangential, divide]
    unfold rtUndistort undistortLoop
    rw [hn, Outcome.ok_bind, if_pos (by simp)]
  refine ⟨?_, ?_, ?_, ?_, ?_⟩
  · intro k R hR hk d h1 h2
    obtain ⟨u, hu, n1, n2⟩ := (C46_rt_distortion k R hR hk).1 d h1 h2
    refine ⟨⟨u.1, u.2, 1⟩, c.apply (rtDistort k u), ?_, rfl, ?_, ?_⟩
    · unfold rtToCamera
      rw [undo_apply hf ha, Outcome.ok_bind, hu, Outcome.ok_bind]
    · unfold rtToPixel
      rw [normalized_one, Outcome.ok_bind]
    · exact apply_near c n1 n2
  · intro k R hR hk point hz h1 h2 g1 g2
    obtain ⟨u, hu, n⟩ := (C46_rt_distortion k R hR hk).2 (point.x / point.z, point.y / point.z) h1 h2 g1 g2
    refine ⟨c.apply (rtDistort k (point.x / point.z, point.y / point.z)), ⟨u.1, u.2, 1⟩, ?_, ?_, rfl, n⟩
    · unfold rtToPixel
      rw [normalized_ok hz, Outcome.ok_bind]
    · unfold rtToCamera
      rw [undo_apply hf ha, Outcome.ok_bind, hu, Outcome.ok_bind]
  · intro pixel
    obtain ⟨d, hd, hap⟩ := undo_ok hf ha pixel
    refine ⟨⟨d.1, d.2, 1⟩, ?_, rfl, ?_⟩
    · unfold rtToCamera
      rw [hd, Outcome.ok_bind, hund, Outcome.ok_bind]
    · unfold rtToPixel
      rw [normalized_one, Outcome.ok_bind, hdist, hap]
  · intro point hz
    refine ⟨c.apply (point.x / point.z, point.y / point.z), ?_, ?_⟩
    · unfold rtToPixel
      rw [normalized_ok hz, Outcome.ok_bind, hdist]
    · unfold rtToCamera
      rw [undo_apply hf ha, Outcome.ok_bind, hund, Outcome.ok_bind]
      congr 1
      apply V3.ext <;> simp only [V3.smul] <;> field_simp
  · intro k point hz s hs
    unfold rtToPixel
    rw [normalized_smul hz hs]

/-! ## Division -/

/-- C46. The division model: `d` is the pixel relative to the principal point, `k |d|²` its distortion. Between -1 and 1
the pixel goes to a ray of unit depth that projects back to it, exactly unless the distortion is of the order of the
machine epsilon, then within a factor of `1 ± eps`. -/
theorem C46_division_pixel (eps : ℝ) (heps : 0 < eps) (c : Calibration) (k : ℝ) (hf : c.focal ≠ 0) (ha : c.aspect ≠ 0)
    (pixel : ℝ × ℝ) (t : ℝ)
    (ht : t = k * ((pixel.1 - c.px) * (pixel.1 - c.px) + (pixel.2 - c.py) * (pixel.2 - c.py)))
    (h1 : -1 < t) (h2 : t ≤ 1) :
    ∃ ray pixel', divisionToCamera c k pixel = .ok ray ∧ ray.z = 1 ∧ divisionToPixel eps c k ray = .ok pixel' ∧
      Near pixel' pixel (eps * |pixel.1 - c.px|) (eps * |pixel.2 - c.py|) ∧ (t = 0 ∨ 2 * eps ≤ |t| → pixel' = pixel) := by
  have hfa : c.focal * c.aspect ≠ 0 := mul_ne_zero hf ha
  have hp : 0 < 1 + t := by linarith
  obtain ⟨x, hx⟩ : ∃ x, x = pixel.1 - c.px := ⟨_, rfl⟩
  obtain ⟨y, hy⟩ : ∃ y, y = pixel.2 - c.py := ⟨_, rfl⟩
  rw [← hx, ← hy] at ht ⊢
  have hcam : divisionToCamera c k pixel =
      .ok ⟨x * (1 / (1 + t)) / c.focal, y * (1 / (1 + t)) / (c.focal * c.aspect), 1⟩ := by
    unfold divisionToCamera divisionUndistort
    simp only
    rw [← hx, ← hy, ← ht, divide_ok hp.ne', Outcome.ok_bind, Outcome.ok_bind, divide_ok hf, Outcome.ok_bind, divide_ok hfa,
      Outcome.ok_bind]
  refine ⟨_, _, hcam, rfl, by unfold divisionToPixel; rw [normalized_ok (by norm_num), Outcome.ok_bind], ?_⟩
  simp only [div_one]
  have e1 : c.focal * (x * (1 / (1 + t)) / c.focal) = x * (1 / (1 + t)) := by field_simp
  have e2 : c.focal * c.aspect * (y * (1 / (1 + t)) / (c.focal * c.aspect)) = y * (1 / (1 + t)) := by field_simp
  rw [e1, e2]
  have er : x * (1 / (1 + t)) * (x * (1 / (1 + t))) + y * (1 / (1 + t)) * (y * (1 / (1 + t))) =
      (x * x + y * y) / (1 + t) ^ 2 := by field_simp
  have etk : 2 * k * ((x * x + y * y) / (1 + t) ^ 2) = 2 * t / (1 + t) ^ 2 := by
    rw [ht]
    ring
  unfold divisionDistort
  simp only
  by_cases htiny : |2 * k * (x * (1 / (1 + t)) * (x * (1 / (1 + t))) + y * (1 / (1 + t)) * (y * (1 / (1 + t))))| < eps
  · rw [divisionScale_tiny htiny]
    rw [er, etk, abs_div, abs_of_pos (by positivity : 0 < (1 + t) ^ 2), div_lt_iff₀ (by positivity), abs_mul,
      abs_of_pos (by norm_num : (0 : ℝ) < 2)] at htiny
    have hb : |t| * (1 / (1 + t)) ≤ eps := by
      rw [mul_one_div, div_le_iff₀ hp]
      have : eps * (1 + t) ^ 2 ≤ eps * (2 * (1 + t)) := mul_le_mul_of_nonneg_left (by nlinarith) heps.le
      linarith
    have near : ∀ {a p q : ℝ}, a = p - q → |a * (1 / (1 + t)) * 1 + q - p| ≤ eps * |a| := by
      intro a p q h
      have : a * (1 / (1 + t)) * 1 + q - p = -(a * (t * (1 / (1 + t)))) := by
        have : q - p = -a := by linarith
        rw [add_sub_assoc, this]
        field_simp
        ring
      rw [this, abs_neg, abs_mul, abs_mul, abs_of_pos (a := 1 / (1 + t)) (by positivity)]
      rw [mul_comm]
      exact mul_le_mul_of_nonneg_right hb (abs_nonneg _)
    refine ⟨⟨near hx, near hy⟩, ?_⟩
    rintro (h0 | h0)
    · rw [h0]
      refine Prod.ext ?_ ?_ <;> simp [hx, hy]
    · exfalso
      have : eps * (1 + t) ^ 2 ≤ eps * 4 := mul_le_mul_of_nonneg_left (by nlinarith) heps.le
      linarith
  · rw [divisionScale_ok htiny heps (q := (1 - t) / (1 + t)) (div_nonneg (by linarith) hp.le)
      (division_undistorted ht hp.ne')]
    have es : 2 / (1 + (1 - t) / (1 + t)) = 1 + t := by
      have : 1 + (1 - t) / (1 + t) = 2 / (1 + t) := by
        field_simp
        ring
      rw [this]
      field_simp
    rw [es]
    have eq : (x * (1 / (1 + t)) * (1 + t) + c.px, y * (1 / (1 + t)) * (1 + t) + c.py) = pixel := by
      refine Prod.ext ?_ ?_
      · simp only
        rw [mul_assoc, one_div_mul_cancel hp.ne', hx]
        ring
      · simp only
        rw [mul_assoc, one_div_mul_cancel hp.ne', hy]
        ring
    refine ⟨?_, fun _ => eq⟩
    rw [eq]
    constructor
    · rw [sub_self, abs_zero]
      positivity
    · rw [sub_self, abs_zero]
      positivity

/-- C46. The ray of a point's pixel passes through the point, exactly unless the distortion is of the order of the machine
epsilon, if `k r² ≤ 1/4` for the undistorted radius in pixels. -/
theorem C46_division_point (eps : ℝ) (heps : 0 < eps) (heps1 : eps ≤ 1) (c : Calibration) (k : ℝ) (hf : c.focal ≠ 0)
    (ha : c.aspect ≠ 0) (point : V3 ℝ) (hz : point.z ≠ 0) (t : ℝ)
    (ht : t = k * (c.focal * (point.x / point.z) * (c.focal * (point.x / point.z)) +
      c.focal * c.aspect * (point.y / point.z) * (c.focal * c.aspect * (point.y / point.z))))
    (h1 : t ≤ 1 / 4) :
    ∃ pixel ray, divisionToPixel eps c k point = .ok pixel ∧ divisionToCamera c k pixel = .ok ray ∧ ray.z = 1 ∧
      Near (ray.x, ray.y) (point.x / point.z, point.y / point.z) (eps * |point.x / point.z|) (eps * |point.y / point.z|) ∧
      (t = 0 ∨ eps ≤ 2 * |t| → ray = point.smul (1 / point.z)) := by
  have hfa : c.focal * c.aspect ≠ 0 := mul_ne_zero hf ha
  have hpix : divisionToPixel eps c k point = .ok
      ((divisionDistort eps k (c.focal * (point.x / point.z), c.focal * c.aspect * (point.y / point.z))).1 + c.px,
       (divisionDistort eps k (c.focal * (point.x / point.z), c.focal * c.aspect * (point.y / point.z))).2 + c.py) := by
    unfold divisionToPixel
    rw [normalized_ok hz, Outcome.ok_bind]
  have hgoal : point.smul (1 / point.z) = ⟨point.x / point.z, point.y / point.z, 1⟩ := by
    apply V3.ext <;> simp only [V3.smul] <;> field_simp
  rw [hgoal]
  generalize point.x / point.z = X at *
  generalize point.y / point.z = Y at *
  obtain ⟨S, hS⟩ : ∃ S, S = divisionScale eps k (c.focal * X * (c.focal * X) + c.focal * c.aspect * Y *
    (c.focal * c.aspect * Y)) := ⟨_, rfl⟩
  have hcam : ∀ D, D = 1 + k * (c.focal * X * S * (c.focal * X * S) + c.focal * c.aspect * Y * S *
      (c.focal * c.aspect * Y * S)) → D ≠ 0 → divisionToCamera c k
      ((divisionDistort eps k (c.focal * X, c.focal * c.aspect * Y)).1 + c.px,
       (divisionDistort eps k (c.focal * X, c.focal * c.aspect * Y)).2 + c.py) = .ok ⟨X * (S * (1 / D)), Y * (S * (1 / D)), 1⟩ := by
    intro D hD hD0
    unfold divisionToCamera divisionUndistort divisionDistort
    simp only [add_sub_cancel_right]
    rw [← hS, ← hD, divide_ok hD0, Outcome.ok_bind, Outcome.ok_bind, divide_ok hf, Outcome.ok_bind, divide_ok hfa,
      Outcome.ok_bind]
    congr 1
    apply V3.ext <;> simp only <;> field_simp
  by_cases htiny : |2 * k * (c.focal * X * (c.focal * X) + c.focal * c.aspect * Y * (c.focal * c.aspect * Y))| < eps
  · rw [divisionScale_tiny htiny] at hS
    have e2 : 2 * k * (c.focal * X * (c.focal * X) + c.focal * c.aspect * Y * (c.focal * c.aspect * Y)) = 2 * t := by
      rw [ht]; ring
    rw [e2, abs_mul, abs_of_pos (by norm_num : (0 : ℝ) < 2)] at htiny
    have hlo := (abs_lt.1 (show |t| < eps / 2 by linarith)).1
    have hp : 0 < 1 + t := by linarith
    have hD := hcam (1 + t) (by rw [hS, ht]; ring) hp.ne'
    rw [hS, one_mul] at hD
    refine ⟨_, _, hpix, hD, rfl, ?_, ?_⟩
    · have near : ∀ a : ℝ, |a * (1 / (1 + t)) - a| ≤ eps * |a| := by
        intro a
        have : a * (1 / (1 + t)) - a = -(a * (t * (1 / (1 + t)))) := by
          field_simp
          ring
        rw [this, abs_neg, abs_mul, mul_comm]
        refine mul_le_mul_of_nonneg_right ?_ (abs_nonneg _)
        rw [abs_mul, abs_of_pos (a := 1 / (1 + t)) (by positivity), mul_one_div, div_le_iff₀ hp]
        nlinarith
      exact ⟨near X, near Y⟩
    · rintro (h0 | h0)
      · rw [h0]
        simp
      · linarith
  · have hq : 1 - 4 * k * (c.focal * X * (c.focal * X) + c.focal * c.aspect * Y * (c.focal * c.aspect * Y)) =
        Real.sqrt (1 - 4 * t) ^ 2 := by
      rw [Real.sq_sqrt (by linarith), ht]
      ring
    rw [divisionScale_ok htiny heps (Real.sqrt_nonneg _) hq] at hS
    have hpos : 0 < 2 / (1 + Real.sqrt (1 - 4 * t)) := by
      have := Real.sqrt_nonneg (1 - 4 * t)
      positivity
    have hD := hcam S (by
      rw [hS]
      exact (division_distorted (Real.sqrt_nonneg _) hq).symm) (by rw [hS]; exact hpos.ne')
    have hS0 : S ≠ 0 := by rw [hS]; exact hpos.ne'
    rw [mul_one_div_cancel hS0, mul_one, mul_one] at hD
    refine ⟨_, _, hpix, hD, rfl, ?_, fun _ => rfl⟩
    constructor
    · simp only [sub_self, abs_zero]
      positivity
    · simp only [sub_self, abs_zero]
      positivity

/-- A pixel with distortion `k |d|² = -1/2` meets the hypotheses. -/
example : ∃ (c : Calibration) (k : ℝ) (pixel : ℝ × ℝ) (t : ℝ), c.focal ≠ 0 ∧ c.aspect ≠ 0 ∧
    t = k * ((pixel.1 - c.px) * (pixel.1 - c.px) + (pixel.2 - c.py) * (pixel.2 - c.py)) ∧ -1 < t ∧ t ≤ 1 ∧ t = -1 / 2 := by
  refine ⟨⟨800, 1, 0, 400, 300⟩, -1 / 20000, (500, 300), -1 / 2, ?_⟩
  norm_num

/-- Outside that range the model is not invertible: a point whose ray passes far from it. -/
theorem C46_division_counterexample (eps : ℝ) :
    ∃ ray, divisionToPixel eps ⟨1, 1, 0, 0, 0⟩ 1 ⟨1, 0, 1⟩ = .ok (1, 0) ∧
      divisionToCamera ⟨1, 1, 0, 0, 0⟩ 1 (1, 0) = .ok ray ∧ ray = ⟨1 / 2, 0, 1⟩ := by
  refine ⟨_, ?_, ?_, rfl⟩
  · unfold divisionToPixel divisionDistort divisionScale
    rw [normalized_ok (by norm_num), Outcome.ok_bind, if_pos (Or.inr (by norm_num))]
    norm_num
  · unfold divisionToCamera divisionUndistort divide
    norm_num

/-! ## Field of view -/

/-- C46, partial. The field-of-view model is exact both ways for `1/1000 ≤ omega < π` when neither radius is below
`1/1000` in square and the distorted angle is below a right angle. Not covered: the two Taylor branches. -/
theorem C46_fov_partial (c : Calibration) (omega : ℝ) (hf : c.focal ≠ 0) (ha : c.aspect ≠ 0) (h1 : 1 / 1000 ≤ omega)
    (h2 : omega < Real.pi) :
    (∀ d : ℝ × ℝ, 1 / 1000 ≤ d.1 * d.1 + d.2 * d.2 → Real.sqrt (d.1 * d.1 + d.2 * d.2) * omega < Real.pi / 2 →
      ∃ ray, fovToCamera c omega ({ c with skew := 0 }.apply d) = .ok ray ∧ ray.z = 1 ∧
        (1 / 1000 ≤ ray.x * ray.x + ray.y * ray.y → fovToPixel c omega ray = .ok ({ c with skew := 0 }.apply d))) ∧
    (∀ point : V3 ℝ, point.z ≠ 0 →
      1 / 1000 ≤ point.x / point.z * (point.x / point.z) + point.y / point.z * (point.y / point.z) →
      1 / 1000 ≤ (fovDistort omega (point.x / point.z, point.y / point.z)).1 ^ 2 +
        (fovDistort omega (point.x / point.z, point.y / point.z)).2 ^ 2 →
      RayReturns (fovToPixel c omega) (fovToCamera c omega) point) ∧
    (∀ point : V3 ℝ, point.z ≠ 0 → DepthInvariant (fovToPixel c omega) point) := by
  refine ⟨?_, ?_, ?_⟩
  · intro d hd hang
    obtain ⟨u, hu, hback⟩ := fov_distort_undistort h1 h2 hd hang
    refine ⟨⟨u.1, u.2, 1⟩, ?_, rfl, ?_⟩
    · unfold fovToCamera
      rw [undo_apply (c := { c with skew := 0 }) hf ha, Outcome.ok_bind, hu, Outcome.ok_bind]
    · intro h
      unfold fovToPixel
      rw [normalized_one, Outcome.ok_bind, hback h]
  · intro point hz hn hd
    refine ⟨_, by unfold fovToPixel; rw [normalized_ok hz, Outcome.ok_bind], ?_⟩
    unfold fovToCamera
    rw [undo_apply (c := { c with skew := 0 }) hf ha, Outcome.ok_bind, fov_undistort_distort h1 h2 hn (by
      simpa only [pow_two] using hd), Outcome.ok_bind]
    congr 1
    apply V3.ext <;> simp only [V3.smul] <;> field_simp
  · intro point hz s hs
    unfold fovToPixel
    rw [normalized_smul hz hs]

/-- The distance 1/2 from the centre with `omega = 1` meets the hypotheses on the pixel. -/
example : (1 / 1000 : ℝ) ≤ 1 ∧ (1 : ℝ) < Real.pi ∧ (1 / 1000 : ℝ) ≤ 1 / 2 * (1 / 2) + 0 * 0 ∧
    Real.sqrt (1 / 2 * (1 / 2) + 0 * 0) * 1 < Real.pi / 2 := by
  have h := Real.pi_gt_three
  have e : Real.sqrt (1 / 2 * (1 / 2) + 0 * 0) = 1 / 2 := by
    rw [mul_zero, add_zero]
    exact Real.sqrt_mul_self (by norm_num)
  rw [e]
  refine ⟨by norm_num, by linarith, by norm_num, by linarith⟩

/-- For small and for negative `omega` both directions use the same expansion, so distorting does not undo undistorting:
the pixel at distance 1 comes back at distance 115/64. -/
theorem C46_fov_counterexample :
    ∃ ray, fovToCamera ⟨1, 1, 0, 0, 0⟩ (-1) (1, 0) = .ok ray ∧ fovToPixel ⟨1, 1, 0, 0, 0⟩ (-1) ray = .ok (115 / 64, 0) := by
  refine ⟨⟨5 / 4, 0, 1⟩, ?_, ?_⟩
  · unfold fovToCamera Calibration.undo fovUndistort fovUndistortFactor divide
    norm_num
  · unfold fovToPixel fovDistort fovDistortFactor Calibration.apply
    rw [normalized_ok (by norm_num), Outcome.ok_bind]
    norm_num

/-! ## Fisheye -/

/-- C46, partial. The fisheye model gives all points of a line through the camera centre the same pixel, as long as they
are at least 1e-4 from the optical axis; and if the undistortion stops at a point its step leaves unchanged, that point
distorts to the pixel. Not covered: that the iteration converges. -/
theorem C46_fisheye_partial (c : Calibration) (k : Fisheye) :
    (∀ (point : V3 ℝ) (s : ℝ), point.z ≠ 0 → s ≠ 0 → 1 / 10 ^ 8 ≤ point.x * point.x + point.y * point.y →
      1 / 10 ^ 8 ≤ s * point.x * (s * point.x) + s * point.y * (s * point.y) →
      fisheyeToPixel c k (point.smul s) = fisheyeToPixel c k point) ∧
    (∀ p u : ℝ × ℝ, 1 / 10 ^ 8 ≤ u.1 * u.1 + u.2 * u.2 →
      k.angle (atan2 (Real.sqrt (u.1 * u.1 + u.2 * u.2)) 1) ≠ 0 → fisheyeLoop k p 1 u = .ok u →
      fisheyeToPixel c k ⟨u.1, u.2, 1⟩ = .ok (c.apply p)) := by
  refine ⟨?_, ?_⟩
  · intro point s hz hs h1 h2
    unfold fisheyeToPixel
    rw [fisheyeDistort_smul k hz hs h1 h2]
  · intro p u h1 hd hstep
    unfold fisheyeToPixel
    rw [fisheye_fixed h1 hd ?_ ?_]
    · exact (fisheyeLoop_one h1 hd hstep).1
    · exact (fisheyeLoop_one h1 hd hstep).2

/-- Near the optical axis the pixel depends on the depth: two points of one ray with different pixels. -/
theorem C46_fisheye_counterexample : ∃ p q : V3 ℝ, q = p.smul 100000 ∧ 0 < p.z ∧
    fisheyeToPixel ⟨1, 1, 0, 0, 0⟩ ⟨0, 0, 0, 0⟩ p = .ok (1 / 10 ^ 5, 0) ∧
    fisheyeToPixel ⟨1, 1, 0, 0, 0⟩ ⟨0, 0, 0, 0⟩ q = .ok (Real.pi / 4, 0) := by
  refine ⟨⟨1 / 10 ^ 5, 0, 1 / 10 ^ 5⟩, ⟨1, 0, 1⟩, ?_, by norm_num, ?_, ?_⟩
  · apply V3.ext <;> simp only [V3.smul] <;> norm_num
  · unfold fisheyeToPixel fisheyeDistort Calibration.apply
    rw [if_pos (by norm_num)]
    norm_num
  · unfold fisheyeToPixel
    rw [fisheyeDistort_far _ (r := 1) (by norm_num) (by norm_num)]
    simp [Calibration.apply, Fisheye.angle, atan2, Real.arctan_one, not_lt.2 (zero_le_one (α := ℝ))]

/-! ## Cameras -/

/-- The orientation is zero or large enough for the exact rotation. -/
def Spec.Exact (eps : ℝ) (c : Pose) : Prop := c.orientation = V3.zero ∨ eps < c.orientation.dot c.orientation

/-- C46. In any pose, with any camera model: the points on the ray of a pixel have the pixel of the model's ray and
their depth is the distance along the ray. -/
theorem C46_camera_ray (eps : ℝ) (heps : 0 ≤ eps) (c : Pose) (hc : Exact eps c) (toPixel : V3 ℝ → Outcome (ℝ × ℝ))
    (toCamera : ℝ × ℝ → Outcome (V3 ℝ)) (pixel pixel' : ℝ × ℝ) (u : V3 ℝ) (h1 : toCamera pixel = .ok u) (hz : u.z = 1)
    (h2 : toPixel u = .ok pixel') (hinv : DepthInvariant toPixel u) :
    ∃ ray, unitDepthRay eps toCamera c pixel = .ok ray ∧ ∀ depth w : ℝ, depth ≠ 0 → w ≠ 0 →
      projectPoint eps toPixel c ((c.position.add (ray.smul depth)).smul w) w = .ok (pixel', depth) := by
  obtain ⟨hrot, hrotate, _⟩ := rotation_facts heps hc
  refine ⟨_, by unfold unitDepthRay; rw [h1, Outcome.ok_bind], ?_⟩
  intro depth w hd hw
  have e1 : ((c.position.add (((toMatrix eps c.orientation).transpose.mulVec u).smul depth)).smul w).sub
      (c.position.smul w) = ((toMatrix eps c.orientation).transpose.mulVec u).smul (w * depth) := by
    apply V3.ext <;> simp only [V3.sub, V3.add, V3.smul] <;> ring
  unfold projectPoint
  rw [e1, hrotate, M3.mulVec_smul, hrot.mulVec_transpose]
  simp only
  rw [hinv _ (mul_ne_zero hw hd), h2, Outcome.ok_bind, divide_ok hw, Outcome.ok_bind]
  simp only [V3.smul, hz, mul_one]
  rw [mul_div_cancel_left₀ _ hw]

/-- C46. A point in front of or behind the camera that projects to a pixel lies on the ray of the pixel at its depth. -/
theorem C46_camera_point (eps : ℝ) (heps : 0 ≤ eps) (c : Pose) (hc : Exact eps c) (toPixel : V3 ℝ → Outcome (ℝ × ℝ))
    (toCamera : ℝ × ℝ → Outcome (V3 ℝ)) (point : V3 ℝ) (w : ℝ) (hw : w ≠ 0)
    (hz : (rotate eps c.orientation (point.sub c.position)).z ≠ 0)
    (hret : RayReturns toPixel toCamera (rotate eps c.orientation (point.sub c.position)))
    (hinv : DepthInvariant toPixel (rotate eps c.orientation (point.sub c.position))) :
    ∃ pixel depth ray, projectPoint eps toPixel c (point.smul w) w = .ok (pixel, depth) ∧
      depth = (rotate eps c.orientation (point.sub c.position)).z ∧ unitDepthRay eps toCamera c pixel = .ok ray ∧
      point = c.position.add (ray.smul depth) := by
  obtain ⟨hrot, hrotate, _⟩ := rotation_facts heps hc
  obtain ⟨pixel, h1, h2⟩ := hret
  refine ⟨pixel, (rotate eps c.orientation (point.sub c.position)).z, _, ?_, rfl, by
    unfold unitDepthRay; rw [h2, Outcome.ok_bind], ?_⟩
  · have e1 : (point.smul w).sub (c.position.smul w) = (point.sub c.position).smul w := by
      apply V3.ext <;> simp only [V3.sub, V3.smul] <;> ring
    unfold projectPoint
    rw [e1, rotate_smul]
    simp only
    rw [hinv w hw, h1, Outcome.ok_bind, divide_ok hw, Outcome.ok_bind]
    simp only [V3.smul]
    rw [mul_div_cancel_left₀ _ hw]
  · rw [hrotate] at hz ⊢
    rw [M3.mulVec_smul, hrot.transpose_mulVec, smul_smul', mul_one_div_cancel hz]
    apply V3.ext <;> simp only [V3.add, V3.sub, V3.smul] <;> ring

/-- C46. The projection matrix of a pinhole camera without distortion projects as the camera does: applied to a point it
gives the pixel times the depth. -/
theorem C46_projection_matrix (eps : ℝ) (heps : 0 ≤ eps) (c : Calibration) (p : Pose) (hp : Exact eps p) (point : V3 ℝ)
    (hz : (rotate eps p.orientation (point.sub p.position)).z ≠ 0) :
    ∃ pixel depth, projectPoint eps (pinholeToPixel c 0 0) p point 1 = .ok (pixel, depth) ∧ depth ≠ 0 ∧
      ((projectionMatrix c p).1.mulVec point).add (projectionMatrix c p).2 =
        (⟨pixel.1, pixel.2, 1⟩ : V3 ℝ).smul depth := by
  obtain ⟨hrot, hrotate, hmat⟩ := rotation_facts heps hp
  have e1 : point.sub (p.position.smul 1) = point.sub p.position := by
    apply V3.ext <;> simp only [V3.sub, V3.smul, one_mul]
  refine ⟨_, _, by
    unfold projectPoint pinholeToPixel
    rw [e1]
    simp only
    rw [normalized_ok hz, Outcome.ok_bind, Outcome.ok_bind, divide_ok one_ne_zero, Outcome.ok_bind], by simpa using hz, ?_⟩
  unfold projectionMatrix
  simp only
  rw [hmat, M3.mulVec_mul, hrotate] at *
  rw [M3.mulVec_sub] at *
  generalize (toMatrix eps p.orientation).mulVec point = a at *
  generalize (toMatrix eps p.orientation).mulVec p.position = b at *
  simp only [V3.sub] at hz
  apply V3.ext <;>
    simp only [V3.add, V3.smul, V3.neg, V3.sub, M3.mulVec, V3.dot, Calibration.matrix, Calibration.apply, pinholeDistort,
      radialFactor, zero_mul, mul_zero, add_zero, mul_one, div_one]
  · field_simp
    ring
  · field_simp
    ring
  · ring

/-- The hypotheses of the camera theorems are met: a turned camera that sees a point. -/
example : ∃ (c : Pose) (point : V3 ℝ), Exact (1 / 10 ^ 15) c ∧ c.orientation ≠ V3.zero ∧
    (rotate (1 / 10 ^ 15) c.orientation (point.sub c.position)).z ≠ 0 := by
  refine ⟨⟨⟨0, 0, 1⟩, ⟨1, 2, 3⟩⟩, ⟨5, 6, 7⟩, Or.inr (by norm_num [V3.dot]), by
    intro h
    have := congrArg V3.z h
    simp [V3.zero] at this, ?_⟩
  have h : (1 / 10 ^ 15 : ℝ) < V3.dot ⟨0, 0, 1⟩ ⟨0, 0, 1⟩ := by norm_num [V3.dot]
  unfold rotate
  rw [if_pos h]
  simp only [rodrigues, V3.add, V3.smul, V3.cross, V3.dot, V3.sub]
  norm_num
  intro h
  linarith

end Theia
