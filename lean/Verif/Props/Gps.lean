import Verif.Proof.Gps

/-!
# C88: conversions between geodetic and Cartesian coordinates
-/

namespace Theia

open Gps Spec

/-- `LLAToECEF` returns exactly the point with the given geodetic coordinates, for all latitudes, longitudes and altitudes. -/
theorem C88_definition (lla p : V3 ℝ) : IsGeodetic Gps.a Gps.e2 lla p ↔ p = llaToECEF lla := geodetic_iff lla p

/-- Above a depth of 6335 kilometres points have one altitude and one latitude, and away from the poles one longitude. -/
theorem C88_unique {l l' : V3 ℝ} (hl : UsualDegrees l) (hl' : UsualDegrees l') (hz : -6335000 ≤ l.z) (hz' : -6335000 ≤ l'.z)
    (h : llaToECEF l = llaToECEF l') : l.x = l'.x ∧ l.z = l'.z ∧ (-90 < l.x → l.x < 90 → l.y = l'.y) := by
  have hdepth : -(Gps.a * (1 - Gps.e2)) < -6335000 := by norm_num [Gps.a, Gps.e2]
  have r1 := degToRad_lat hl.1 hl.2.1
  have r2 := degToRad_lat hl'.1 hl'.2.1
  have hw := horizontal_sq l
  rw [h, horizontal_sq l'] at hw
  obtain ⟨hlat, halt⟩ := meridian_unique r1 r2 (by linarith) (by linarith) hw.symm (congrArg V3.z h)
  have hlat' := degToRad_injective hlat
  refine ⟨hlat', halt, fun g1 g2 => ?_⟩
  have hpi := Real.pi_pos
  have cpos : 0 < Real.cos (degToRad l.x) := by
    refine Real.cos_pos_of_mem_Ioo ⟨?_, ?_⟩ <;> rw [degToRad_eq] <;> nlinarith
  have kpos : 0 < (normalRadius (degToRad l.x) + l.z) * Real.cos (degToRad l.x) :=
    mul_pos (radicand_pos (le_normalRadius _) (by linarith)).2 cpos
  have t1 := degToRad_lon hl.2.2.1 hl.2.2.2
  have t2 := degToRad_lon hl'.2.2.1 hl'.2.2.2
  have u1 := atan2_of_polar kpos t1.1 t1.2
  have u2 := atan2_of_polar kpos t2.1 t2.2
  have hx : (normalRadius (degToRad l.x) + l.z) * Real.cos (degToRad l.x) * Real.cos (degToRad l.y) =
      (normalRadius (degToRad l'.x) + l'.z) * Real.cos (degToRad l'.x) * Real.cos (degToRad l'.y) := congrArg V3.x h
  have hy : (normalRadius (degToRad l.x) + l.z) * Real.cos (degToRad l.x) * Real.sin (degToRad l.y) =
      (normalRadius (degToRad l'.x) + l'.z) * Real.cos (degToRad l'.x) * Real.sin (degToRad l'.y) := congrArg V3.y h
  rw [← hlat, ← halt] at hx hy
  rw [hx, hy, u2] at u1
  exact (degToRad_injective u1).symm

/-- The longitude comes back exactly, for all points that are not on the axis. -/
theorem C88_longitude {l q : V3 ℝ} (hl : UsualDegrees l) (h1 : -90 < l.x) (h2 : l.x < 90) (hz : -6335000 ≤ l.z)
    (h : ecefToLLA (llaToECEF l) = .ok q) : q.y = l.y := by
  have hpi := Real.pi_pos
  have cpos : 0 < Real.cos (degToRad l.x) := by
    refine Real.cos_pos_of_mem_Ioo ⟨?_, ?_⟩ <;> rw [degToRad_eq] <;> nlinarith
  have le1 := le_normalRadius (degToRad l.x)
  have p1 : 0 < normalRadius (degToRad l.x) + l.z := by linarith [show (6335000 : ℝ) < Gps.a by norm_num [Gps.a]]
  have r1 := degToRad_lon hl.2.2.1 hl.2.2.2
  have t1 := atan2_of_polar (mul_pos p1 cpos) r1.1 r1.2
  unfold ecefToLLA at h
  simp only at h
  split at h
  · cases h
  · obtain ⟨k, -, h⟩ := Outcome.bind_eq_ok.1 h
    obtain ⟨m, -, h⟩ := Outcome.bind_eq_ok.1 h
    cases h
    simp only
    have : atan2 (llaToECEF l).y (llaToECEF l).x = degToRad l.y := t1
    rw [this, radToDeg_degToRad]

/-- Latitude and altitude depend only on the distances from the axis and from the equatorial plane. -/
theorem C88_rotation {p q l : V3 ℝ} (hw : p.x ^ 2 + p.y ^ 2 = q.x ^ 2 + q.y ^ 2) (hz : p.z = q.z)
    (h : ecefToLLA p = .ok l) : ∃ l', ecefToLLA q = .ok l' ∧ l'.x = l.x ∧ l'.z = l.z := by
  have hw' : q.x * q.x + q.y * q.y = p.x * p.x + p.y * p.y := by linarith
  unfold ecefToLLA at h ⊢
  simp only at h ⊢
  rw [hw', ← hz]
  split at h
  · cases h
  · rename_i hr
    rw [if_neg hr]
    obtain ⟨k, hk, h⟩ := Outcome.bind_eq_ok.1 h
    obtain ⟨m, hm, h⟩ := Outcome.bind_eq_ok.1 h
    cases h
    rw [hk]
    simp only [Outcome.ok_bind]
    rw [hm]
    exact ⟨_, rfl, rfl, rfl⟩

/-- Points mirrored at the equatorial plane have the opposite latitude. -/
theorem C88_mirror {p l : V3 ℝ} (hz : p.z ≠ 0) (h : ecefToLLA p = .ok l) :
    ecefToLLA ⟨p.x, p.y, -p.z⟩ = .ok ⟨-l.x, l.y, l.z⟩ := by
  unfold ecefToLLA at h ⊢
  simp only at h ⊢
  rw [abs_neg, neg_mul_neg]
  split at h
  · cases h
  · rename_i hr
    rw [if_neg hr]
    obtain ⟨k, hk, h⟩ := Outcome.bind_eq_ok.1 h
    obtain ⟨m, hm, h⟩ := Outcome.bind_eq_ok.1 h
    cases h
    rw [hk]
    simp only [Outcome.ok_bind]
    rw [hm]
    simp only [Outcome.ok_bind]
    congr 2
    rcases lt_or_gt_of_ne hz with hneg | hpos
    · rw [if_neg (show ¬ -p.z < 0 by linarith), if_pos hneg]
      unfold radToDeg
      ring
    · rw [if_pos (show -p.z < 0 by linarith), if_neg (show ¬ p.z < 0 by linarith)]
      unfold radToDeg
      ring

/-- On the equator the conversions are inverse to each other. -/
theorem C88_equator_partial {l : V3 ℝ} (hl : UsualDegrees l) (h0 : l.x = 0) (hz : -6335000 ≤ l.z) :
    ecefToLLA (llaToECEF l) = .ok l := by
  have ha : (6378137 : ℝ) = Gps.a := rfl
  have hn : normalRadius 0 = Gps.a := by simp [normalRadius]
  have h0' : degToRad l.x = 0 := by rw [h0, degToRad, zero_mul]
  have hk : 0 < Gps.a + l.z := by linarith
  have hp : llaToECEF l = ⟨(Gps.a + l.z) * Real.cos (degToRad l.y), (Gps.a + l.z) * Real.sin (degToRad l.y), 0⟩ := by
    unfold llaToECEF
    simp only [h0', hn, Real.cos_zero, Real.sin_zero, mul_one, mul_zero]
  have hsc := Real.sin_sq_add_cos_sq (degToRad l.y)
  have hlon := degToRad_lon hl.2.2.1 hl.2.2.2
  rw [hp, ecef_equator hk (by linear_combination (Gps.a + l.z) ^ 2 * hsc) (by
    have : (0 : ℝ) < Gps.a6 * Gps.a - 6335000 := by norm_num [Gps.a6, Gps.a]
    intro e
    linarith), atan2_of_polar hk hlon.1 hlon.2, radToDeg_degToRad]
  congr 1
  ext
  · exact h0.symm
  · rfl
  · simp

/-- At the poles latitude and altitude come back, the altitude to less than 1e-11 metres; the longitude is zero. -/
theorem C88_poles_partial {l : V3 ℝ} (h0 : l.x = 90 ∨ l.x = -90) (hz : -6335000 ≤ l.z) :
    ∃ alt, ecefToLLA (llaToECEF l) = .ok ⟨l.x, 0, alt⟩ ∧ |alt - l.z| < 1e-11 := by
  have hpi := Real.pi_pos
  have he : 0 < 1 - Gps.e2 := by have := e2_lt; linarith
  have hs := Real.sqrt_pos.2 he
  have ha := a_pos
  set n := Gps.a / Real.sqrt (1 - Gps.e2) with hn
  have hn0 : Gps.a ≤ n := by
    rw [hn, le_div_iff₀ hs]
    have : Real.sqrt (1 - Gps.e2) ≤ 1 := by
      rw [Real.sqrt_le_left (by norm_num)]
      linarith [e2_pos]
    nlinarith
  have hdepth : -(Gps.a * (1 - Gps.e2)) < -6335000 := by norm_num [Gps.a, Gps.e2]
  have hpos : 0 < n * (1 - Gps.e2) + l.z := (radicand_pos hn0 (by linarith)).1
  have hsmall : |n * (1 - Gps.e2) + l.z - Gps.a6 * n - l.z| < 1e-11 := by
    have hn1 : n ≤ 7000000 := by
      rw [hn, div_le_iff₀ hs]
      have : (0.99 : ℝ) ≤ Real.sqrt (1 - Gps.e2) := by
        apply Real.le_sqrt_of_sq_le
        norm_num [Gps.e2]
      have : Gps.a = 6378137 := rfl
      linarith
    have e1 : n * (1 - Gps.e2) + l.z - Gps.a6 * n - l.z = n * (1 - Gps.e2 - Gps.a6) := by ring
    rw [e1, abs_mul, abs_of_nonneg (by linarith)]
    have e3 : |1 - Gps.e2 - Gps.a6| ≤ 1e-18 := by
      rw [abs_le]
      constructor <;> norm_num [Gps.e2, Gps.a6]
    have : n * |1 - Gps.e2 - Gps.a6| ≤ 7000000 * 1e-18 := mul_le_mul hn1 e3 (abs_nonneg _) (by norm_num)
    refine lt_of_le_of_lt this (by norm_num)
  rcases h0 with h0 | h0
  · have hr : degToRad l.x = Real.pi / 2 := by rw [h0, degToRad]; ring
    have hp : llaToECEF l = ⟨0, 0, n * (1 - Gps.e2) + l.z⟩ := by
      unfold llaToECEF normalRadius
      simp only [hr, Real.cos_pi_div_two, Real.sin_pi_div_two, mul_one, mul_zero, zero_mul]
      rfl
    rw [hp, ecef_pole hpos.ne', if_neg (by linarith), abs_of_pos hpos, h0]
    exact ⟨_, rfl, hsmall⟩
  · have hr : degToRad l.x = -(Real.pi / 2) := by rw [h0, degToRad]; ring
    have hp : llaToECEF l = ⟨0, 0, -(n * (1 - Gps.e2) + l.z)⟩ := by
      unfold llaToECEF normalRadius
      simp only [hr, Real.cos_neg, Real.cos_pi_div_two, Real.sin_neg, Real.sin_pi_div_two, mul_one, mul_zero, zero_mul,
        mul_neg, neg_neg]
      rfl
    rw [hp, ecef_pole (neg_ne_zero.2 hpos.ne'), if_pos (by linarith), abs_neg, abs_of_pos hpos, h0]
    exact ⟨_, rfl, hsmall⟩

/-- The hypotheses of the theorems are met. -/
example : UsualDegrees ⟨48, 11, 520⟩ ∧ llaToECEF ⟨0, 0, 100⟩ = ⟨6378237, 0, 0⟩ ∧
    ecefToLLA ⟨0, 0, 7000000⟩ ≠ .ub ∧ ecefToLLA ⟨6378237, 0, 0⟩ = .ok ⟨0, 0, 100⟩ := by
  have hlla : llaToECEF ⟨0, 0, 100⟩ = ⟨6378237, 0, 0⟩ := by
    norm_num [llaToECEF, degToRad, normalRadius, Gps.a]
  refine ⟨by norm_num [UsualDegrees], hlla, ?_, ?_⟩
  · rw [ecef_pole (by norm_num)]
    simp
  · rw [← hlla]
    exact C88_equator_partial (by norm_num [UsualDegrees]) rfl (by norm_num)

/-- Deep in the earth the first latitude has a sine above one, and the result is not a number. -/
theorem C88_centre_counterexample : ecefToLLA ⟨4, 0, 3⟩ = .ub := by
  have h5 : Real.sqrt (4 * 4 + 0 * 0 + 3 * 3) = 5 := by
    rw [show (4 * 4 + 0 * 0 + 3 * 3 : ℝ) = 5 * 5 by norm_num]
    exact Real.sqrt_mul_self (by norm_num)
  unfold ecefToLLA
  simp only [h5]
  rw [if_neg (by norm_num)]
  have : ∀ zp w, zp = 3 → firstGuess zp w 5 (3 * 3 / (4 * 4 + 0 * 0 + 3 * 3)) ((4 * 4 + 0 * 0) / (4 * 4 + 0 * 0 + 3 * 3))
      (Gps.a2 / 5) (Gps.a3 - Gps.a4 / 5) = .ub := by
    rintro zp w rfl
    unfold firstGuess
    rw [if_pos (by norm_num)]
    simp only
    rw [if_neg]
    norm_num [Gps.a1, Gps.a2, Gps.a3, Gps.a4]
  rw [this _ _ (by norm_num)]
  rfl

end Theia
