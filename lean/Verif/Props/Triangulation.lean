import Verif.Proof.TriangulationViews

/-!
# C49: triangulation and the tests on rays are geometrically right
-/

namespace Theia

open Triangulation Spec

/-! ## Midpoint triangulation -/

/-- With unit directions, two of which are not parallel, midpoint triangulation succeeds and returns the one point whose
sum of squared distances from the rays (as lines) is smallest. -/
theorem C49_midpoint {llt : (V4 → V4) → V4 → Option V4} (hl : Cholesky llt) {origins directions : List (V3 ℝ)}
    (h2 : 2 ≤ origins.length) (hlen : origins.length = directions.length) (hunit : ∀ d ∈ directions, d.dot d = 1)
    (hpar : ∃ d ∈ directions, ∃ e ∈ directions, ¬ Parallel d e) :
    ∃ X, triangulateMidpoint llt origins directions = .ok (some (X, 1)) ∧ NearestToLines (origins.zip directions) X := by
  have hne : directions ≠ [] := by
    rintro rfl
    simp at hlen
    rw [hlen] at h2
    simp at h2
  have hzip : (origins.zip directions).map Prod.snd = directions := map_snd_zip _ _ hlen
  have hu : ∀ r ∈ origins.zip directions, r.2.dot r.2 = 1 := by
    intro r hr
    exact hunit _ (List.of_mem_zip hr).2
  have hpd := (positiveDefinite_iff hunit hne).2 hpar
  obtain ⟨x, hx, hAx⟩ := (hl (midpointMatrix directions) (midpointRhs (origins.zip directions))
    (midpointMatrix_linear directions)).1 hpd
  have hw : x.2 = 1 := by
    have e := congrArg Prod.snd hAx
    rw [midpointMatrix_snd, midpointRhs_snd] at e
    have hz : (origins.zip directions).length = directions.length := by
      rw [List.length_zip, hlen, min_self]
    rw [hz] at e
    have : (directions.length : ℝ) ≠ 0 := by
      have := List.length_pos_of_ne_nil hne
      exact_mod_cast this.ne'
    exact mul_left_cancel₀ this (by rw [e, mul_one])
  have hxe : x = (x.1, 1) := Prod.ext rfl hw
  refine ⟨x.1, ?_, totalErr (origins.zip directions) x.1, (totalDistance_iff hu _ _).2 rfl, ?_⟩
  · unfold triangulateMidpoint
    rw [if_neg (by omega), if_neg (by simpa using hlen), hx, ← hxe]
  · intro Y f hf
    rw [(totalDistance_iff hu _ _).1 hf]
    have hY : Y = x.1.add (Y.sub x.1) := by
      apply V3.ext <;> simp only [V3.add, V3.sub] <;> ring
    have hs := totalErr_shift (rs := origins.zip directions) x.1 (Y.sub x.1)
    rw [← hY, hzip, ← hxe, hAx] at hs
    have hz : (midpointRhs (origins.zip directions)).1.sub (midpointRhs (origins.zip directions)).1 = V3.zero := by
      apply V3.ext <;> simp [V3.sub, V3.zero]
    rw [hz, V3.dot_zero, mul_zero, add_zero] at hs
    have hn := form_nonneg hunit (Y.sub x.1)
    refine ⟨by linarith, fun e => ?_⟩
    have h0 : form directions (Y.sub x.1) = 0 := by linarith
    obtain ⟨d, hd, e', he', hp⟩ := hpar
    by_contra hne'
    have hv : Y.sub x.1 ≠ V3.zero := fun h => hne' (V3.sub_eq_zero h)
    exact hp (parallel_trans hv (form_zero hunit h0 d hd) (form_zero hunit h0 e' he'))

/-- If all rays pass through one point, that point is returned. -/
theorem C49_midpoint_exact {llt : (V4 → V4) → V4 → Option V4} (hl : Cholesky llt) {origins directions : List (V3 ℝ)}
    (h2 : 2 ≤ origins.length) (hlen : origins.length = directions.length) (hunit : ∀ d ∈ directions, d.dot d = 1)
    (hpar : ∃ d ∈ directions, ∃ e ∈ directions, ¬ Parallel d e) {P : V3 ℝ}
    (hP : ∀ r ∈ origins.zip directions, ∃ s, P = onLine r.1 r.2 s) :
    triangulateMidpoint llt origins directions = .ok (some (P, 1)) := by
  obtain ⟨X, hX, e, he, hmin⟩ := C49_midpoint hl h2 hlen hunit hpar
  have hu : ∀ r ∈ origins.zip directions, r.2.dot r.2 = 1 := by
    intro r hr
    exact hunit _ (List.of_mem_zip hr).2
  have h0 := midpoint_solution_exact hu hP
  have hT : TotalDistance (origins.zip directions) P 0 := (totalDistance_iff hu _ _).2 h0.symm
  have hle := (hmin P 0 hT).1
  have hge : 0 ≤ e := by
    rw [(totalDistance_iff hu _ _).1 he]
    exact totalErr_nonneg hu X
  have : P = X := (hmin P 0 hT).2 (le_antisymm hge hle)
  rw [this, hX]

/-- If all rays are parallel, false is returned. -/
theorem C49_midpoint_parallel {llt : (V4 → V4) → V4 → Option V4} (hl : Cholesky llt) {origins directions : List (V3 ℝ)}
    (h2 : 2 ≤ origins.length) (hlen : origins.length = directions.length) (hunit : ∀ d ∈ directions, d.dot d = 1)
    (hpar : ∀ d ∈ directions, ∀ e ∈ directions, Parallel d e) : triangulateMidpoint llt origins directions = .ok none := by
  have hne : directions ≠ [] := by
    rintro rfl
    simp at hlen
    rw [hlen] at h2
    simp at h2
  have hpd : ¬ PositiveDefinite (midpointMatrix directions) := by
    rw [positiveDefinite_iff hunit hne]
    rintro ⟨d, hd, e, he, hp⟩
    exact hp (hpar d hd e he)
  unfold triangulateMidpoint
  rw [if_neg (by omega), if_neg (by simpa using hlen),
    (hl _ _ (midpointMatrix_linear directions)).2 hpd]

/-- Fewer than two rays or lists of different length end the program. -/
theorem C49_midpoint_abort (llt : (V4 → V4) → V4 → Option V4) (origins directions : List (V3 ℝ)) :
    triangulateMidpoint llt origins directions = .abort ↔ origins.length < 2 ∨ origins.length ≠ directions.length := by
  unfold triangulateMidpoint
  by_cases h1 : origins.length < 2
  · simp [h1]
  · by_cases h2 : origins.length = directions.length
    · rw [h2] at h1 ⊢
      simp [h1]
    · simp [h1, h2]

/-- Two crossing rays: a Cholesky solver exists, and the hypotheses hold. -/
example : ∃ llt, Cholesky llt ∧
    triangulateMidpoint llt [⟨0, 0, 0⟩, ⟨1, 1, 0⟩] [⟨1, 0, 0⟩, ⟨0, 1, 0⟩] = .ok (some (⟨1, 0, 0⟩, 1)) := by
  obtain ⟨llt, hl⟩ := exists_cholesky
  refine ⟨llt, hl, C49_midpoint_exact hl (by simp) (by simp) ?_ ?_ ?_⟩
  · intro d hd
    rcases List.mem_cons.1 hd with rfl | hd
    · norm_num [V3.dot]
    · rw [List.mem_singleton.1 hd]; norm_num [V3.dot]
  · refine ⟨⟨1, 0, 0⟩, by simp, ⟨0, 1, 0⟩, by simp, ?_⟩
    intro h
    have := congrArg V3.z h
    norm_num [V3.cross, V3.zero] at this
  · intro r hr
    simp only [List.zip_cons_cons, List.zip_nil_right, List.mem_cons, List.not_mem_nil, or_false] at hr
    rcases hr with rfl | rfl
    · exact ⟨1, by apply V3.ext <;> norm_num [onLine, V3.add, V3.smul]⟩
    · exact ⟨-1, by apply V3.ext <;> norm_num [onLine, V3.add, V3.smul]⟩

/-! ## The test that a point is in front of two cameras -/

/-- The first camera is at the origin; the second has the given rotation and position. If the rays are not parallel, there
are closest points on them, and the test holds exactly if these have positive depth in their cameras. -/
theorem C49_cheirality {R : M3 ℝ} (hR : R.IsRotation) (position : V3 ℝ) {f1 f2 : V2} {d1 d2 : V3 ℝ}
    (h1 : RayOf M3.one f1 d1) (h2 : RayOf R f2 d2) (hp : ¬ Parallel d1 d2) :
    (∃ X Y, ClosestPoints V3.zero d1 position d2 X Y) ∧
      ∀ X Y, ClosestPoints V3.zero d1 position d2 X Y →
        (inFront (f1, f2) R position = true ↔ 0 < X.z ∧ 0 < (R.mulVec (Y.sub position)).z) := by
  have e1 : d1 = homog f1 := by
    rw [RayOf, M3.one_mulVec] at h1; exact h1
  have e2 : d2 = R.transpose.mulVec (homog f2) := by
    have : R.mulVec d2 = homog f2 := h2
    rw [← this, hR.transpose_mulVec]
  subst e1 e2
  have hD : 0 < (homog f1).dot (homog f1) * (R.transpose.mulVec (homog f2)).dot (R.transpose.mulVec (homog f2))
      - (homog f1).dot (R.transpose.mulVec (homog f2)) * (homog f1).dot (R.transpose.mulVec (homog f2)) := by
    have := V3.cauchy_strict hp
    linarith
  constructor
  · obtain ⟨s, t, h⟩ := closest_exists (p := position) hD
    exact ⟨_, _, ⟨s, rfl⟩, ⟨t, rfl⟩, h⟩
  · rintro X Y ⟨⟨s, rfl⟩, ⟨t, rfl⟩, h⟩
    obtain ⟨es, et⟩ := closest_unique hD h
    rw [inFront_iff, ← es, ← et, onLine_z, onLine_depth hR]
    constructor
    · rintro ⟨a, b⟩
      exact ⟨pos_of_mul_pos_left a hD.le, pos_of_mul_pos_left b hD.le⟩
    · rintro ⟨a, b⟩
      exact ⟨mul_pos a hD, mul_pos b hD⟩

/-- If both cameras see the same point and the rays are not parallel, the test holds exactly if the point has positive
depth in both cameras. -/
theorem C49_cheirality_exact {R : M3 ℝ} (hR : R.IsRotation) {position t P : V3 ℝ} {f1 f2 : V2} {z1 z2 : ℝ} {d1 d2 : V3 ℝ}
    (ht : Centre R t position) (h1 : SeesAt M3.one V3.zero P 1 f1 z1) (h2 : SeesAt R t P 1 f2 z2)
    (hd1 : RayOf M3.one f1 d1) (hd2 : RayOf R f2 d2) (hp : ¬ Parallel d1 d2) :
    inFront (f1, f2) R position = true ↔ 0 < z1 ∧ 0 < z2 := by
  have hP1 : P = (homog f1).smul z1 := by
    have := h1
    rw [SeesAt, M3.one_mulVec] at this
    rw [show (homog f1).smul z1 = (⟨f1.1, f1.2, 1⟩ : V3 ℝ).smul z1 from rfl, ← this]
    apply V3.ext <;> simp [V3.add, V3.smul, V3.zero]
  have hP2 : R.mulVec (P.sub position) = (homog f2).smul z2 := by
    have a := h2
    have b := ht
    rw [SeesAt, V3.one_smul'] at a
    rw [Centre] at b
    rw [show (homog f2).smul z2 = (⟨f2.1, f2.2, 1⟩ : V3 ℝ).smul z2 from rfl, ← a, M3.mulVec_sub]
    generalize R.mulVec position = q at b
    generalize R.mulVec P = u
    simp only [V3.add, V3.zero, V3.mk.injEq] at b
    obtain ⟨b1, b2, b3⟩ := b
    apply V3.ext <;> simp only [V3.add, V3.sub] <;> linarith
  have e1 : d1 = homog f1 := by
    rw [RayOf, M3.one_mulVec] at hd1; exact hd1
  have e2 : R.mulVec d2 = homog f2 := hd2
  have hz0 : sqDist P P = 0 := by simp [sqDist, V3.sub, V3.dot]
  have hcl : ClosestPoints V3.zero d1 position d2 P P := by
    refine ⟨⟨z1, ?_⟩, ⟨z2, ?_⟩, fun s t => ?_⟩
    · rw [hP1, e1]; apply V3.ext <;> simp [onLine, V3.add, V3.smul, V3.zero]
    · rw [← e2, ← M3.mulVec_smul] at hP2
      have := congrArg R.transpose.mulVec hP2
      rw [hR.transpose_mulVec, hR.transpose_mulVec] at this
      rw [onLine, ← this]
      apply V3.ext <;> simp only [V3.add, V3.sub] <;> ring
    · rw [hz0]; exact V3.self_nonneg _
  rw [(C49_cheirality hR position hd1 hd2 hp).2 P P hcl, hP2, hP1]
  simp [V3.smul, homog]

/-- The test fails for parallel rays. -/
theorem C49_cheirality_parallel {R : M3 ℝ} (hR : R.IsRotation) (position : V3 ℝ) {f1 f2 : V2} {d1 d2 : V3 ℝ}
    (h1 : RayOf M3.one f1 d1) (h2 : RayOf R f2 d2) (hp : Parallel d1 d2) : inFront (f1, f2) R position = false := by
  have e1 : d1 = homog f1 := by
    rw [RayOf, M3.one_mulVec] at h1; exact h1
  have e2 : d2 = R.transpose.mulVec (homog f2) := by
    have : R.mulVec d2 = homog f2 := h2
    rw [← this, hR.transpose_mulVec]
  subst e1 e2
  exact inFront_parallel position hp

/-- A point two units in front of two cameras one unit apart. -/
example : inFront ((0, 0), (-1 / 2, 0)) M3.one ⟨1, 0, 0⟩ = true := by
  refine (C49_cheirality_exact (t := ⟨-1, 0, 0⟩) (P := ⟨0, 0, 2⟩) (z1 := 2) (z2 := 2) (d1 := ⟨0, 0, 1⟩)
    (d2 := ⟨-1 / 2, 0, 1⟩) M3.IsRotation.one ?_ ?_ ?_ ?_ ?_ ?_).2 ⟨by norm_num, by norm_num⟩
  · apply V3.ext <;> norm_num [M3.mulVec, M3.one, V3.dot, V3.add, V3.zero]
  · apply V3.ext <;> norm_num [M3.mulVec, M3.one, V3.dot, V3.add, V3.zero, V3.smul]
  · apply V3.ext <;> norm_num [M3.mulVec, M3.one, V3.dot, V3.add, V3.zero, V3.smul]
  · apply V3.ext <;> norm_num [M3.mulVec, M3.one, V3.dot]
  · apply V3.ext <;> norm_num [M3.mulVec, M3.one, V3.dot]
  · intro h
    have := congrArg V3.y h
    norm_num [V3.cross, V3.zero] at this

/-! ## The triangulation angle -/

/-- The test holds exactly if some two of the rays enclose more than the minimum angle. -/
theorem C49_sufficient_angle {directions : List (V3 ℝ)} (hunit : ∀ d ∈ directions, d.dot d = 1) {degrees : ℝ}
    (h0 : 0 ≤ degrees) (h1 : degrees ≤ 180) :
    sufficientAngle directions degrees = true ↔
      ∃ (i j : Nat) (d e : V3 ℝ), i < j ∧ directions[i]? = some d ∧ directions[j]? = some e ∧ degrees < angleDegrees d e := by
  unfold sufficientAngle
  rw [anyPairBelow_iff, pairwise_iff_index]
  constructor
  · intro h
    push Not at h
    obtain ⟨i, j, d, e, hij, hd, he, hlt⟩ := h
    refine ⟨i, j, d, e, hij, hd, he, ?_⟩
    exact (angle_lt_iff (hunit d (List.mem_of_getElem? hd)) (hunit e (List.mem_of_getElem? he)) h0 h1).1 hlt
  · rintro ⟨i, j, d, e, hij, hd, he, hlt⟩ hall
    have := (angle_lt_iff (hunit d (List.mem_of_getElem? hd)) (hunit e (List.mem_of_getElem? he)) h0 h1).2 hlt
    exact absurd (hall i j d e hij hd he) (not_le.2 this)

/-- Three rays, two of them at a right angle. -/
example : sufficientAngle [⟨1, 0, 0⟩, ⟨1, 0, 0⟩, ⟨0, 1, 0⟩] 60 = true := by
  refine (C49_sufficient_angle ?_ (by norm_num) (by norm_num)).2
    ⟨0, 2, ⟨1, 0, 0⟩, ⟨0, 1, 0⟩, by norm_num, rfl, rfl, ?_⟩
  · intro d hd
    simp only [List.mem_cons, List.not_mem_nil, or_false] at hd
    rcases hd with rfl | rfl | rfl <;> norm_num [V3.dot]
  · have hpi := Real.pi_pos
    rw [angleDegrees]
    have : (⟨1, 0, 0⟩ : V3 ℝ).dot ⟨0, 1, 0⟩ = 0 := by norm_num [V3.dot]
    rw [this, Real.arccos_zero, lt_div_iff₀ hpi]
    linarith

/-! ## The epipolar constraint and two-view triangulation -/

/-- The essential matrix of two calibrated cameras satisfies the epipolar constraint for the projections of every point,
finite or not. -/
theorem C49_epipolar (P1 P2 : P34) (h2 : P2.1.IsRotation) (X : V3 ℝ) (w : ℝ) {p1 p2 : V2} {z1 z2 : ℝ} (hz1 : z1 ≠ 0)
    (hz2 : z2 ≠ 0) (h1' : SeesAt P1.1 P1.2 X w p1 z1) (h2' : SeesAt P2.1 P2.2 X w p2 z2) :
    (⟨p1.1, p1.2, 1⟩ : V3 ℝ).dot ((essentialFromPoses P1 P2).mulVec ⟨p2.1, p2.2, 1⟩) = 0 := by
  have := epipolar P1 P2 h2 (X, w)
  rw [(seesAt_iff P1 (X, w) p1 z1).1 h1', (seesAt_iff P2 (X, w) p2 z2).1 h2', M3.mulVec_smul] at this
  have e : ((homog p1).smul z1).dot (((essentialFromPoses P1 P2).mulVec (homog p2)).smul z2) =
      z1 * z2 * (homog p1).dot ((essentialFromPoses P1 P2).mulVec (homog p2)) := by
    simp only [V3.smul, V3.dot]; ring
  rw [e] at this
  exact (mul_eq_zero.1 this).resolve_left (mul_ne_zero hz1 hz2)

/-- Triangulating exact projections of a point gives the point, up to scale, unless the second ray passes along the
baseline. -/
theorem C49_triangulate_exact {smallest : (V4 → ℝ) → V4} {P1 P2 : P34} (h1 : P1.1.IsRotation) (h2 : P2.1.IsRotation)
    {X : V3 ℝ} {w : ℝ} {p1 p2 : V2} {z1 z2 : ℝ} (hz1 : z1 ≠ 0) (hz2 : z2 ≠ 0) (hs1 : SeesAt P1.1 P1.2 X w p1 z1)
    (hs2 : SeesAt P2.1 P2.2 X w p2 z2) {c1 c2 d2 : V3 ℝ} (hc1 : Centre P1.1 P1.2 c1) (hc2 : Centre P2.1 P2.2 c2)
    (hd : RayOf P2.1 p2 d2) (hb : ¬ Parallel (c1.sub c2) d2) 
    (hsm : SmallestVector (fun Y => sqNorm (dltDesign P1 P2 p1 p2 Y))
      (smallest (fun Y => sqNorm (dltDesign P1 P2 p1 p2 Y)))) :
    ∃ k : ℝ, k ≠ 0 ∧ triangulate smallest P1 P2 p1 p2 = .ok (X.smul k, k * w) := by
  have hb' := baseline_not_parallel h1 h2 hc1 hc2 hd hb
  have hE := C49_epipolar P1 P2 h2 X w hz1 hz2 hs1 hs2
  have hfo := findOptimal_exact hE (essential_line_ne hb')
  have hX : (X, w) ≠ ((V3.zero, 0) : V4) := by
    intro e
    have e1 : X = V3.zero := congrArg Prod.fst e
    have e2 : w = 0 := congrArg Prod.snd e
    have := congrArg V3.z ((seesAt_iff P1 (X, w) p1 z1).1 hs1)
    rw [e1, e2] at this
    simp [applyP, M3.mulVec, V3.add, V3.smul, V3.dot, V3.zero, homog] at this
    exact hz1 this.symm
  have hq0 : sqNorm (dltDesign P1 P2 p1 p2 (X, w)) = 0 := by
    rw [dlt_zero_iff, seesAt_depth (P := P1) (X := (X, w)) hs1, seesAt_depth (P := P2) (X := (X, w)) hs2]
    exact ⟨hs1, hs2⟩
  have hv0 := smallest_zero hsm (fun u => sqNorm_nonneg _) (dlt_scale P1 P2 p1 p2) hX hq0
  rw [dlt_zero_iff] at hv0
  obtain ⟨k, hvX⟩ : ∃ k, smallest (fun Y => sqNorm (dltDesign P1 P2 p1 p2 Y)) = (X.smul k, k * w) :=
    ⟨_, same_point (X := (X, w)) h1 h2 hz1 hs1 hs2 hv0.1 hv0.2 hb'⟩
  refine ⟨k, ?_, ?_⟩
  rotate_left
  · simp only [triangulate, hfo, Outcome.ok_bind, triangulateDLT]
    rw [hvX]
  · intro e
    rw [e] at hvX
    apply unit_ne_zero hsm.1
    rw [hvX]
    simp [V3.smul, V3.zero]

/-- Two cameras one unit apart, and the point (0, 0, 3/4). -/
noncomputable def twoCameras : P34 × P34 := ((M3.one, ⟨0, 0, 0⟩), (M3.one, ⟨-1, 0, 0⟩))

theorem twoCameras_smallest (s : ℝ) (hs : s * s = 1) :
    SmallestVector (fun Y => sqNorm (dltDesign twoCameras.1 twoCameras.2 (0, 0) (-4 / 3, 0) Y))
      (⟨0, 0, 3 / 5 * s⟩, 4 / 5 * s) := by
  have h0 : sqNorm (dltDesign twoCameras.1 twoCameras.2 (0, 0) (-4 / 3, 0) (⟨0, 0, 3 / 5 * s⟩, 4 / 5 * s)) = 0 := by
    simp [sqNorm, dltDesign, dltRow, applyP, twoCameras, M3.mulVec, M3.one, V3.add, V3.smul, V3.dot]
    ring
  refine ⟨?_, fun u _ => ?_⟩
  · simp only [Unit4, V3.dot]; nlinarith
  · simp only [h0]; exact sqNorm_nonneg _

example : ∃ k : ℝ, k ≠ 0 ∧ triangulate (fun _ => (⟨0, 0, 3 / 5 * 1⟩, 4 / 5 * 1)) twoCameras.1 twoCameras.2 (0, 0) (-4 / 3, 0)
    = .ok ((⟨0, 0, 3 / 4⟩ : V3 ℝ).smul k, k * 1) := by
  refine C49_triangulate_exact (z1 := 3 / 4) (z2 := 3 / 4) (c1 := ⟨0, 0, 0⟩) (c2 := ⟨1, 0, 0⟩) (d2 := ⟨-4 / 3, 0, 1⟩)
    M3.IsRotation.one M3.IsRotation.one (by norm_num) (by norm_num) ?_ ?_ ?_ ?_ ?_ ?_ ?_
  · apply V3.ext <;> norm_num [twoCameras, M3.mulVec, M3.one, V3.dot, V3.add, V3.smul]
  · apply V3.ext <;> norm_num [twoCameras, M3.mulVec, M3.one, V3.dot, V3.add, V3.smul]
  · apply V3.ext <;> norm_num [twoCameras, M3.mulVec, M3.one, V3.dot, V3.add, V3.zero]
  · apply V3.ext <;> norm_num [twoCameras, M3.mulVec, M3.one, V3.dot, V3.add, V3.zero]
  · apply V3.ext <;> norm_num [twoCameras, M3.mulVec, M3.one, V3.dot]
  · intro h
    have := congrArg V3.y h
    norm_num [V3.cross, V3.zero, V3.sub] at this
  · exact twoCameras_smallest 1 (by norm_num)

/-- The correction of the image points is wrong: each epipolar line is updated with itself instead of the other one, and
the corrected points need not satisfy the epipolar constraint, contrary to the comments (triangulation.cc:62-65, 121). -/
theorem C49_correction_counterexample :
    ∃ (P1 P2 : P34) (p1 p2 c1 c2 : V2), P1.1.IsRotation ∧ P2.1.IsRotation ∧
      findOptimalImagePoints (essentialFromPoses P1 P2) p1 p2 = .ok (c1, c2) ∧
      (homog c1).dot ((essentialFromPoses P1 P2).mulVec (homog c2)) ≠ 0 := by
  have hT : relativeTranslation (M3.one, ⟨0, 0, 0⟩) (M3.one, ⟨0, 0, -1⟩) = ⟨0, 0, 1⟩ := by
    apply V3.ext <;> norm_num [relativeTranslation, M3.one, M3.mul, M3.transpose, M3.mulVec, V3.sub, V3.dot]
  have hN : Triangulation.normalize ⟨0, 0, 1⟩ = ⟨0, 0, 1⟩ := by
    have : (⟨0, 0, 1⟩ : V3 ℝ).dot ⟨0, 0, 1⟩ = 1 := by norm_num [V3.dot]
    unfold Triangulation.normalize
    rw [this, Real.sqrt_one, if_pos one_pos]
    apply V3.ext <;> norm_num [V3.smul]
  have hE : essentialFromPoses (M3.one, ⟨0, 0, 0⟩) (M3.one, ⟨0, 0, -1⟩) = ⟨⟨0, -1, 0⟩, ⟨1, 0, 0⟩, ⟨0, 0, 0⟩⟩ := by
    unfold essentialFromPoses
    rw [hT, hN]
    apply M3.ext <;> apply V3.ext <;>
      norm_num [crossMatrix, M3.one, M3.mul, M3.transpose, M3.mulVec, V3.dot]
  have hs : Real.sqrt (16 / 25) = 4 / 5 := by
    rw [show (16 / 25 : ℝ) = (4 / 5) * (4 / 5) by norm_num, Real.sqrt_mul_self (by norm_num)]
  refine ⟨(M3.one, ⟨0, 0, 0⟩), (M3.one, ⟨0, 0, -1⟩), (1, 0), (4 / 5, 3 / 5), (99 / 125, 18 / 125), (18 / 25, 9 / 25),
    M3.IsRotation.one, M3.IsRotation.one, ?_, ?_⟩
  · rw [hE]
    unfold findOptimalImagePoints
    norm_num [homog, M3.mulVec, M3.transpose, head2, sq2, subMul, V3.dot, hs, correctPoints, updateLine, moveAlong]
  · rw [hE]
    norm_num [homog, M3.mulVec, V3.dot]

/-- A point is a model exactly if it is the triangulated point of the two observations and its depth, times its last
coordinate, is positive in both cameras. -/
theorem C49_estimator (smallest : (V4 → ℝ) → V4) (P1 P2 : P34) (p1 p2 : V2) (X : V4) :
    estimateModel smallest P1 P2 p1 p2 = .ok (some X) ↔ triangulate smallest P1 P2 p1 p2 = .ok X ∧
      0 < (P1.1.mulVec X.1).z + X.2 * P1.2.z ∧ 0 < (P2.1.mulVec X.1).z + X.2 * P2.2.z := by
  have h : ∀ P : P34, ∀ Y : V4, (applyP P Y).z = (P.1.mulVec Y.1).z + Y.2 * P.2.z := fun _ _ => rfl
  unfold estimateModel
  cases ht : triangulate smallest P1 P2 p1 p2 with
  | abort => simp [Bind.bind, Outcome.bind]
  | ub => simp [Bind.bind, Outcome.bind]
  | ok Y =>
    rw [Outcome.ok_bind]
    simp only [Outcome.ok.injEq, h]
    split_ifs with hc
    · simp only [Option.some.injEq]
      constructor
      · rintro rfl; exact ⟨rfl, hc⟩
      · rintro ⟨rfl, _⟩; rfl
    · simp only [reduceCtorEq, false_iff]
      rintro ⟨rfl, hh⟩
      exact hc hh

/-- The model estimator of `EstimateTriangulation` depends on the sign the singular value decomposition happens to give its
vectors: for the same exact observations of a point in front of both cameras, one valid sign makes it return the point,
the other makes it return nothing. -/
theorem C49_estimator_sign_counterexample :
    ∃ (P1 P2 : P34) (p1 p2 : V2) (X : V3 ℝ) (v v' : V4), P1.1.IsRotation ∧ P2.1.IsRotation ∧
      SeesAt P1.1 P1.2 X 1 p1 (3 / 4) ∧ SeesAt P2.1 P2.2 X 1 p2 (3 / 4) ∧
      SmallestVector (fun Y => sqNorm (dltDesign P1 P2 p1 p2 Y)) v ∧
      SmallestVector (fun Y => sqNorm (dltDesign P1 P2 p1 p2 Y)) v' ∧
      estimateModel (fun _ => v) P1 P2 p1 p2 = .ok (some v) ∧ estimateModel (fun _ => v') P1 P2 p1 p2 = .ok none := by
  have hs1 : SeesAt twoCameras.1.1 twoCameras.1.2 ⟨0, 0, 3 / 4⟩ 1 (0, 0) (3 / 4) := by
    apply V3.ext <;> norm_num [twoCameras, M3.mulVec, M3.one, V3.dot, V3.add, V3.smul]
  have hs2 : SeesAt twoCameras.2.1 twoCameras.2.2 ⟨0, 0, 3 / 4⟩ 1 (-4 / 3, 0) (3 / 4) := by
    apply V3.ext <;> norm_num [twoCameras, M3.mulVec, M3.one, V3.dot, V3.add, V3.smul]
  have hb := baseline_not_parallel (P1 := twoCameras.1) (P2 := twoCameras.2) (c1 := ⟨0, 0, 0⟩) (c2 := ⟨1, 0, 0⟩)
    (d2 := ⟨-4 / 3, 0, 1⟩) (p2 := (-4 / 3, 0)) M3.IsRotation.one M3.IsRotation.one
    (by apply V3.ext <;> norm_num [twoCameras, M3.mulVec, M3.one, V3.dot, V3.add, V3.zero])
    (by apply V3.ext <;> norm_num [twoCameras, M3.mulVec, M3.one, V3.dot, V3.add, V3.zero])
    (by apply V3.ext <;> norm_num [twoCameras, M3.mulVec, M3.one, V3.dot, homog])
    (by intro h
        have := congrArg V3.y h
        norm_num [V3.cross, V3.zero, V3.sub] at this)
  have hfo := findOptimal_exact
    (C49_epipolar twoCameras.1 twoCameras.2 M3.IsRotation.one _ 1 (by norm_num) (by norm_num) hs1 hs2)
    (essential_line_ne hb)
  refine ⟨twoCameras.1, twoCameras.2, (0, 0), (-4 / 3, 0), ⟨0, 0, 3 / 4⟩, (⟨0, 0, 3 / 5 * 1⟩, 4 / 5 * 1),
    (⟨0, 0, 3 / 5 * -1⟩, 4 / 5 * -1), M3.IsRotation.one, M3.IsRotation.one, hs1, hs2,
    twoCameras_smallest 1 (by norm_num), twoCameras_smallest (-1) (by norm_num), ?_, ?_⟩
  · simp only [estimateModel, triangulate, hfo, Outcome.ok_bind, triangulateDLT]
    rw [if_pos]
    norm_num [applyP, twoCameras, M3.mulVec, M3.one, V3.add, V3.smul, V3.dot]
  · simp only [estimateModel, triangulate, hfo, Outcome.ok_bind, triangulateDLT]
    rw [if_neg]
    norm_num [applyP, twoCameras, M3.mulVec, M3.one, V3.add, V3.smul, V3.dot]

/-! ## Many views -/

/-- Triangulating exact projections of one point in any number of views gives a point that every view sees at its image
point; it is the point itself, up to scale, if two of the views are in general position. -/
theorem C49_nview {smallest : (V4 → ℝ) → V4} {poses : List P34} {points : List V2} (hlen : poses.length = points.length)
    {X : V4} (hX : X ≠ (V3.zero, 0)) (hs : ∀ o ∈ poses.zip points, ∃ z, SeesAt o.1.1 o.1.2 X.1 X.2 o.2 z)
    (heig : SmallestVector (nViewCost (poses.zip points)) (smallest (nViewCost (poses.zip points)))) :
    ∃ v, triangulateNView smallest poses points = .ok v ∧ v ≠ (V3.zero, 0) ∧
      (∀ o ∈ poses.zip points, ∃ z, SeesAt o.1.1 o.1.2 v.1 v.2 o.2 z) ∧
      ∀ o1 ∈ poses.zip points, ∀ o2 ∈ poses.zip points, o1.1.1.IsRotation → o2.1.1.IsRotation →
        ∀ c1 c2 d2, Centre o1.1.1 o1.1.2 c1 → Centre o2.1.1 o2.1.2 c2 → RayOf o2.1.1 o2.2 d2 → ¬ Parallel (c1.sub c2) d2 →
          ¬ SeesAt o1.1.1 o1.1.2 X.1 X.2 o1.2 0 → ∃ k, v = (X.1.smul k, k * X.2) := by
  have h0 : nViewCost (poses.zip points) X = 0 := by
    rw [nViewCost_zero_iff]
    intro o ho
    obtain ⟨z, hz⟩ := hs o ho
    rw [seesAt_depth (P := o.1) hz]
    exact hz
  have hv := smallest_zero heig (nViewCost_nonneg _) (nViewCost_scale _) hX h0
  rw [nViewCost_zero_iff] at hv
  refine ⟨smallest (nViewCost (poses.zip points)), ?_, unit_ne_zero heig.1, fun o ho => ⟨_, hv o ho⟩, ?_⟩
  · simp [triangulateNView, hlen]
  · intro o1 ho1 o2 ho2 hr1 hr2 c1 c2 d2 hc1 hc2 hd hb hz
    obtain ⟨z1, hz1⟩ := hs o1 ho1
    obtain ⟨z2, hz2⟩ := hs o2 ho2
    have hne : z1 ≠ 0 := by
      rintro rfl
      exact hz hz1
    exact ⟨_, same_point hr1 hr2 hne hz1 hz2 (hv o1 ho1) (hv o2 ho2) (baseline_not_parallel hr1 hr2 hc1 hc2 hd hb)⟩

example : ∃ v, triangulateNView (fun _ => (⟨0, 0, 1⟩, 0)) [(M3.one, ⟨0, 0, 0⟩), (M3.one, ⟨1, 0, 0⟩)] [(0, 0), (0, 0)] = .ok v ∧
    v ≠ (V3.zero, 0) := by
  have hsee : ∀ o ∈ [(M3.one, (⟨0, 0, 0⟩ : V3 ℝ)), (M3.one, ⟨1, 0, 0⟩)].zip [((0 : ℝ), (0 : ℝ)), (0, 0)],
      SeesAt o.1.1 o.1.2 ⟨0, 0, 1⟩ 0 o.2 1 := by
    intro o ho
    simp only [List.zip_cons_cons, List.zip_nil_right, List.mem_cons, List.not_mem_nil, or_false] at ho
    rcases ho with rfl | rfl <;> apply V3.ext <;> norm_num [M3.mulVec, M3.one, V3.dot, V3.add, V3.smul]
  obtain ⟨v, hv, hn, -⟩ := C49_nview (smallest := fun _ => (⟨0, 0, 1⟩, 0)) (X := (⟨0, 0, 1⟩, 0))
    (poses := [(M3.one, ⟨0, 0, 0⟩), (M3.one, ⟨1, 0, 0⟩)]) (points := [(0, 0), (0, 0)]) rfl (by
      intro e
      have := congrArg (fun v : V4 => v.1.z) e
      norm_num [V3.zero] at this) (fun o ho => ⟨1, hsee o ho⟩) (by
        refine ⟨by norm_num [Unit4, V3.dot], fun u _ => ?_⟩
        rw [(nViewCost_zero_iff _ _).2 (fun o ho => by
          have h := hsee o ho
          rw [seesAt_depth (P := o.1) (X := (⟨0, 0, 1⟩, 0)) h]
          exact h)]
        exact nViewCost_nonneg _ _)
  exact ⟨v, hv, hn⟩

/-- Triangulation by singular value decomposition of all views, if the memory of the design matrix happens to be zero:
the result is seen by every view at its image point. -/
theorem C49_nview_svd_partial {smallest : Nat → (V4 × List ℝ → ℝ) → V4 × List ℝ} {mem : Nat → Nat → V3 ℝ}
    (hmem : ∀ i j, mem i j = V3.zero) {poses : List P34} {points : List V2} (hlen : poses.length = points.length)
    {X : V4} (hX : X ≠ (V3.zero, 0))
    (hs : ∀ (i : Nat) (P : P34) (p : V2), poses[i]? = some P → points[i]? = some p → ∃ z, SeesAt P.1 P.2 X.1 X.2 p z)
    (hsvd : SmallestVectorN points.length (fun u => svdCost mem points u.1 u.2 0 poses)
      (smallest points.length (fun u => svdCost mem points u.1 u.2 0 poses))) :
    ∃ v, triangulateNViewSVD smallest mem poses points = .ok v ∧ v ≠ (V3.zero, 0) ∧
      ∀ (i : Nat) (P : P34) (p : V2), poses[i]? = some P → points[i]? = some p → ∃ z, SeesAt P.1 P.2 v.1 v.2 p z := by
  -- the depths
  let depth : List ℝ := poses.map (fun P => (applyP P X).z)
  have hdl : depth.length = points.length := by simp [depth, hlen]
  have hsum : 0 ≤ (depth.map (fun a => a * a)).sum := sqNorm_nonneg depth
  have hn : 0 < X.1.dot X.1 + X.2 * X.2 + (depth.map (fun a => a * a)).sum := by
    have h1 := V3.self_nonneg X.1
    have h2 := mul_self_nonneg X.2
    rcases lt_or_eq_of_le (add_nonneg h1 h2) with h | h
    · linarith
    · exfalso
      exact hX (Prod.ext (V3.self_eq_zero (by linarith)) (mul_self_eq_zero.1 (by linarith)))
  have hr := Real.sqrt_pos.2 hn
  have hm := Real.mul_self_sqrt hn.le
  generalize Real.sqrt (X.1.dot X.1 + X.2 * X.2 + (depth.map (fun a => a * a)).sum) = r at hr hm
  let u : V4 × List ℝ := ((X.1.smul (1 / r), 1 / r * X.2), depth.map (fun a => 1 / r * a))
  have hsumr : ((depth.map (fun a => 1 / r * a)).map (fun a => a * a)).sum = (depth.map (fun a => a * a)).sum / (r * r) := by
    generalize depth = l
    induction l with
    | nil => simp
    | cons a l ih =>
      simp only [List.map_cons, List.sum_cons, ih]
      field_simp
  have hu : u.1.1.dot u.1.1 + u.1.2 * u.1.2 + (u.2.map (fun a => a * a)).sum = 1 := by
    show (X.1.smul (1 / r)).dot (X.1.smul (1 / r)) + 1 / r * X.2 * (1 / r * X.2)
      + ((depth.map (fun a => 1 / r * a)).map (fun a => a * a)).sum = 1
    rw [hsumr]
    have : (X.1.smul (1 / r)).dot (X.1.smul (1 / r)) + 1 / r * X.2 * (1 / r * X.2) = (X.1.dot X.1 + X.2 * X.2) / (r * r) := by
      simp only [V3.smul, V3.dot]; field_simp
    rw [this, ← add_div, ← hm, div_self (by positivity)]
  have hu0 : svdCost mem points u.1 u.2 0 poses = 0 := by
    rw [svdCost_zero_iff]
    intro k P hk
    have hkl : k < points.length := by
      have := (List.getElem?_eq_some_iff.1 hk).1
      omega
    have hp : points[k]? = some points[k] := List.getElem?_eq_getElem hkl
    obtain ⟨z, hz⟩ := hs k P points[k] hk hp
    rw [Nat.zero_add, svdRow_zero hmem points k hp]
    have hdep : u.2[k - 0]? = some (1 / r * z) := by
      simp only [u, depth, List.map_map, Nat.sub_zero, List.getElem?_map, hk, Option.map_some, Function.comp]
      rw [seesAt_depth hz]
    rw [if_pos (Nat.zero_le _), hdep, Option.getD_some]
    show applyP P (X.1.smul (1 / r), 1 / r * X.2) = _
    rw [applyP_smul, (seesAt_iff P X points[k] z).1 hz, V3.smul_smul]
  have hle := hsvd.2 u (by simp [u, hdl]) hu
  have hv0 : svdCost mem points (smallest points.length (fun u => svdCost mem points u.1 u.2 0 poses)).1
      (smallest points.length (fun u => svdCost mem points u.1 u.2 0 poses)).2 0 poses = 0 := by
    apply le_antisymm _ (svdCost_nonneg _ _ _ _ _ _)
    rw [← hu0]; exact hle
  refine ⟨(smallest points.length (fun u => svdCost mem points u.1 u.2 0 poses)).1, by simp [triangulateNViewSVD, hlen], ?_⟩
  generalize smallest points.length (fun u => svdCost mem points u.1 u.2 0 poses) = v at hsvd hv0 ⊢
  have hunit := hsvd.1.2
  have hvl := hsvd.1.1
  rw [svdCost_zero_iff] at hv0
  have hrow : ∀ (i : Nat) (P : P34) (p : V2), poses[i]? = some P → points[i]? = some p →
      applyP P v.1 = (homog p).smul ((v.2[i]?).getD 0) := by
    intro i P p hP hp
    have := hv0 i P hP
    rw [Nat.zero_add, svdRow_zero hmem points i hp, if_pos (Nat.zero_le _)] at this
    exact this
  constructor
  · intro e
    have hz : ∀ a ∈ v.2, a = 0 := by
      intro a ha
      obtain ⟨i, hi, rfl⟩ := List.getElem_of_mem ha
      have h1 : i < points.length := by omega
      have h2 : i < poses.length := by omega
      have := congrArg V3.z (hrow i _ _ (List.getElem?_eq_getElem h2) (List.getElem?_eq_getElem h1))
      rw [List.getElem?_eq_getElem hi, e] at this
      simp [applyP, M3.mulVec, V3.add, V3.smul, V3.dot, V3.zero, homog] at this
      exact this.symm
    have hs0 : (v.2.map (fun a => a * a)).sum = 0 := by
      have : ∀ l : List ℝ, (∀ a ∈ l, a = 0) → (l.map (fun a => a * a)).sum = 0 := by
        intro l
        induction l with
        | nil => simp
        | cons a l ih =>
          intro h
          rw [List.map_cons, List.sum_cons, h a List.mem_cons_self, ih (fun b hb => h b (List.mem_cons_of_mem _ hb))]
          simp
      exact this _ hz
    rw [hs0, e] at hunit
    simp [V3.dot, V3.zero] at hunit
  · intro i P p hP hp
    exact ⟨_, hrow i P p hP hp⟩

/-- The design matrix is not set to zero where the views do not write. With other contents the result can be a point that
the first view does not see at its image point, although both views see one point exactly. -/
theorem C49_nview_svd_counterexample :
    ∃ (mem : Nat → Nat → V3 ℝ) (P1 P2 : P34) (p1 p2 : V2) (X : V3 ℝ),
      SeesAt P1.1 P1.2 X 1 p1 1 ∧ SeesAt P2.1 P2.2 X 1 p2 1 ∧
      ∀ smallest : Nat → (V4 × List ℝ → ℝ) → V4 × List ℝ,
        SmallestVectorN 2 (fun u => svdCost mem [p1, p2] u.1 u.2 0 [P1, P2])
          (smallest 2 (fun u => svdCost mem [p1, p2] u.1 u.2 0 [P1, P2])) →
        ∃ v, triangulateNViewSVD smallest mem [P1, P2] [p1, p2] = .ok v ∧ ¬ ∃ z, SeesAt P1.1 P1.2 v.1 v.2 p1 z := by
  let mem : Nat → Nat → V3 ℝ := fun i j => if i = 0 ∧ j = 1 then ⟨1, 0, 0⟩ else V3.zero
  have row0 : ∀ a b : ℝ, svdRow mem [(0, 0), (-1, 0)] 0 0 [a, b] = ⟨b, 0, a⟩ := by
    intro a b
    apply V3.ext <;> simp [svdRow, svdBlock, mem, V3.add, V3.smul, V3.zero, homog]
  have row1 : ∀ a b : ℝ, svdRow mem [(0, 0), (-1, 0)] 1 0 [a, b] = ⟨-b, 0, b⟩ := by
    intro a b
    apply V3.ext <;> simp [svdRow, svdBlock, mem, V3.add, V3.smul, V3.zero, homog]
  refine ⟨mem, (M3.one, ⟨0, 0, 0⟩), (M3.one, ⟨-1, 0, 0⟩), (0, 0), (-1, 0), ⟨0, 0, 1⟩, ?_, ?_, ?_⟩
  · apply V3.ext <;> norm_num [M3.mulVec, M3.one, V3.dot, V3.add, V3.smul]
  · apply V3.ext <;> norm_num [M3.mulVec, M3.one, V3.dot, V3.add, V3.smul]
  · intro smallest hsm
    refine ⟨_, by simp [triangulateNViewSVD]; rfl, ?_⟩
    have hs8 : (0 : ℝ) < Real.sqrt 8 := Real.sqrt_pos.2 (by norm_num)
    have hm8 : Real.sqrt 8 * Real.sqrt 8 = 8 := Real.mul_self_sqrt (by norm_num)
    generalize Real.sqrt 8 = r at hs8 hm8
    have h8 : 1 / r * (1 / r) = 1 / 8 := by
      rw [div_mul_div_comm, hm8]; norm_num
    generalize 1 / r = c at h8
    have hle := hsm.2 ((⟨c, 0, c⟩, 2 * c), [c, c]) rfl (by
      simp only [V3.dot, List.map_cons, List.map_nil, List.sum_cons, List.sum_nil]
      nlinarith)
    have h0 : svdCost mem [(0, 0), (-1, 0)] (⟨c, 0, c⟩, 2 * c) [c, c] 0 [(M3.one, ⟨0, 0, 0⟩), (M3.one, ⟨-1, 0, 0⟩)] = 0 := by
      rw [svdCost_zero_iff]
      intro k P hk
      rcases k with _ | _ | k
      · simp only [List.getElem?_cons_zero, Option.some.injEq] at hk
        subst hk
        rw [Nat.zero_add, row0]
        apply V3.ext <;> simp [applyP, M3.mulVec, M3.one, V3.dot, V3.add, V3.smul]
      · simp only [Nat.zero_add, List.getElem?_cons_succ, List.getElem?_cons_zero, Option.some.injEq] at hk
        subst hk
        rw [row1]
        apply V3.ext <;> simp [applyP, M3.mulVec, M3.one, V3.dot, V3.add, V3.smul]
        ring
      · simp at hk
    have hv0 := le_antisymm (hle.trans h0.le) (svdCost_nonneg _ _ _ _ _ _)
    have hunit := hsm.1.2
    have hlen := hsm.1.1
    generalize smallest 2 (fun u => svdCost mem [(0, 0), (-1, 0)] u.1 u.2 0 [(M3.one, ⟨0, 0, 0⟩), (M3.one, ⟨-1, 0, 0⟩)]) = v
      at hv0 hunit hlen ⊢
    obtain ⟨⟨v, w⟩, al⟩ := v
    obtain ⟨a, b, rfl⟩ := List.length_eq_two.1 hlen
    rw [svdCost_zero_iff] at hv0
    have e1 := hv0 0 _ rfl
    have e2 := hv0 1 _ rfl
    rw [Nat.zero_add] at e1 e2
    rw [row0] at e1
    rw [row1] at e2
    simp [applyP, M3.mulVec, M3.one, V3.dot, V3.add, V3.smul] at e1 e2
    obtain ⟨x1, y1, z1⟩ := e1
    obtain ⟨x2, y2, z2⟩ := e2
    rintro ⟨z, hz⟩
    have hx := congrArg V3.x hz
    simp [M3.mulVec, M3.one, V3.dot, V3.add, V3.smul] at hx
    simp only [V3.dot, List.map_cons, List.map_nil, List.sum_cons, List.sum_nil] at hunit
    have b0 : b = 0 := by linarith
    have a0 : a = 0 := by linarith
    have w0 : w = 0 := by linarith
    have vz : v.z = 0 := by linarith
    rw [hx, y1, vz, w0, a0, b0] at hunit
    norm_num at hunit

end Theia
