import Verif.Proof.TwoPointPose

/-!
# C75: the pose from two points with a known axis of rotation
-/

namespace Theia

open Spec TwoPointPose

private theorem distances_swap {axis p1 p2 r1 r2 : V3 ℝ} (h : HasDistances axis p1 p2 r1 r2) : HasDistances axis p2 p1 r2 r1 := by
  obtain ⟨l1, l2, ha, hn⟩ := h
  refine ⟨l2, l1, ?_, ?_⟩
  · simp only [V3.dot, V3.sub, V3.smul] at ha ⊢
    linarith
  · simp only [V3.dot, V3.sub, V3.smul] at hn ⊢
    linarith

private theorem epsilon_pos : 0 < epsilon := by unfold epsilon; norm_num

private theorem solve_ok {axis p1 p2 r1 r2 : V3 ℝ} (hu : axis.dot axis = 1) (h1 : r1.dot r1 = 1) (h2 : r2.dot r2 = 1)
    (hp : r1.cross r2 ≠ V3.zero) :
    ∃ sols, solve axis p1 p2 r1 r2 = .ok sols ∧ sols.length ≤ 2 ∧
      (HasDistances axis p1 p2 r1 r2 → ∀ s ∈ sols, PoseOf axis p1 p2 r1 r2 s.1 s.2) ∧
      (epsilon ≤ |r1.dot axis| ∨ epsilon < |r2.dot axis| → ∀ l1 l2 R t, 0 < l1 → 0 < l2 →
        MapsTo axis p1 p2 (r1.smul l1) (r2.smul l2) R t → ∃ s ∈ sols, MapsTo axis p1 p2 (r1.smul l1) (r2.smul l2) s.1 s.2) := by
  unfold solve
  by_cases hr : |r1.dot axis| < epsilon
  · rw [if_pos hr]
    by_cases hr2 : |r2.dot axis| > epsilon
    · rw [if_pos hr2]
      have hp' : r2.cross r1 ≠ V3.zero := by
        intro h
        apply hp
        have hx := congrArg V3.x h
        have hy := congrArg V3.y h
        have hz := congrArg V3.z h
        simp only [V3.cross, V3.zero] at hx hy hz
        apply V3.ext <;> simp only [V3.cross, V3.zero] <;> linarith
      have hne : r2.dot axis ≠ 0 := by
        intro h
        rw [h, abs_zero] at hr2
        exact absurd hr2 (not_lt.2 epsilon_pos.le)
      obtain ⟨sols, e, hl, hs, hc⟩ := core_ok (p1 := p2) (p2 := p1) hu h2 h1 hp' hne
      refine ⟨sols, e, hl, fun hd s hm => ?_, fun _ l1 l2 R t hl1 hl2 hm => ?_⟩
      · obtain ⟨a, b, ha, hb, hmap⟩ := hs (distances_swap hd) s hm
        exact ⟨b, a, hb, ha, hmap.swap⟩
      · obtain ⟨ha, hn⟩ := lengths_of_pose hm.swap
        obtain ⟨s, hms, hmap⟩ := hc l2 l1 hl2 hl1 ha hn
        exact ⟨s, hms, hmap.swap⟩
    · rw [if_neg hr2]
      refine ⟨[], rfl, by simp, fun _ s hm => absurd hm List.not_mem_nil, fun h => ?_⟩
      rcases h with h | h
      · exact absurd hr (not_lt.2 h)
      · exact absurd h hr2
  · rw [if_neg hr]
    have hne : r1.dot axis ≠ 0 := by
      intro h
      rw [h, abs_zero] at hr
      exact hr epsilon_pos
    obtain ⟨sols, e, hl, hs, hc⟩ := core_ok (p1 := p1) (p2 := p2) hu h1 h2 hp hne
    refine ⟨sols, e, hl, hs, fun _ l1 l2 R t hl1 hl2 hm => ?_⟩
    obtain ⟨ha, hn⟩ := lengths_of_pose hm
    exact hc l1 l2 hl1 hl2 ha hn

/-- C75: for two rays that are not parallel, `TwoPointPosePartialRotation` returns at most two poses. -/
theorem C75_at_most_two (axis p1 p2 r1 r2 : V3 ℝ) (hu : axis.dot axis = 1) (h1 : r1.dot r1 = 1) (h2 : r2.dot r2 = 1)
    (hp : r1.cross r2 ≠ V3.zero) : ∃ sols, solve axis p1 p2 r1 r2 = .ok sols ∧ sols.length ≤ 2 := by
  obtain ⟨sols, e, hl, -⟩ := solve_ok (p1 := p1) (p2 := p2) hu h1 h2 hp
  exact ⟨sols, e, hl⟩

/-- C75: every rotation about the axis and translation that takes both points in front of the camera to their rays is found, unless
both rays are nearly orthogonal to the axis. If the points are above each other in the direction of the axis, the rotation is
arbitrary, and one that takes the points to the same places is found. -/
theorem C75_complete (axis p1 p2 r1 r2 : V3 ℝ) (hu : axis.dot axis = 1) (h1 : r1.dot r1 = 1) (h2 : r2.dot r2 = 1)
    (hp : r1.cross r2 ≠ V3.zero) (hr : epsilon ≤ |r1.dot axis| ∨ epsilon < |r2.dot axis|) (sols : List (M3 ℝ × V3 ℝ))
    (h : solve axis p1 p2 r1 r2 = .ok sols) (rotation : M3 ℝ) (translation : V3 ℝ) (l1 l2 : ℝ) (hl1 : 0 < l1) (hl2 : 0 < l2)
    (hpose : MapsTo axis p1 p2 (r1.smul l1) (r2.smul l2) rotation translation) :
    (∃ s ∈ sols, MapsTo axis p1 p2 (r1.smul l1) (r2.smul l2) s.1 s.2) ∧
      (axis.cross (p1.sub p2) ≠ V3.zero → (rotation, translation) ∈ sols) := by
  obtain ⟨sols', e, -, -, hc⟩ := solve_ok (p1 := p1) (p2 := p2) hu h1 h2 hp
  cases Outcome.ok.inj (h.symm.trans e)
  obtain ⟨s, hs, hm⟩ := hc hr l1 l2 rotation translation hl1 hl2 hpose
  refine ⟨⟨s, hs, hm⟩, fun hd => ?_⟩
  obtain ⟨e1, e2⟩ := pose_unique hd hpose hm
  rw [e1, e2]
  exact hs

/-- C75, partial: if there are points on the lines of the rays that are as far from each other as the two points, and as far along the
axis, then every pose returned takes the points in front of the camera to their rays. Missing: if there are no such points, the
poses returned are wrong (`C75_no_pose_counterexample`). -/
theorem C75_sound_partial (axis p1 p2 r1 r2 : V3 ℝ) (hu : axis.dot axis = 1) (h1 : r1.dot r1 = 1) (h2 : r2.dot r2 = 1)
    (hp : r1.cross r2 ≠ V3.zero) (hd : HasDistances axis p1 p2 r1 r2) (sols : List (M3 ℝ × V3 ℝ))
    (h : solve axis p1 p2 r1 r2 = .ok sols) : ∀ s ∈ sols, PoseOf axis p1 p2 r1 r2 s.1 s.2 := by
  obtain ⟨sols', e, -, hs, -⟩ := solve_ok (p1 := p1) (p2 := p2) hu h1 h2 hp
  cases Outcome.ok.inj (h.symm.trans e)
  exact hs hd

/-- C75: so with data from a real camera every pose returned is right, and the true one is among them. -/
theorem C75_real_camera (axis p1 p2 r1 r2 : V3 ℝ) (hu : axis.dot axis = 1) (h1 : r1.dot r1 = 1) (h2 : r2.dot r2 = 1)
    (hp : r1.cross r2 ≠ V3.zero) (hr : epsilon ≤ |r1.dot axis| ∨ epsilon < |r2.dot axis|) (rotation : M3 ℝ) (translation : V3 ℝ)
    (hd : axis.cross (p1.sub p2) ≠ V3.zero) (hpose : PoseOf axis p1 p2 r1 r2 rotation translation) :
    ∃ sols, solve axis p1 p2 r1 r2 = .ok sols ∧ (rotation, translation) ∈ sols ∧
      ∀ s ∈ sols, PoseOf axis p1 p2 r1 r2 s.1 s.2 := by
  obtain ⟨sols, e, -⟩ := C75_at_most_two axis p1 p2 r1 r2 hu h1 h2 hp
  obtain ⟨l1, l2, hl1, hl2, hm⟩ := hpose
  obtain ⟨ha, hn⟩ := lengths_of_pose hm
  exact ⟨sols, e, (C75_complete _ _ _ _ _ hu h1 h2 hp hr _ e _ _ _ _ hl1 hl2 hm).2 hd,
    C75_sound_partial _ _ _ _ _ hu h1 h2 hp ⟨l1, l2, ha, hn⟩ _ e⟩

/-- A camera turned by a right angle: the hypotheses hold. -/
example : ∃ axis p1 p2 r1 r2 : V3 ℝ, ∃ R t, axis.dot axis = 1 ∧ r1.dot r1 = 1 ∧ r2.dot r2 = 1 ∧ r1.cross r2 ≠ V3.zero ∧
    epsilon ≤ |r1.dot axis| ∧ axis.cross (p1.sub p2) ≠ V3.zero ∧ PoseOf axis p1 p2 r1 r2 R t := by
  refine ⟨⟨0, 1, 0⟩, ⟨-3, 3, 0⟩, ⟨-3, 0, 3⟩, ⟨0, 3 / 5, 4 / 5⟩, ⟨3 / 5, 0, 4 / 5⟩,
    ⟨⟨0, 0, 1⟩, ⟨0, 1, 0⟩, ⟨-1, 0, 0⟩⟩, ⟨0, 0, 1⟩, ?_, ?_, ?_, ?_, ?_, ?_, 5, 5, ?_, ?_, ⟨?_, ?_, ?_⟩, ?_, ?_, ?_⟩
  · simp only [V3.dot]; norm_num
  · simp only [V3.dot]; norm_num
  · simp only [V3.dot]; norm_num
  · intro h
    have := congrArg V3.x h
    norm_num [V3.cross, V3.zero] at this
  · simp only [V3.dot, epsilon]
    norm_num [abs_of_pos]
  · intro h
    have := congrArg V3.x h
    norm_num [V3.cross, V3.zero, V3.sub] at this
  · norm_num
  · norm_num
  · apply M3.ext <;> apply V3.ext <;> simp [M3.mul, M3.mulVec, M3.transpose, M3.one, V3.dot]
  · apply M3.ext <;> apply V3.ext <;> simp [M3.mul, M3.mulVec, M3.transpose, M3.one, V3.dot]
  · simp [M3.det, V3.dot, V3.cross]
  all_goals apply V3.ext <;> simp [M3.mulVec, V3.dot, V3.add, V3.smul] <;> norm_num

/-- C75: poses are returned although there is none: the real parts of the complex roots of the quadratic equation are used. Here the
points are (0, 3, 0) and the origin, and no points on the rays are as far from each other. -/
theorem C75_no_pose_counterexample : ∃ axis p1 p2 r1 r2 : V3 ℝ, axis.dot axis = 1 ∧ r1.dot r1 = 1 ∧ r2.dot r2 = 1 ∧
    r1.cross r2 ≠ V3.zero ∧ epsilon ≤ |r1.dot axis| ∧ (∀ R t, ¬ PoseOf axis p1 p2 r1 r2 R t) ∧
    ∃ sols, solve axis p1 p2 r1 r2 = .ok sols ∧ sols.length = 2 := by
  have hq : quadratic (⟨0, 1, 0⟩ : V3 ℝ) ⟨0, 3, 0⟩ ⟨0, 0, 0⟩ ⟨0, 3 / 5, 4 / 5⟩ ⟨3 / 5, 0, 4 / 5⟩ = (1, -32 / 5, 16) := by
    simp only [quadratic, coefM, coefN, V3.dot, V3.sub]
    norm_num
  have h1 : (⟨0, 3 / 5, 4 / 5⟩ : V3 ℝ).dot ⟨0, 3 / 5, 4 / 5⟩ = 1 := by simp only [V3.dot]; norm_num
  have h2 : (⟨3 / 5, 0, 4 / 5⟩ : V3 ℝ).dot ⟨3 / 5, 0, 4 / 5⟩ = 1 := by simp only [V3.dot]; norm_num
  have he : epsilon ≤ |(⟨0, 3 / 5, 4 / 5⟩ : V3 ℝ).dot ⟨0, 1, 0⟩| := by
    simp only [V3.dot, epsilon]
    norm_num [abs_of_pos]
  refine ⟨⟨0, 1, 0⟩, ⟨0, 3, 0⟩, ⟨0, 0, 0⟩, ⟨0, 3 / 5, 4 / 5⟩, ⟨3 / 5, 0, 4 / 5⟩, ?_, h1, h2, ?_, he, ?_, ?_⟩
  · simp only [V3.dot]; norm_num
  · intro h
    have := congrArg V3.x h
    norm_num [V3.cross, V3.zero] at this
  · rintro R t ⟨l1, l2, -, -, hm⟩
    obtain ⟨ha, hn⟩ := lengths_of_pose hm
    simp only [V3.dot, V3.sub, V3.smul] at ha hn
    nlinarith [mul_self_nonneg (l2 - 16 / 5)]
  · refine ⟨loop ⟨0, 1, 0⟩ ⟨0, 3, 0⟩ ⟨0, 0, 0⟩ ⟨0, 3 / 5, 4 / 5⟩ ⟨3 / 5, 0, 4 / 5⟩ [16 / 5, 16 / 5], ?_, ?_⟩
    · have e : roots (1, -32 / 5, 16) = .ok [16 / 5, 16 / 5] := by
        unfold roots
        rw [if_neg (by norm_num)]
        simp only [Roots.solveQuadratic]
        rw [if_neg (by norm_num), if_neg (by norm_num)]
        simp only [Roots.reals, List.map_cons, List.map_nil]
        norm_num
      unfold solve
      rw [if_neg (not_lt.2 he)]
      unfold core
      rw [hq, e]
    · have hm : coefM (⟨0, 1, 0⟩ : V3 ℝ) ⟨0, 3, 0⟩ ⟨0, 0, 0⟩ ⟨0, 3 / 5, 4 / 5⟩ = 5 := by
        simp only [coefM, V3.dot, V3.sub]
        norm_num
      have hn : coefN (⟨0, 1, 0⟩ : V3 ℝ) ⟨0, 3 / 5, 4 / 5⟩ ⟨3 / 5, 0, 4 / 5⟩ = 0 := by
        simp only [coefN, V3.dot]
        norm_num
      simp only [loop, hm, hn]
      norm_num

/-- C75: a pose is not found if both rays are orthogonal to the axis. -/
theorem C75_orthogonal_counterexample : ∃ axis p1 p2 r1 r2 : V3 ℝ, ∃ R t, axis.dot axis = 1 ∧ r1.dot r1 = 1 ∧ r2.dot r2 = 1 ∧
    r1.cross r2 ≠ V3.zero ∧ PoseOf axis p1 p2 r1 r2 R t ∧ solve axis p1 p2 r1 r2 = .ok [] := by
  refine ⟨⟨0, 1, 0⟩, ⟨0, 0, 5⟩, ⟨3, 0, 4⟩, ⟨0, 0, 1⟩, ⟨3 / 5, 0, 4 / 5⟩, M3.one, V3.zero, ?_, ?_, ?_, ?_, ?_, ?_⟩
  · simp only [V3.dot]; norm_num
  · simp only [V3.dot]; norm_num
  · simp only [V3.dot]; norm_num
  · intro h
    have := congrArg V3.y h
    norm_num [V3.cross, V3.zero] at this
  · refine ⟨5, 5, by norm_num, by norm_num, M3.IsRotation.one, ?_, ?_, ?_⟩ <;>
      apply V3.ext <;> simp [M3.mulVec, M3.one, V3.dot, V3.add, V3.smul, V3.zero] <;> norm_num
  · simp [solve, V3.dot, epsilon]
    norm_num

/-- C75: with twice the same ray there is a division by zero. -/
theorem C75_parallel_counterexample (axis p1 p2 r : V3 ℝ) (h : r.dot r = 1) (hr : epsilon ≤ |r.dot axis|) :
    solve axis p1 p2 r r = .ub := by
  have hn : r.dot axis ≠ 0 := by
    intro h0
    rw [h0, abs_zero] at hr
    exact absurd hr (not_le.2 epsilon_pos)
  have e1 : (quadratic axis p1 p2 r r).1 = 0 := by
    simp only [quadratic, coefN, h, div_self hn]
    norm_num
  have e2 : (quadratic axis p1 p2 r r).2.1 = 0 := by
    simp only [quadratic, coefN, h, div_self hn]
    norm_num
  unfold solve
  rw [if_neg (not_lt.2 hr)]
  unfold core roots
  rw [if_neg (fun h => h.1 e1), e1, e2]
  simp [Roots.solveQuadratic]

/-- A ray along the axis. -/
example : ∃ axis r : V3 ℝ, r.dot r = 1 ∧ epsilon ≤ |r.dot axis| :=
  ⟨⟨0, 1, 0⟩, ⟨0, 1, 0⟩, by simp [V3.dot], by simp only [V3.dot, epsilon]; norm_num⟩

end Theia
