import Verif.Proof.RelativePosition

/-! # C94: the relative position of two views with known rotations -/

namespace Theia
namespace RelativePosition

open Triangulation AngleAxis EssentialMatrix
open Spec

theorem inFront_at {R1 R2 : M3 ℝ} (h1 : R1.IsRotation) (h2 : R2.IsRotation) (p : V3 ℝ) (c : V2 × V2) :
    inFront c (R2.mul R1.transpose) p = true ↔ InFrontAt R1 R2 p c := by
  have hR := h2.mul h1.transpose
  constructor
  · intro h
    have r1 : RayOf M3.one c.1 (homog c.1) := by rw [RayOf, M3.one_mulVec]; rfl
    have r2 : RayOf (R2.mul R1.transpose) c.2 ((R2.mul R1.transpose).transpose.mulVec (homog c.2)) := by
      rw [RayOf, hR.mulVec_transpose]; rfl
    by_cases hp : Parallel (homog c.1) ((R2.mul R1.transpose).transpose.mulVec (homog c.2))
    · have := C49_cheirality_parallel hR p r1 r2 hp
      rw [show c = (c.1, c.2) from rfl, this] at h; cases h
    · obtain ⟨⟨X, Y, hc⟩, hall⟩ := C49_cheirality hR p r1 r2 hp
      obtain ⟨a, b⟩ := (hall X Y hc).1 h
      exact ⟨_, _, X, Y, r1, r2, hp, hc, a, b⟩
  · rintro ⟨d1, d2, X, Y, r1, r2, hp, hc, a, b⟩
    exact ((C49_cheirality hR p r1 r2 hp).2 X Y hc).2 ⟨a, b⟩

theorem howMany_inFront {R1 R2 : M3 ℝ} (h1 : R1.IsRotation) (h2 : R2.IsRotation) (p : V3 ℝ) (cs : List (V2 × V2)) :
    cs.countP (fun c => inFront c (R2.mul R1.transpose) p) = howMany (InFrontAt R1 R2 p) cs := by
  unfold howMany
  apply List.countP_congr
  intro c _
  rw [inFront_at h1 h2]; simp

theorem raw_unit {svdU : M3 ℝ → M3 ℝ} (hsvd : LeftSingular svdU) (initial : V3 ℝ) (cols : List (V3 ℝ)) (ones : List ℝ)
    (hl : ones.length = cols.length) :
    (loop svdU cols 100 ⟨initial, ones, 0, 0⟩).position.dot (loop svdU cols 100 ⟨initial, ones, 0, 0⟩).position = 1 := by
  apply position_spec svdU initial cols ones hl (fun p => p.dot p = 1)
  intro ws _ _
  obtain ⟨V, h, -⟩ := hsvd (weighted cols ws)
  exact unit_of_orthogonal h

/-- Whatever the matches, the rotations and the start of the search, the position is a unit vector, and no majority of the
matches would be in front of both cameras with the opposite position. -/
theorem C94_unit {svdU : M3 ℝ → M3 ℝ} (hsvd : LeftSingular svdU) (initial : V3 ℝ) (corrs : List (V2 × V2))
    (rotation1 rotation2 : V3 ℝ) :
    let p := optimize svdU initial corrs rotation1 rotation2
    p.dot p = 1 ∧ 2 * howMany (InFrontAt (toM rotation1) (toM rotation2) p.neg) corrs ≤ corrs.length := by
  intro p
  have h1 := isRotation_toM rotation1
  have h2 := isRotation_toM rotation2
  have hu := raw_unit hsvd initial (corrs.map (column (toM rotation1) (toM rotation2))) (corrs.map fun _ => 1) (by simp)
  have hp : p = optimize svdU initial corrs rotation1 rotation2 := rfl
  rw [← howMany_inFront h1 h2]
  simp only [optimize] at hp
  generalize (loop svdU (corrs.map (column (toM rotation1) (toM rotation2))) 100 ⟨initial, corrs.map fun _ => 1, 0, 0⟩).position = q
    at hp hu
  have hc := count_neg corrs ((toM rotation2).mul (toM rotation1).transpose) q
  by_cases hm : majority corrs (toM rotation1) (toM rotation2) q = true
  · rw [if_pos hm] at hp
    rw [hp]
    refine ⟨hu, ?_⟩
    simp only [majority, decide_eq_true_eq] at hm
    omega
  · rw [if_neg hm, smul_neg_one] at hp
    have hn : p.neg = q := by rw [hp]; apply V3.ext <;> simp [V3.neg]
    rw [hn]
    refine ⟨by rw [hp, ← hu]; simp only [V3.dot, V3.neg]; ring, ?_⟩
    simp only [majority, decide_eq_true_eq] at hm
    omega

/-- Exact matches, some of points at infinity, leave only the two directions of the line through the centres. -/
theorem raw_direction {svdU : M3 ℝ → M3 ℝ} (hsvd : LeftSingular svdU) (initial : V3 ℝ) {corrs : List (V2 × V2)}
    {R1 R2 : M3 ℝ} (h1 : R1.IsRotation) (h2 : R2.IsRotation) {C1 C2 : V3 ℝ}
    (hall : ∀ c ∈ corrs, (∃ X, ExactMatch R1 R2 C1 C2 X c) ∨ InfiniteMatch R1 R2 c)
    {c c' : V2 × V2} {X X' : V3 ℝ} (hc : c ∈ corrs) (hc' : c' ∈ corrs) (hX : ExactMatch R1 R2 C1 C2 X c)
    (hX' : ExactMatch R1 R2 C1 C2 X' c') (hgen : ((X.sub C1).cross (X'.sub C1)).dot (C2.sub C1) ≠ 0)
    {ws : List ℝ} (hl : ws.length = (corrs.map (column R1 R2)).length) (hw : ∀ w ∈ ws, 0 < w) :
    let p := (svdU (weighted (corrs.map (column R1 R2)) ws)).mulVec ⟨0, 0, 1⟩
    ∃ k : ℝ, k ≠ 0 ∧ R1.mulVec (C2.sub C1) = p.smul k := by
  intro p
  obtain ⟨V, hV⟩ := hsvd (weighted (corrs.map (column R1 R2)) ws)
  have hb0 : R1.mulVec (C2.sub C1) ≠ V3.zero := by
    intro h0
    apply hgen
    have : C2.sub C1 = V3.zero := by
      have := congrArg R1.transpose.mulVec h0
      rw [h1.transpose_mulVec] at this
      rw [this]; simp [M3.mulVec, V3.dot, V3.zero]
    rw [this]; simp [V3.dot, V3.zero]
  have hk : (weighted (corrs.map (column R1 R2)) ws).transpose.mulVec (R1.mulVec (C2.sub C1)) = V3.zero := by
    rw [weighted_transpose, weighted_kernel hl hw]
    intro a ha
    obtain ⟨d, hd, rfl⟩ := List.mem_map.1 ha
    rcases hall d hd with ⟨Y, hY⟩ | hY
    · exact exact_column h1 h2 hY
    · exact infinite_column h1 h2 hY _
  have hp := last_in_kernel hV hb0 hk
  rw [weighted_transpose, weighted_kernel hl hw] at hp
  have hpar := direction_of_two h1 h2 hX hX' hgen (hp _ (List.mem_map.2 ⟨c, hc, rfl⟩)) (hp _ (List.mem_map.2 ⟨c', hc', rfl⟩))
  have hu : p.dot p = 1 := unit_of_orthogonal hV.1
  change Parallel (R1.transpose.mulVec p) (C2.sub C1) at hpar
  have hu' : (R1.transpose.mulVec p).dot (R1.transpose.mulVec p) = 1 := by rw [h1.transpose.dot, hu]
  have key : C2.sub C1 = (R1.transpose.mulVec p).smul ((R1.transpose.mulVec p).dot (C2.sub C1)) := by
    unfold Parallel at hpar
    generalize R1.transpose.mulVec p = w at *
    generalize C2.sub C1 = B at *
    simp only [V3.cross, V3.zero, V3.mk.injEq] at hpar
    obtain ⟨a, b, d⟩ := hpar
    simp only [V3.dot] at hu'
    apply V3.ext <;> simp only [V3.smul, V3.dot]
    · linear_combination (-B.x) * hu' - w.y * d + w.z * b
    · linear_combination (-B.y) * hu' + w.x * d - w.z * a
    · linear_combination (-B.z) * hu' - w.x * b + w.y * a
  refine ⟨(R1.transpose.mulVec p).dot (C2.sub C1), ?_, ?_⟩
  · intro h0
    apply hb0
    rw [key, h0]; simp [M3.mulVec, V3.dot, V3.smul, V3.zero]
  · conv_lhs => rw [key]
    rw [M3.mulVec_smul, h1.mulVec_transpose]

/-- How many matches are in front with the true direction and with the opposite one. -/
theorem count_exact {corrs : List (V2 × V2)} {R1 R2 : M3 ℝ} (h1 : R1.IsRotation) (h2 : R2.IsRotation) {C1 C2 : V3 ℝ}
    (hall : ∀ c ∈ corrs, (∃ X, ExactMatch R1 R2 C1 C2 X c) ∨ InfiniteMatch R1 R2 c)
    {p : V3 ℝ} {k : ℝ} (hk : 0 < k) (hp : R1.mulVec (C2.sub C1) = p.smul k) :
    corrs.countP (fun c => inFront c (R2.mul R1.transpose) p) = howMany (fun c => ∃ X, ExactMatch R1 R2 C1 C2 X c) corrs ∧
      corrs.countP (fun c => inFront c (R2.mul R1.transpose) p.neg) = 0 := by
  constructor
  · unfold howMany
    apply List.countP_congr
    intro c hc
    simp only [decide_eq_true_eq]
    constructor
    · intro h
      rcases hall c hc with hX | hX
      · exact hX
      · rw [inFront_infinite h1 h2 hX] at h; cases h
    · rintro ⟨X, hX⟩
      exact inFront_exact h1 h2 hX hk hp
  · rw [List.countP_eq_zero]
    intro c hc
    rcases hall c hc with ⟨X, hX⟩ | hX
    · rw [inFront_neg (inFront_exact h1 h2 hX hk hp)]; simp
    · rw [inFront_infinite h1 h2 hX]; simp

/-- If all matches are exact, more than half of them are of points at a finite distance, in front of both cameras and off
the line through the centres, and two of these points are in different planes through the two centres, the position is the
direction from the first centre to the second in the first camera. -/
theorem C94_exact_partial {svdU : M3 ℝ → M3 ℝ} (hsvd : LeftSingular svdU) (initial : V3 ℝ) {corrs : List (V2 × V2)}
    {rotation1 rotation2 C1 C2 : V3 ℝ}
    (hall : ∀ c ∈ corrs, (∃ X, ExactMatch (toM rotation1) (toM rotation2) C1 C2 X c) ∨
      InfiniteMatch (toM rotation1) (toM rotation2) c)
    (hmost : corrs.length < 2 * howMany (fun c => ∃ X, ExactMatch (toM rotation1) (toM rotation2) C1 C2 X c) corrs)
    {c c' : V2 × V2} {X X' : V3 ℝ} (hc : c ∈ corrs) (hc' : c' ∈ corrs)
    (hX : ExactMatch (toM rotation1) (toM rotation2) C1 C2 X c) (hX' : ExactMatch (toM rotation1) (toM rotation2) C1 C2 X' c')
    (hgen : ((X.sub C1).cross (X'.sub C1)).dot (C2.sub C1) ≠ 0) :
    IsDirection (toM rotation1) C1 C2 (optimize svdU initial corrs rotation1 rotation2) := by
  have h1 := isRotation_toM rotation1
  have h2 := isRotation_toM rotation2
  refine ⟨(C94_unit hsvd initial corrs rotation1 rotation2).1, ?_⟩
  obtain ⟨k, hk0, hk⟩ := position_spec svdU initial (corrs.map (column (toM rotation1) (toM rotation2))) (corrs.map fun _ => 1)
    (by simp) (fun p => ∃ k : ℝ, k ≠ 0 ∧ (toM rotation1).mulVec (C2.sub C1) = p.smul k)
    (fun ws hl hw => raw_direction hsvd initial h1 h2 hall hc hc' hX hX' hgen hl hw)
  simp only [optimize]
  generalize (loop svdU (corrs.map (column (toM rotation1) (toM rotation2))) 100 ⟨initial, corrs.map fun _ => 1, 0, 0⟩).position = q
    at hk
  rcases lt_or_gt_of_ne hk0 with hneg | hpos
  · have hk' : (toM rotation1).mulVec (C2.sub C1) = q.neg.smul (-k) := by
      rw [hk]; apply V3.ext <;> simp [V3.smul, V3.neg]
    have nn : q.neg.neg = q := by apply V3.ext <;> simp [V3.neg]
    have := (count_exact h1 h2 hall (by linarith : 0 < -k) hk').2
    rw [nn] at this
    rw [if_neg (by simp [majority, this]), smul_neg_one]
    exact ⟨-k, by linarith, hk'⟩
  · have := (count_exact h1 h2 hall hpos hk).1
    rw [if_pos (by simp only [majority, decide_eq_true_eq, this]; omega)]
    exact ⟨k, hpos, hk⟩

/-- Any decomposition may have the sign of its last vectors changed. -/
theorem flip {E U V : M3 ℝ} (h : IsSvd E U V) : let D : M3 ℝ := ⟨⟨1, 0, 0⟩, ⟨0, 1, 0⟩, ⟨0, 0, -1⟩⟩
    IsSvd E (U.mul D) (V.mul D) ∧ (U.mul D).mulVec ⟨0, 0, 1⟩ = (U.mulVec ⟨0, 0, 1⟩).neg := by
  intro D
  obtain ⟨⟨u1, u2⟩, ⟨v1, v2⟩, s, h1, h2, h3, hE⟩ := h
  have hDD : D.mul D = M3.one := by simp [D, M3.mul, M3.one, M3.mulVec, M3.transpose, V3.dot]
  have hDt : D.transpose = D := by simp [D, M3.transpose]
  have orth : ∀ W : M3 ℝ, W.transpose.mul W = M3.one → W.mul W.transpose = M3.one → IsOrthogonal (W.mul D) := by
    intro W w1 w2
    constructor
    · rw [M3.transpose_mul, hDt, M3.mul_assoc, ← M3.mul_assoc W.transpose, w1, M3.one_mul, hDD]
    · rw [M3.transpose_mul, hDt, M3.mul_assoc, ← M3.mul_assoc D, hDD, M3.one_mul, w2]
  refine ⟨⟨orth U u1 u2, orth V v1 v2, s, h1, h2, h3, ?_⟩, ?_⟩
  · rw [hE, M3.transpose_mul, hDt]
    have : (D.mul ⟨⟨s.x, 0, 0⟩, ⟨0, s.y, 0⟩, ⟨0, 0, s.z⟩⟩).mul D = ⟨⟨s.x, 0, 0⟩, ⟨0, s.y, 0⟩, ⟨0, 0, s.z⟩⟩ := by
      simp [D, M3.mul, M3.mulVec, M3.transpose, V3.dot]
    conv_lhs => rw [← this]
    simp only [M3.mul_assoc]
  · rw [M3.mulVec_mul, ← M3.mulVec_neg]
    congr 1
    simp [D, M3.mulVec, V3.dot, V3.neg]

/-- If at most half of the exact matches are of points at a finite distance, the sign is the opposite of the one the
decomposition happens to return: for every position of the cameras there is a correct decomposition for which the result is
the exact opposite of the true direction, although the true direction puts every finite point in front of the cameras and
the result none. -/
theorem C94_far_points_counterexample {corrs : List (V2 × V2)} (initial : V3 ℝ) {rotation1 rotation2 C1 C2 : V3 ℝ}
    (hall : ∀ c ∈ corrs, (∃ X, ExactMatch (toM rotation1) (toM rotation2) C1 C2 X c) ∨
      InfiniteMatch (toM rotation1) (toM rotation2) c)
    (hhalf : 2 * howMany (fun c => ∃ X, ExactMatch (toM rotation1) (toM rotation2) C1 C2 X c) corrs ≤ corrs.length)
    {c c' : V2 × V2} {X X' : V3 ℝ} (hc : c ∈ corrs) (hc' : c' ∈ corrs)
    (hX : ExactMatch (toM rotation1) (toM rotation2) C1 C2 X c) (hX' : ExactMatch (toM rotation1) (toM rotation2) C1 C2 X' c')
    (hgen : ((X.sub C1).cross (X'.sub C1)).dot (C2.sub C1) ≠ 0) :
    ∃ svdU, LeftSingular svdU ∧
      IsDirection (toM rotation1) C1 C2 (optimize svdU initial corrs rotation1 rotation2).neg ∧
      howMany (InFrontAt (toM rotation1) (toM rotation2) (optimize svdU initial corrs rotation1 rotation2)) corrs = 0 := by
  classical
  have h1 := isRotation_toM rotation1
  have h2 := isRotation_toM rotation2
  obtain ⟨svd, hs⟩ := Svd.exists_svd_function
  let D : M3 ℝ := ⟨⟨1, 0, 0⟩, ⟨0, 1, 0⟩, ⟨0, 0, -1⟩⟩
  let b := (toM rotation1).mulVec (C2.sub C1)
  let u : M3 ℝ → M3 ℝ := fun m => if 0 < ((svd m).1.mulVec ⟨0, 0, 1⟩).dot b then (svd m).1 else (svd m).1.mul D
  have hu : LeftSingular u := by
    intro m
    by_cases h : 0 < ((svd m).1.mulVec ⟨0, 0, 1⟩).dot b
    · exact ⟨_, by simp only [u, if_pos h]; exact hs m⟩
    · exact ⟨_, by simp only [u, if_neg h]; exact (flip (hs m)).1⟩
  have hsign : ∀ m, 0 ≤ ((u m).mulVec ⟨0, 0, 1⟩).dot b := by
    intro m
    by_cases h : 0 < ((svd m).1.mulVec ⟨0, 0, 1⟩).dot b
    · simp only [u, if_pos h]; exact h.le
    · simp only [u, if_neg h]
      have e := (flip (hs m)).2
      change ((svd m).1.mul D).mulVec ⟨0, 0, 1⟩ = _ at e
      rw [e]
      have : ∀ a : V3 ℝ, a.neg.dot b = -a.dot b := by intro a; simp only [V3.dot, V3.neg]; ring
      rw [this]; linarith
  refine ⟨u, hu, ?_⟩
  obtain ⟨hpp, k, hk0, hk⟩ := position_spec u initial (corrs.map (column (toM rotation1) (toM rotation2))) (corrs.map fun _ => 1)
    (by simp) (fun p => p.dot p = 1 ∧ ∃ k : ℝ, 0 < k ∧ (toM rotation1).mulVec (C2.sub C1) = p.smul k) (by
      intro ws hl hw
      obtain ⟨V, hV⟩ := hu (weighted (corrs.map (column (toM rotation1) (toM rotation2))) ws)
      have hpp := unit_of_orthogonal hV.1
      refine ⟨hpp, ?_⟩
      obtain ⟨k, hk0, hk⟩ := raw_direction hu initial h1 h2 hall hc hc' hX hX' hgen hl hw
      refine ⟨k, ?_, hk⟩
      have hs := hsign (weighted (corrs.map (column (toM rotation1) (toM rotation2))) ws)
      simp only [b] at hs
      rw [hk] at hs
      generalize (u (weighted (corrs.map (column (toM rotation1) (toM rotation2))) ws)).mulVec ⟨0, 0, 1⟩ = q at hs hpp
      have e : q.dot (q.smul k) = k := by
        have : q.dot (q.smul k) = q.dot q * k := by simp only [V3.dot, V3.smul]; ring
        rw [this, hpp, one_mul]
      rw [e] at hs
      exact lt_of_le_of_ne hs (Ne.symm hk0))
  rw [← howMany_inFront h1 h2]
  simp only [optimize]
  generalize (loop u (corrs.map (column (toM rotation1) (toM rotation2))) 100 ⟨initial, corrs.map fun _ => 1, 0, 0⟩).position = q
    at hk hpp
  obtain ⟨c1, c2⟩ := count_exact h1 h2 hall hk0 hk
  rw [if_neg (by simp only [majority, decide_eq_true_eq, c1]; omega), smul_neg_one]
  have nn : q.neg.neg = q := by apply V3.ext <;> simp [V3.neg]
  rw [nn]
  exact ⟨⟨hpp, k, hk0, hk⟩, c2⟩

/-! ## The hypotheses can be met -/

/-- Two cameras side by side see a point straight ahead of the first, a point above it and a point at infinity. -/
theorem ahead : ExactMatch (toM V3.zero) (toM V3.zero) V3.zero ⟨1, 0, 0⟩ ⟨0, 0, 2⟩ ((0, 0), (-1 / 2, 0)) := by
  rw [toM_zero]
  refine ⟨2, 2, by norm_num, by norm_num, ?_, ?_, ?_⟩
  · rw [SeenWith, M3.one_mulVec]; apply V3.ext <;> norm_num [V3.sub, V3.smul, V3.zero]
  · rw [SeenWith, M3.one_mulVec]; apply V3.ext <;> norm_num [V3.sub, V3.smul]
  · intro h; have := congrArg V3.y h; norm_num [V3.cross, V3.sub, V3.zero] at this

theorem above : ExactMatch (toM V3.zero) (toM V3.zero) V3.zero ⟨1, 0, 0⟩ ⟨0, 2, 2⟩ ((0, 1), (-1 / 2, 1)) := by
  rw [toM_zero]
  refine ⟨2, 2, by norm_num, by norm_num, ?_, ?_, ?_⟩
  · rw [SeenWith, M3.one_mulVec]; apply V3.ext <;> norm_num [V3.sub, V3.smul, V3.zero]
  · rw [SeenWith, M3.one_mulVec]; apply V3.ext <;> norm_num [V3.sub, V3.smul]
  · intro h; have := congrArg V3.y h; norm_num [V3.cross, V3.sub, V3.zero] at this

theorem far (x : ℝ) : InfiniteMatch (toM V3.zero) (toM V3.zero) ((x, 0), (x, 0)) := by
  rw [toM_zero]
  refine ⟨⟨x, 0, 1⟩, 1, 1, by norm_num, by norm_num, ?_, ?_⟩ <;> rw [M3.one_mulVec] <;> apply V3.ext <;> norm_num [V3.smul]

theorem far_not_exact (x : ℝ) : ¬ ∃ X, ExactMatch (toM V3.zero) (toM V3.zero) V3.zero ⟨1, 0, 0⟩ X ((x, 0), (x, 0)) := by
  rintro ⟨X, hX⟩
  have h := isRotation_toM V3.zero
  have a := inFront_exact h h hX (p := (toM V3.zero).mulVec ((⟨1, 0, 0⟩ : V3 ℝ).sub V3.zero)) (k := 1) one_pos
    (by apply V3.ext <;> simp [V3.smul])
  rw [inFront_infinite h h (far x)] at a
  cases a

theorem apart : (((⟨0, 0, 2⟩ : V3 ℝ).sub V3.zero).cross ((⟨0, 2, 2⟩ : V3 ℝ).sub V3.zero)).dot ((⟨1, 0, 0⟩ : V3 ℝ).sub V3.zero) ≠ 0 := by
  norm_num [V3.cross, V3.sub, V3.dot, V3.zero]

/-- Two finite points and one at infinity: the position is one unit along the first axis of the first camera. -/
example : ∃ svdU, LeftSingular svdU ∧
    optimize svdU V3.zero [((0, 0), (-1 / 2, 0)), ((0, 1), (-1 / 2, 1)), ((0, 0), (0, 0))] V3.zero V3.zero = ⟨1, 0, 0⟩ := by
  obtain ⟨svd, hs⟩ := Svd.exists_svd_function
  refine ⟨fun m => (svd m).1, fun m => ⟨_, hs m⟩, ?_⟩
  obtain ⟨hu, k, hk, h⟩ := C94_exact_partial (svdU := fun m => (svd m).1) (fun m => ⟨_, hs m⟩) V3.zero
    (corrs := [((0, 0), (-1 / 2, 0)), ((0, 1), (-1 / 2, 1)), ((0, 0), (0, 0))]) (rotation1 := V3.zero) (rotation2 := V3.zero)
    (C1 := V3.zero) (C2 := ⟨1, 0, 0⟩) (by
      intro c hc
      simp only [List.mem_cons, List.not_mem_nil, or_false] at hc
      rcases hc with rfl | rfl | rfl
      · exact Or.inl ⟨_, ahead⟩
      · exact Or.inl ⟨_, above⟩
      · exact Or.inr (far 0)) (by
      have e1 : ∃ X, ExactMatch (toM V3.zero) (toM V3.zero) V3.zero ⟨1, 0, 0⟩ X ((0, 0), (-1 / 2, 0)) := ⟨_, ahead⟩
      have e2 : ∃ X, ExactMatch (toM V3.zero) (toM V3.zero) V3.zero ⟨1, 0, 0⟩ X ((0, 1), (-1 / 2, 1)) := ⟨_, above⟩
      simp only [howMany, List.countP_cons, e1, e2, far_not_exact 0]
      simp) (by simp) (by simp) ahead above apart
  rw [toM_zero, M3.one_mulVec] at h
  generalize optimize (fun m => (svd m).1) V3.zero [((0, 0), (-1 / 2, 0)), ((0, 1), (-1 / 2, 1)), ((0, 0), (0, 0))] V3.zero V3.zero
    = q at hu h ⊢
  simp only [V3.sub, V3.zero, V3.smul, V3.mk.injEq, V3.dot] at h hu
  obtain ⟨a, b, d⟩ := h
  have hy : q.y = 0 := (mul_eq_zero.1 (show k * q.y = 0 by linarith)).resolve_left hk.ne'
  have hz : q.z = 0 := (mul_eq_zero.1 (show k * q.z = 0 by linarith)).resolve_left hk.ne'
  have hx : 0 < q.x := by
    by_contra hx; push Not at hx
    have := mul_nonpos_of_nonneg_of_nonpos hk.le hx
    linarith
  rw [hy, hz] at hu
  apply V3.ext
  · nlinarith
  · exact hy
  · exact hz

/-- Two finite points and two at infinity: a correct decomposition leads to the position one unit in the wrong direction. -/
example : ∃ svdU, LeftSingular svdU ∧ IsDirection (toM V3.zero) V3.zero ⟨1, 0, 0⟩
    (optimize svdU V3.zero [((0, 0), (-1 / 2, 0)), ((0, 1), (-1 / 2, 1)), ((0, 0), (0, 0)), ((1, 0), (1, 0))] V3.zero V3.zero).neg := by
  obtain ⟨u, h1, h2, -⟩ := C94_far_points_counterexample V3.zero
    (corrs := [((0, 0), (-1 / 2, 0)), ((0, 1), (-1 / 2, 1)), ((0, 0), (0, 0)), ((1, 0), (1, 0))]) (rotation1 := V3.zero)
    (rotation2 := V3.zero) (C1 := V3.zero) (C2 := ⟨1, 0, 0⟩) (by
      intro c hc
      simp only [List.mem_cons, List.not_mem_nil, or_false] at hc
      rcases hc with rfl | rfl | rfl | rfl
      · exact Or.inl ⟨_, ahead⟩
      · exact Or.inl ⟨_, above⟩
      · exact Or.inr (far 0)
      · exact Or.inr (far 1)) (by
      have e1 : ∃ X, ExactMatch (toM V3.zero) (toM V3.zero) V3.zero ⟨1, 0, 0⟩ X ((0, 0), (-1 / 2, 0)) := ⟨_, ahead⟩
      have e2 : ∃ X, ExactMatch (toM V3.zero) (toM V3.zero) V3.zero ⟨1, 0, 0⟩ X ((0, 1), (-1 / 2, 1)) := ⟨_, above⟩
      simp only [howMany, List.countP_cons, e1, e2, far_not_exact 0, far_not_exact 1]
      simp) (by simp) (by simp) ahead above apart
  exact ⟨u, h1, h2⟩

end RelativePosition
end Theia
