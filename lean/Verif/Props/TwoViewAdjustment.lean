import Verif.Proof.TwoViewAdjustment

/-!
# C98: adjusting two views
-/

namespace Theia
namespace TwoViewAdjustment

open Spec AngleAxis

/-- C98: the adjustment with points aborts exactly if the number of points is wrong. Otherwise it changes nothing but the pose of the
second camera, the points and the focal lengths that may change, and the reprojection errors do not grow. It fails exactly if the
errors cannot be evaluated at the start, and then changes nothing. -/
theorem C98_two_views (err : Reprojection) (constant1 constant2 : Bool) (corrs : List ((ℝ × ℝ) × (ℝ × ℝ))) (camera1 camera2 : Camera)
    (heap : Nat → Nat → ℝ) (points : List (Fin 4 → ℝ)) (steps : List Step) :
    (adjustTwoViews err constant1 constant2 corrs camera1 camera2 heap points steps = .abort ↔ points.length ≠ corrs.length) ∧
    (points.length = corrs.length → ∃ w ok,
      adjustTwoViews err constant1 constant2 corrs camera1 camera2 heap points steps = .ok (w, ok) ∧
      MayBecome constant1 constant2 camera1 camera2 ⟨camera1.extrinsics, camera2.extrinsics, heap, points⟩ w ∧
      (ok = true ↔ ∃ c, TotalError err camera1 camera2 ⟨camera1.extrinsics, camera2.extrinsics, heap, points⟩ corrs points c) ∧
      (ok = false → w = ⟨camera1.extrinsics, camera2.extrinsics, heap, points⟩) ∧
      ∀ c, TotalError err camera1 camera2 ⟨camera1.extrinsics, camera2.extrinsics, heap, points⟩ corrs points c →
        ∃ c', TotalError err camera1 camera2 w corrs w.points c' ∧ c' ≤ c) := by
  unfold adjustTwoViews
  by_cases h : points.length = corrs.length
  · rw [if_neg (not_not.2 h)]
    refine ⟨⟨fun h' => (by cases h'), fun h' => absurd h h'⟩, fun _ => ?_⟩
    obtain ⟨h1, h2, h3, h4⟩ := solve_spec (plus := plus (problem constant1 constant2 camera1 camera2))
      (cost := fun v => pairsCost err camera1 camera2 v corrs v.points)
      (MayBecome constant1 constant2 camera1 camera2 ⟨camera1.extrinsics, camera2.extrinsics, heap, points⟩)
      (fun x d hx => mayBecome_plus d hx) ⟨camera1.extrinsics, camera2.extrinsics, heap, points⟩ (mayBecome_refl _ _ _ _ _) steps
    have hlen := h1.points
    generalize solve (plus (problem constant1 constant2 camera1 camera2)) (fun v => pairsCost err camera1 camera2 v corrs v.points)
      ⟨camera1.extrinsics, camera2.extrinsics, heap, points⟩ steps = res at *
    obtain ⟨w, ok⟩ := res
    simp only at h1 h2 h3 h4 hlen
    have hcost : ∀ c, pairsCost err camera1 camera2 ⟨camera1.extrinsics, camera2.extrinsics, heap, points⟩ corrs points = some c ↔
        TotalError err camera1 camera2 ⟨camera1.extrinsics, camera2.extrinsics, heap, points⟩ corrs points c :=
      pairsCost_iff _ _ _ _ _ _ h
    refine ⟨w, ok, rfl, h1, ?_, fun hok => h3 (h2.1 hok), ?_⟩
    · simp only [← hcost]
      rw [← not_iff_not]
      simp only [Bool.not_eq_true, not_exists]
      rw [h2, Option.eq_none_iff_forall_ne_some]
    · intro c hc
      obtain ⟨c', hc', hle⟩ := h4 c ((hcost c).2 hc)
      exact ⟨c', (pairsCost_iff _ _ _ _ _ _ (hlen.trans h) c').1 hc', hle⟩
  · rw [if_pos h]
    exact ⟨⟨fun _ => h, fun _ => rfl⟩, fun h' => absurd h' h⟩

/-- C98: everything that may change is free: any values with smaller errors that keep what must be kept can be reached. -/
theorem C98_reaches (err : Reprojection) (constant1 constant2 : Bool) {corrs : List ((ℝ × ℝ) × (ℝ × ℝ))} (camera1 camera2 : Camera)
    (heap : Nat → Nat → ℝ) {points : List (Fin 4 → ℝ)} (hl : points.length = corrs.length) {w : Values}
    (hw : MayBecome constant1 constant2 camera1 camera2 ⟨camera1.extrinsics, camera2.extrinsics, heap, points⟩ w) {c c' : ℝ}
    (h : TotalError err camera1 camera2 ⟨camera1.extrinsics, camera2.extrinsics, heap, points⟩ corrs points c)
    (h' : TotalError err camera1 camera2 w corrs w.points c') (hlt : c' < c) :
    ∃ steps, adjustTwoViews err constant1 constant2 corrs camera1 camera2 heap points steps = .ok (w, true) := by
  refine ⟨[stepTo ⟨camera1.extrinsics, camera2.extrinsics, heap, points⟩ w], ?_⟩
  unfold adjustTwoViews
  rw [if_neg (not_not.2 hl)]
  have h1 := (pairsCost_iff _ _ _ _ _ _ hl c).2 h
  have h2 := (pairsCost_iff _ _ _ _ _ _ (hw.points.trans hl) c').2 h'
  have e := plus_stepTo hw
  rw [solve_one (plus := plus (problem constant1 constant2 camera1 camera2)) (c := c) (c' := c') h1 (by rw [e]; exact h2) hlt, e]

/-- Two views with one point, whose error is the distance of the first pose parameter of the second camera from the feature. -/
example : ∃ (err : Reprojection) (camera1 camera2 : Camera) (heap : Nat → Nat → ℝ) (w : Values) (steps : List Step),
    adjustTwoViews err true false [((0, 0), (3, 0))] camera1 camera2 heap [fun _ => 1] steps = .ok (w, true) ∧
      w.extrinsics2 0 = 3 ∧ camera2.extrinsics 0 = 0 := by
  let err : Reprojection := fun m e _ _ f => some (if m = 0 then (0, 0) else (e 0 - f.1, 0))
  let w : Values := ⟨fun _ => 0, fun _ => 3, fun _ _ => 1, [fun _ => 1]⟩
  obtain ⟨steps, h⟩ := C98_reaches err true false (corrs := [((0, 0), (3, 0))]) ⟨fun _ => 0, 0, 0⟩ ⟨fun _ => 0, 1, 1⟩
    (fun _ _ => 1) (points := [fun _ => 1]) rfl (w := w)
    ⟨rfl, rfl, fun _ _ _ => rfl, fun _ h => absurd rfl h⟩
    (.cons rfl rfl .nil) (.cons rfl rfl .nil) (by norm_num [err, w])
  exact ⟨err, _, _, _, w, steps, h, rfl, rfl⟩

/-- C98: the adjustment of a relative pose does not increase the error, it fails exactly if the error cannot be evaluated at the start,
and then changes nothing. The position stays of length one, if it is not moved to the origin by a step. -/
theorem C98_angular (corrs : List ((ℝ × ℝ) × (ℝ × ℝ))) (rotation position : V3 ℝ) (steps : List (V3 ℝ × V3 ℝ)) :
    ∃ r p ok, adjustAngular corrs rotation position steps = ((r, p), ok) ∧
      (position.dot position = 1 → p.dot p = 1 ∨ p = V3.zero) ∧
      (ok = false ↔ angularCost rotation position corrs = none) ∧
      (ok = false → r = rotation ∧ p = position) ∧
      ∀ c, angularCost rotation position corrs = some c → ∃ c', angularCost r p corrs = some c' ∧ c' ≤ c := by
  obtain ⟨h1, h2, h3, h4⟩ := solve_spec
    (plus := fun (x : V3 ℝ × V3 ℝ) (d : V3 ℝ × V3 ℝ) => (x.1.add d.1, unitPlus x.2 d.2)) (cost := fun x => angularCost x.1 x.2 corrs)
    (fun x => position.dot position = 1 → x.2.dot x.2 = 1 ∨ x.2 = V3.zero) (fun x d _ _ => unitPlus_unit _ _)
    (rotation, position) (fun h => Or.inl h) steps
  refine ⟨(adjustAngular corrs rotation position steps).1.1, (adjustAngular corrs rotation position steps).1.2,
    (adjustAngular corrs rotation position steps).2, rfl, h1, h2, fun h => ?_, h4⟩
  have := h3 (h2.1 h)
  exact ⟨congrArg Prod.fst this, congrArg Prod.snd this⟩

/-- C98: if the second camera is turned by nothing or half a turn, the error can always be evaluated, and is the least sum of squared
distances of the two rays from a plane through the baseline. Missing: all other rotations, for which the code uses the rotation in
place of its inverse once. -/
theorem C98_angular_error_partial (feature1 feature2 : ℝ × ℝ) (rotation : V3 ℝ) {t : V3 ℝ} (ht : t.dot t = 1)
    (hR : (toM rotation).transpose = toM rotation) :
    ∃ e, angularError feature1 feature2 rotation t = some e ∧
      LeastPlaneError t ⟨feature1.1, feature1.2, 1⟩ ((toM rotation).transpose.mulVec ⟨feature2.1, feature2.2, 1⟩) e := by
  rw [angularError_eq, hR]
  obtain ⟨h1, h2⟩ := leastPlaneError ht ⟨feature1.1, feature1.2, 1⟩ ((toM rotation).mulVec ⟨feature2.1, feature2.2, 1⟩)
  simp only
  rw [show ∀ v : V3 ℝ, v.dot v - t.dot v * t.dot v = across t v from fun _ => rfl, if_neg (not_lt.2 h1)]
  exact ⟨_, rfl, h2⟩

/-- C98: and with the true motion the error is zero, for these rotations. -/
theorem C98_true_motion_partial {feature1 feature2 : ℝ × ℝ} {rotation t : V3 ℝ} (ht : t.dot t = 1)
    (hR : (toM rotation).transpose = toM rotation) {b : ℝ} (h : SeenByTwo (toM rotation) (t.smul b) feature1 feature2) :
    angularError feature1 feature2 rotation t = some 0 := by
  obtain ⟨X, z1, z2, hz1, hz2, hX, hY⟩ := h
  have hv : (toM rotation).mulVec ⟨feature2.1, feature2.2, 1⟩ = (X.sub (t.smul b)).smul z2⁻¹ := by
    have h1 := congrArg (toM rotation).transpose.mulVec hY
    rw [(isRotation_toM rotation).transpose_mulVec, hR] at h1
    rw [h1]
    apply V3.ext <;> simp only [M3.mulVec, V3.dot, V3.smul] <;> field_simp
  rw [angularError_eq, hR, hv, hX]
  generalize (⟨feature1.1, feature1.2, 1⟩ : V3 ℝ) = f
  simp only
  have hb : t.dot (f.cross (((f.smul z1).sub (t.smul b)).smul z2⁻¹)) = 0 := by
    simp only [V3.dot, V3.cross, V3.smul, V3.sub]; ring
  have ha : ∀ v : V3 ℝ, 0 ≤ v.dot v - t.dot v * t.dot v := by
    intro v
    have : v.dot v - t.dot v * t.dot v = (t.cross v).dot (t.cross v) + (1 - t.dot t) * v.dot v := by
      simp only [V3.dot, V3.cross]; ring
    rw [this, ht]
    have := dot_self_nonneg (t.cross v)
    linarith
  rw [hb]
  have h1 := ha f
  have h2 := ha (((f.smul z1).sub (t.smul b)).smul z2⁻¹)
  have h3 : 0 ≤ across t f := h1
  generalize (((f.smul z1).sub (t.smul b)).smul z2⁻¹) = g at *
  have hs : (across t f + (g.dot g - t.dot g * t.dot g)) * (across t f + (g.dot g - t.dot g * t.dot g)) / 4 - 0 * 0 =
      ((across t f + (g.dot g - t.dot g * t.dot g)) / 2) ^ 2 := by ring
  rw [hs, if_neg (not_lt.2 (sq_nonneg _)), Real.sqrt_sq (by linarith), sub_self]

/-- A camera a unit ahead sees the point at twice that distance. -/
example : angularError (1, 0) (2, 0) V3.zero ⟨0, 0, 1⟩ = some 0 := by
  refine C98_true_motion_partial (b := 1) (by simp [V3.dot]) (by rw [toM_zero]; rfl) ⟨⟨2, 0, 2⟩, 2, 1, by norm_num, by norm_num, ?_, ?_⟩
  · simp [V3.smul]
  · rw [toM_zero, M3.one_mulVec]
    norm_num [V3.sub, V3.smul]

/-- The error for a camera that has moved ahead and made a quarter turn about its axis. -/
theorem quarter_error (X : V3 ℝ) (h1 : 1 < X.z) :
    angularError (X.x / X.z, X.y / X.z) (-X.y / (X.z - 1), X.x / (X.z - 1)) ⟨0, 0, Real.pi / 2⟩ ⟨0, 0, 1⟩ =
      some ((X.x ^ 2 + X.y ^ 2) * (1 / X.z ^ 2 - 1 / (X.z - 1) ^ 2)) := by
  have hz : X.z ≠ 0 := by linarith
  have hz1 : X.z - 1 ≠ 0 := by linarith
  have hneg : (X.x ^ 2 + X.y ^ 2) * (1 / X.z ^ 2 - 1 / (X.z - 1) ^ 2) ≤ 0 := by
    refine mul_nonpos_of_nonneg_of_nonpos (by positivity) (sub_nonpos.2 ?_)
    apply one_div_le_one_div_of_le
    · have : 0 < X.z - 1 := by linarith
      positivity
    · nlinarith
  rw [angularError_of (a := (X.x ^ 2 + X.y ^ 2) * (1 / X.z ^ 2 - 1 / (X.z - 1) ^ 2)) (b := 0) toM_quarter
    (by simp only [M3.mulVec, M3.transpose, V3.dot, across]; field_simp; ring)
    (by simp only [M3.mulVec, M3.transpose, V3.dot, V3.cross]; field_simp; ring)]
  generalize (X.x ^ 2 + X.y ^ 2) * (1 / X.z ^ 2 - 1 / (X.z - 1) ^ 2) = a at hneg
  have : a * a / 4 - 0 * 0 = (-a / 2) ^ 2 := by ring
  rw [this, if_neg (not_lt.2 (sq_nonneg _)), Real.sqrt_sq (by linarith)]
  congr 1
  ring

/-- The error if the quarter turn is ignored. -/
theorem ignored_error (X : V3 ℝ) (h1 : 1 < X.z) :
    angularError (X.x / X.z, X.y / X.z) (-X.y / (X.z - 1), X.x / (X.z - 1)) V3.zero ⟨0, 0, 1⟩ =
      some ((X.x ^ 2 + X.y ^ 2) * (1 / X.z ^ 2)) := by
  have hz : X.z ≠ 0 := by linarith
  have hz1 : X.z - 1 ≠ 0 := by linarith
  have hpos : 0 ≤ (X.x ^ 2 + X.y ^ 2) * (1 / (X.z - 1) ^ 2 - 1 / X.z ^ 2) / 2 := by
    refine div_nonneg (mul_nonneg (by positivity) (sub_nonneg.2 ?_)) (by norm_num)
    apply one_div_le_one_div_of_le
    · have : 0 < X.z - 1 := by linarith
      positivity
    · nlinarith
  rw [angularError_of (a := (X.x ^ 2 + X.y ^ 2) * (1 / X.z ^ 2 + 1 / (X.z - 1) ^ 2))
    (b := (X.x ^ 2 + X.y ^ 2) * (1 / (X.z * (X.z - 1)))) toM_zero
    (by simp only [M3.mulVec, M3.transpose, M3.one, V3.dot, across]; field_simp; ring)
    (by simp only [M3.mulVec, M3.transpose, M3.one, V3.dot, V3.cross]; field_simp; ring)]
  have : (X.x ^ 2 + X.y ^ 2) * (1 / X.z ^ 2 + 1 / (X.z - 1) ^ 2) * ((X.x ^ 2 + X.y ^ 2) * (1 / X.z ^ 2 + 1 / (X.z - 1) ^ 2)) / 4 -
      (X.x ^ 2 + X.y ^ 2) * (1 / (X.z * (X.z - 1))) * ((X.x ^ 2 + X.y ^ 2) * (1 / (X.z * (X.z - 1)))) =
      ((X.x ^ 2 + X.y ^ 2) * (1 / (X.z - 1) ^ 2 - 1 / X.z ^ 2) / 2) ^ 2 := by
    field_simp
    ring
  rw [this, if_neg (not_lt.2 (sq_nonneg _)), Real.sqrt_sq hpos]
  congr 1
  ring

/-- The correspondence of a scene point for the camera that has moved ahead and made a quarter turn. -/
noncomputable def quarterView (X : V3 ℝ) : (ℝ × ℝ) × (ℝ × ℝ) :=
  ((X.x / X.z, X.y / X.z), (-X.y / (X.z - 1), X.x / (X.z - 1)))

/-- C98: the true motion is not the best. A camera has moved ahead by one and made a quarter turn about its axis, and sees any
points at all that are at most three units from the first camera and not straight ahead. All correspondences are exact, yet the
error of the true motion is larger than that without the turn, so that adjusting the latter never leads to the true motion. -/
theorem C98_quarter_turn_counterexample (Xs : List (V3 ℝ)) (hne : Xs ≠ [])
    (hX : ∀ X ∈ Xs, 1 < X.z ∧ X.z ≤ 3 ∧ (X.x ≠ 0 ∨ X.y ≠ 0)) :
    (∀ p ∈ Xs.map quarterView, SeenByTwo (toM ⟨0, 0, Real.pi / 2⟩) ⟨0, 0, 1⟩ p.1 p.2) ∧
    (∃ c c', angularCost ⟨0, 0, Real.pi / 2⟩ ⟨0, 0, 1⟩ (Xs.map quarterView) = some c ∧
      angularCost V3.zero ⟨0, 0, 1⟩ (Xs.map quarterView) = some c' ∧ c' < c) ∧
    ∀ steps, (adjustAngular (Xs.map quarterView) V3.zero ⟨0, 0, 1⟩ steps).1 ≠ (⟨0, 0, Real.pi / 2⟩, ⟨0, 0, 1⟩) := by
  have hcost : ∃ c c', angularCost ⟨0, 0, Real.pi / 2⟩ ⟨0, 0, 1⟩ (Xs.map quarterView) = some c ∧
      angularCost V3.zero ⟨0, 0, 1⟩ (Xs.map quarterView) = some c' ∧ c' ≤ c ∧ (Xs ≠ [] → c' < c) := by
    clear hne
    induction Xs with
    | nil => exact ⟨0, 0, rfl, rfl, le_refl _, fun h => absurd rfl h⟩
    | cons X Xs ih =>
      obtain ⟨c, c', h1, h2, h3, -⟩ := ih fun Y hY => hX Y (List.mem_cons_of_mem _ hY)
      obtain ⟨hz1, hz3, hxy⟩ := hX X List.mem_cons_self
      refine ⟨_, _, by simp only [List.map_cons, angularCost, quarterView, quarter_error X hz1, h1, Option.bind_eq_bind,
          Option.bind_some, Option.pure_def]; rfl,
        by simp only [List.map_cons, angularCost, quarterView, ignored_error X hz1, h2, Option.bind_eq_bind,
          Option.bind_some, Option.pure_def]; rfl, ?_⟩
      have hq : 0 < X.x ^ 2 + X.y ^ 2 := by
        rcases hxy with h | h
        · have := sq_nonneg X.y
          have : 0 < X.x ^ 2 := by positivity
          linarith
        · have := sq_nonneg X.x
          have : 0 < X.y ^ 2 := by positivity
          linarith
      have hlt : 1 / X.z ^ 2 < 1 / (X.z - 1) ^ 2 - 1 / X.z ^ 2 := by
        have p1 : 0 < X.z := by linarith
        have p2 : 0 < X.z - 1 := by linarith
        have e : 1 / (X.z - 1) ^ 2 - 1 / X.z ^ 2 - 1 / X.z ^ 2 = (X.z ^ 2 - 2 * (X.z - 1) ^ 2) / (X.z ^ 2 * (X.z - 1) ^ 2) := by
          field_simp
          ring
        have : 0 < (X.z ^ 2 - 2 * (X.z - 1) ^ 2) / (X.z ^ 2 * (X.z - 1) ^ 2) := by
          apply div_pos
          · nlinarith
          · positivity
        linarith
      have hsq : ((X.x ^ 2 + X.y ^ 2) * (1 / X.z ^ 2)) ^ 2 < ((X.x ^ 2 + X.y ^ 2) * (1 / X.z ^ 2 - 1 / (X.z - 1) ^ 2)) ^ 2 := by
        have e : ((X.x ^ 2 + X.y ^ 2) * (1 / X.z ^ 2 - 1 / (X.z - 1) ^ 2)) ^ 2 =
            ((X.x ^ 2 + X.y ^ 2) * (1 / (X.z - 1) ^ 2 - 1 / X.z ^ 2)) ^ 2 := by ring
        rw [e]
        apply pow_lt_pow_left₀ (mul_lt_mul_of_pos_left hlt hq) _ (by norm_num)
        have : 0 < X.z := by linarith
        positivity
      exact ⟨by linarith, fun _ => by linarith⟩
  obtain ⟨c, c', h1, h2, -, h3⟩ := hcost
  refine ⟨?_, ⟨c, c', h1, h2, h3 hne⟩, ?_⟩
  · intro p hp
    obtain ⟨X, hXm, rfl⟩ := List.mem_map.1 hp
    obtain ⟨hz1, -, -⟩ := hX X hXm
    have hz : X.z ≠ 0 := by linarith
    have hz' : X.z - 1 ≠ 0 := by linarith
    refine ⟨X, X.z, X.z - 1, by linarith, by linarith, ?_, ?_⟩
    · apply V3.ext <;> simp only [quarterView, V3.smul] <;> field_simp
    · rw [toM_quarter]
      apply V3.ext <;> simp only [quarterView, V3.smul, M3.mulVec, V3.dot, V3.sub] <;> field_simp <;> ring
  · intro steps heq
    obtain ⟨r, p, ok, hrun, -, -, -, hle⟩ := C98_angular (Xs.map quarterView) V3.zero ⟨0, 0, 1⟩ steps
    rw [hrun] at heq
    cases heq
    obtain ⟨c'', h4, h5⟩ := hle c' h2
    rw [h1] at h4
    cases h4
    linarith [h3 hne]

/-- Two such points. -/
example : ∃ Xs : List (V3 ℝ), Xs ≠ [] ∧ ∀ X ∈ Xs, 1 < X.z ∧ X.z ≤ 3 ∧ (X.x ≠ 0 ∨ X.y ≠ 0) :=
  ⟨[⟨1, 0, 2⟩, ⟨0, 1, 3⟩], by simp, by
    intro X hX
    simp only [List.mem_cons, List.not_mem_nil, or_false] at hX
    rcases hX with rfl | rfl <;> norm_num⟩

/-- C98: the least noise can make the adjustment fail. A camera has moved ahead and made a quarter turn about its axis, and a point
far away is seen with an error `ε` in the first image. The true pose is given, and the call fails. -/
theorem C98_noise_counterexample (ε : ℝ) (h0 : ε ≠ 0) (h2 : |ε| < 2) (rest : List ((ℝ × ℝ) × (ℝ × ℝ))) (steps : List (V3 ℝ × V3 ℝ)) :
    (toM ⟨0, 0, Real.pi / 2⟩).mulVec ⟨1, 0, 1⟩ = ⟨0, 1, 1⟩ ∧
    adjustAngular (((1, ε), (0, 1)) :: rest) ⟨0, 0, Real.pi / 2⟩ ⟨0, 0, 1⟩ steps =
      ((⟨0, 0, Real.pi / 2⟩, ⟨0, 0, 1⟩), false) := by
  constructor
  · rw [toM_quarter]
    simp [M3.mulVec, V3.dot]
  · have herr : angularError (1, ε) (0, 1) ⟨0, 0, Real.pi / 2⟩ ⟨0, 0, 1⟩ = none := by
      rw [angularError_of (a := ε ^ 2) (b := -ε) toM_quarter
        (by simp only [M3.mulVec, M3.transpose, V3.dot, across]; ring)
        (by simp only [M3.mulVec, M3.transpose, V3.dot, V3.cross]; ring), if_pos]
      have h4 : ε ^ 2 < 4 := by
        have := sq_lt_sq' (by linarith [abs_nonneg ε]) h2
        rw [sq_abs] at this
        linarith
      have hpos : 0 < ε ^ 2 := by positivity
      nlinarith
    have : angularCost ⟨0, 0, Real.pi / 2⟩ ⟨0, 0, 1⟩ (((1, ε), (0, 1)) :: rest) = none := by
      rw [angularCost, herr]
      rfl
    simp only [adjustAngular, solve, this]

/-- Such an error. -/
example : ∃ ε : ℝ, ε ≠ 0 ∧ |ε| < 2 := ⟨1 / 1000, by norm_num, by norm_num [abs_of_pos]⟩

end TwoViewAdjustment
end Theia
