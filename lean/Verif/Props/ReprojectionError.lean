import Mathlib.Analysis.Real.Pi.Bounds
import Verif.Props.BundleAdjuster
import Verif.Proof.ReprojectionError

/-!
# C100: the error that bundle adjustment minimises
-/

namespace Theia

open ReprojectionError CameraModels CameraPriors AngleAxis Spec

/-- C100. For each camera model: the residual of an observation is the pixel at which the camera sees the point minus the feature,
and evaluating it fails exactly when the point is near the camera centre. The orientation is zero or large enough for Ceres to
use the exact rotation. -/
theorem C100_residual (eps : ℝ) (h0 : 0 ≤ eps) (h1 : eps ≤ 1 / 10 ^ 10) (t : ModelType) (ps : List ℝ) (pose : Pose)
    (ho : pose.orientation = V3.zero ∨ eps < pose.orientation.dot pose.orientation) (x : V3 ℝ) (w : ℝ) (pixel feature : ℝ × ℝ)
    (h : ImagedAt t ps (cameraPoint pose.orientation pose.position x w) pixel) :
    (¬NearCentre pose.position x w →
      residual eps t feature pose ps x w = .ok (some (pixel.1 - feature.1, pixel.2 - feature.2))) ∧
    (NearCentre pose.position x w → residual eps t feature pose ps x w = .ok none) := by
  refine ⟨fun hn => ?_, residual_near⟩
  rw [residual_far hn, rotate_exact h0 ho]
  have := cameraToPixel_eq h1 h
  unfold cameraPoint at this
  rw [this]
  rfl

/-- The camera of the examples: a wide lens with distortion. -/
example : ∃ pixel, ImagedAt .pinhole [800, 1, 0, 320, 240, -1 / 10, 1 / 100]
    (cameraPoint V3.zero ⟨1, 0, 0⟩ ⟨2, 1, 2⟩ 1) pixel ∧ ¬NearCentre ⟨1, 0, 0⟩ ⟨2, 1, 2⟩ 1 := by
  have e : cameraPoint V3.zero ⟨1, 0, 0⟩ ⟨2, 1, 2⟩ 1 = ⟨1 / 2 * 2, 1 / 2 * 2, 2⟩ := by
    unfold cameraPoint
    rw [toM_zero, M3.one_mulVec]
    apply V3.ext <;> norm_num [V3.sub, V3.smul]
  rw [e]
  refine ⟨_, .pinhole _ _ _ _ _ _ _ (1 / 2) (1 / 2) _ _ _ 2 (by norm_num) rfl rfl rfl, ?_⟩
  norm_num [NearCentre, V3.sub, V3.smul, V3.dot]

/-- Each of the five models sees some point. -/
example : (∃ q p, ImagedAt .pinholeRadialTangential [1, 1, 0, 0, 0, 1, 1, 1, 1, 1] q p) ∧
    (∃ q p, ImagedAt .fisheye [1, 1, 0, 0, 0, 1, 1, 1, 1] q p) ∧
    (∃ q p, ImagedAt .fov [1, 1, 0, 0, 1] q p) ∧ ∃ q p, ImagedAt .division [1, 1, 0, 0, 1] q p := by
  refine ⟨⟨_, _, .radialTangential _ _ _ _ _ _ _ _ _ _ 1 1 _ _ _ 1 one_ne_zero rfl rfl rfl⟩, ?_, ?_, ?_⟩
  · refine ⟨_, _, .fisheye _ _ _ _ _ _ _ _ _ 1 0 1 1 (Real.pi / 4) _ one_pos (by norm_num) (by norm_num) one_pos (by linarith [Real.pi_pos])
      (by linarith [Real.pi_pos]) (by rw [Real.tan_pi_div_four]; norm_num) rfl⟩
  · refine ⟨_, _, .fov _ _ _ _ _ 1 0 1 (Real.arctan (2 * 1 * Real.tan (1 / 2))) 1 one_ne_zero (by norm_num) one_pos (by norm_num) (by norm_num)
      (by rw [mul_one]; exact Real.neg_pi_div_two_lt_arctan _) (by rw [mul_one]; exact Real.arctan_lt_pi_div_two _)
      (by rw [mul_one, Real.tan_arctan])⟩
  · refine ⟨_, _, .division _ _ _ _ _ (1 / 2) 0 (2 / 5) 0 1 one_ne_zero (by norm_num) (by norm_num)
      (by rw [abs_le]; constructor <;> norm_num) (by rw [abs_of_nonneg] <;> norm_num)⟩

/-- C100. The residual is the reprojection error of `Camera::ProjectPoint`: it is defined where the point is not near the centre, and
then it is the projected pixel minus the feature. -/
theorem C100_project_point (eps : ℝ) (t : ModelType) (ps : List ℝ) (pose : Pose) (x : V3 ℝ) (w : ℝ) (feature : ℝ × ℝ) (hw : w ≠ 0)
    (hn : ¬NearCentre pose.position x w) (d : ℝ × ℝ) :
    residual eps t feature pose ps x w = .ok (some d) ↔
      ∃ depth, projectPoint eps (cameraToPixel eps t ps) pose x w = .ok ((feature.1 + d.1, feature.2 + d.2), depth) := by
  rw [residual_far hn]
  simp only [projectPoint]
  generalize rotate eps pose.orientation (x.sub (pose.position.smul w)) = q
  cases hp : cameraToPixel eps t ps q with
  | abort => simp [Outcome.bind, bind]
  | ub => simp [Outcome.bind, bind]
  | ok p =>
    have hd : ∀ a : ℝ, divide a w = .ok (a / w) := fun a => divide_ok hw
    simp only [Outcome.bind, bind, hd]
    constructor
    · intro h
      injection h with h
      injection h with h
      subst h
      refine ⟨_, congrArg Outcome.ok (Prod.ext (Prod.ext ?_ ?_) rfl)⟩ <;> simp
    · rintro ⟨depth, h⟩
      injection h with h
      have h1 : p = (feature.1 + d.1, feature.2 + d.2) := congrArg Prod.fst h
      subst h1
      simp

/-- C100. The residual depends on the point only, not on its homogeneous coordinates, for all models but the fisheye. With the factor
minus one, the coordinates of a point relative to the camera are reversed: points behind the camera have residuals as well. -/
theorem C100_scale_partial (eps : ℝ) (t : ModelType) (ht : t ≠ .fisheye) (ps : List ℝ) (pose : Pose) (x : V3 ℝ) (w s : ℝ) (hs : s ≠ 0)
    (feature : ℝ × ℝ) (h1 : ¬NearCentre pose.position x w) (h2 : ¬NearCentre pose.position (x.smul s) (s * w)) :
    residual eps t feature pose ps (x.smul s) (s * w) = residual eps t feature pose ps x w := by
  have e : (x.smul s).sub (pose.position.smul (s * w)) = (x.sub (pose.position.smul w)).smul s := by
    apply V3.ext <;> simp only [V3.sub, V3.smul] <;> ring
  rw [residual_far h1, residual_far h2, e, AngleAxis.rotate_smul, cameraToPixel_smul eps ht ps _ hs]

/-- C100. Nor does the residual depend on the coordinate system: moving the camera and the point by a rotation `r`, a translation `b`
and a scale `s` keeps it, for the fisheye if the scale is one. -/
theorem C100_motion (eps : ℝ) (h0 : 0 ≤ eps) (t : ModelType) (ps : List ℝ) (pose pose' : Pose)
    (ho : pose.orientation = V3.zero ∨ eps < pose.orientation.dot pose.orientation)
    (ho' : pose'.orientation = V3.zero ∨ eps < pose'.orientation.dot pose'.orientation) (r : M3 ℝ) (hr : r.IsRotation) (b : V3 ℝ)
    (s : ℝ) (hs : s ≠ 0) (hts : t ≠ .fisheye ∨ s = 1) (hrot : (toM pose'.orientation).mul r = toM pose.orientation)
    (hpos : pose'.position = ((r.mulVec pose.position).smul s).add b) (x : V3 ℝ) (w : ℝ) (feature : ℝ × ℝ)
    (h1 : ¬NearCentre pose.position x w) (h2 : s ≠ 1 → ¬NearCentre pose'.position (((r.mulVec x).smul s).add (b.smul w)) w) :
    residual eps t feature pose' ps (((r.mulVec x).smul s).add (b.smul w)) w = residual eps t feature pose ps x w := by
  have e : (((r.mulVec x).smul s).add (b.smul w)).sub (pose'.position.smul w) =
      (r.mulVec (x.sub (pose.position.smul w))).smul s := by
    rw [hpos, M3.mulVec_sub, M3.mulVec_smul]
    apply V3.ext <;> simp only [V3.sub, V3.add, V3.smul] <;> ring
  have h2' : ¬NearCentre pose'.position (((r.mulVec x).smul s).add (b.smul w)) w := by
    by_cases hs1 : s = 1
    · unfold NearCentre
      rw [e, hs1]
      have e1 : ∀ q : V3 ℝ, q.smul 1 = q := fun q => by apply V3.ext <;> simp [V3.smul]
      rw [e1, hr.dot]
      exact h1
    · exact h2 hs1
  rw [residual_far h1, residual_far h2', e, rotate_exact h0 ho', rotate_exact h0 ho, M3.mulVec_smul, ← M3.mulVec_mul, hrot]
  rcases hts with ht | rfl
  · rw [cameraToPixel_smul eps ht ps _ hs]
  · have e1 : ∀ q : V3 ℝ, q.smul 1 = q := fun q => by apply V3.ext <;> simp [V3.smul]
    rw [e1]

/-- The hypotheses of C100_scale_partial and C100_motion are met: a point seen from behind, and a camera turned upright while the scene
is made twice as large. -/
example : (¬NearCentre ⟨1, 0, 0⟩ ⟨2, 1, 2⟩ 1 ∧ ¬NearCentre ⟨1, 0, 0⟩ ((⟨2, 1, 2⟩ : V3 ℝ).smul (-1)) (-1 * 1)) ∧
    (toM ⟨0, 0, 1⟩).IsRotation ∧ (toM V3.zero).mul (toM ⟨0, 0, 1⟩) = toM ⟨0, 0, 1⟩ ∧
    ¬NearCentre V3.zero ⟨0, 0, 2⟩ 1 ∧ ¬NearCentre (((toM ⟨0, 0, 1⟩).mulVec V3.zero |>.smul 2).add ⟨0, 0, 1⟩)
      (((toM ⟨0, 0, 1⟩).mulVec ⟨0, 0, 2⟩ |>.smul 2).add ((⟨0, 0, 1⟩ : V3 ℝ).smul 1)) 1 := by
  refine ⟨⟨by norm_num [NearCentre, V3.sub, V3.smul, V3.dot], by norm_num [NearCentre, V3.sub, V3.smul, V3.dot]⟩, isRotation_toM _, ?_, ?_, ?_⟩
  · rw [toM_zero]
    apply M3_ext_mulVec
    intro q
    rw [M3.mulVec_mul, M3.one_mulVec]
  · norm_num [NearCentre, V3.sub, V3.smul, V3.dot, V3.zero]
  · have e : (((toM ⟨0, 0, 1⟩).mulVec ⟨0, 0, 2⟩ |>.smul 2).add ((⟨0, 0, 1⟩ : V3 ℝ).smul 1)).sub
        (((((toM ⟨0, 0, 1⟩).mulVec V3.zero).smul 2).add ⟨0, 0, 1⟩).smul 1) = ((toM ⟨0, 0, 1⟩).mulVec ⟨0, 0, 2⟩).smul 2 := by
      apply V3.ext <;> simp [V3.sub, V3.add, V3.smul, M3.mulVec, V3.dot, V3.zero]
    unfold NearCentre
    rw [e, ← M3.mulVec_smul, (isRotation_toM _).dot]
    norm_num [V3.smul, V3.dot]

/-- C100. With a positive width every loss function is robust: zero at zero, positive elsewhere, nondecreasing, at most the squared
residual and without jumps. -/
theorem C100_loss (a : ℝ) (ha : 0 < a) (l : LossType) : RobustLoss (loss a l) := by
  cases l with
  | trivial => exact ⟨rfl, fun _ h => h, fun _ _ _ h => h, fun _ _ => le_refl _, continuousOn_id⟩
  | huber => exact huber_robust ha
  | softLOne => exact softLOne_robust ha
  | cauchy => exact cauchy_robust ha
  | arctan => exact arctan_robust ha
  | tukey => exact tukey_robust ha

open BA in
/-- C100. The cost of adjusting a whole reconstruction is half the sum, over the observations of estimated tracks by estimated views,
of the losses of the squared distances between the feature and the pixel at which the camera sees the point. It is never negative
and it is zero exactly when each point is seen at its feature. -/
theorem C100_cost {P : Type} (eps : ℝ) (h0 : 0 ≤ eps) (h1 : eps ≤ 1 / 10 ^ 10) (r : Reconstruction (ℝ × ℝ) P) (hr : r.Reachable)
    (o : Options) (hv : ViewsConstrained r) (ht : TracksConstrained r) (rho : ℝ → ℝ) (hrho : RobustLoss rho) (v : Values)
    (pixel : BA.Residual (ℝ × ℝ) → ℝ × ℝ)
    (ho : ∀ e, IsObservation r e →
      (v.pose e.view).orientation = V3.zero ∨ eps < (v.pose e.view).orientation.dot (v.pose e.view).orientation)
    (hseen : ∀ e, IsObservation r e → ImagedAt (v.intrinsics e.ptr).1 (v.intrinsics e.ptr).2
      (cameraPoint (v.pose e.view).orientation (v.pose e.view).position (v.point e.track).1 (v.point e.track).2) (pixel e))
    (hfar : ∀ e, IsObservation r e → ¬NearCentre (v.pose e.view).position (v.point e.track).1 (v.point e.track).2)
    (S : Finset (BA.Residual (ℝ × ℝ))) (hS : ∀ e, e ∈ S ↔ IsObservation r e) :
    ∃ p c, fullProblem r o = .ok p ∧ evaluate eps rho v p.residuals = .ok (some c) ∧
      c = 1 / 2 * ∑ e ∈ S, rho (((pixel e).1 - e.feature.1) ^ 2 + ((pixel e).2 - e.feature.2) ^ 2) ∧
      0 ≤ c ∧ (c = 0 ↔ ∀ e, IsObservation r e → pixel e = e.feature) := by
  classical
  obtain ⟨p, hp, hnd, hmem, _⟩ := C29_full r hr o hv ht
  have hterm : ∀ e ∈ p.residuals, term eps rho v e =
      .ok (some (rho (((pixel e).1 - e.feature.1) ^ 2 + ((pixel e).2 - e.feature.2) ^ 2))) := by
    intro e he
    have hob := (hmem e).1 he
    have hres := (C100_residual eps h0 h1 _ _ _ (ho e hob) _ _ _ e.feature (hseen e hob)).1 (hfar e hob)
    unfold term
    rw [hres]
    simp only [sq]
  have hSeq : S = p.residuals.toFinset := by
    ext e
    rw [hS, List.mem_toFinset, hmem]
  have hsum : ∀ f : BA.Residual (ℝ × ℝ) → ℝ, (p.residuals.map f).sum = ∑ e ∈ S, f e := by
    intro f
    rw [hSeq, List.sum_toFinset f hnd]
  have hnn : ∀ e : BA.Residual (ℝ × ℝ), 0 ≤ ((pixel e).1 - e.feature.1) ^ 2 + ((pixel e).2 - e.feature.2) ^ 2 := fun e =>
    add_nonneg (sq_nonneg _) (sq_nonneg _)
  have hrn : ∀ s, 0 ≤ s → 0 ≤ rho s := fun s hs => by
    have := hrho.mono 0 s (le_refl _) hs
    rwa [hrho.zero] at this
  refine ⟨p, _, hp, evaluate_ok hterm, by rw [hsum], ?_, ?_⟩
  · rw [hsum]
    exact mul_nonneg (by norm_num) (Finset.sum_nonneg fun e _ => hrn _ (hnn e))
  · rw [hsum, mul_eq_zero, or_iff_right (by norm_num), Finset.sum_eq_zero_iff_of_nonneg fun e _ => hrn _ (hnn e)]
    constructor
    · intro h e he
      have h' := h e ((hS e).2 he)
      rcases (hnn e).eq_or_lt with hz | hz
      · have z1 : ((pixel e).1 - e.feature.1) ^ 2 = 0 := by nlinarith [sq_nonneg ((pixel e).1 - e.feature.1), sq_nonneg ((pixel e).2 - e.feature.2)]
        have z2 : ((pixel e).2 - e.feature.2) ^ 2 = 0 := by nlinarith [sq_nonneg ((pixel e).1 - e.feature.1), sq_nonneg ((pixel e).2 - e.feature.2)]
        exact Prod.ext (sub_eq_zero.1 (pow_eq_zero_iff (two_ne_zero)|>.1 z1)) (sub_eq_zero.1 (pow_eq_zero_iff (two_ne_zero)|>.1 z2))
      · exact absurd h' (hrho.pos _ hz).ne'
    · intro h e he
      rw [h e ((hS e).1 he)]
      simp [hrho.zero]

open BA in
/-- C100. One observed point near the centre of a camera that observes it is enough for the evaluation of the whole problem to fail. -/
theorem C100_failure {P : Type} (eps : ℝ) (r : Reconstruction (ℝ × ℝ) P) (hr : r.Reachable) (o : Options) (hv : ViewsConstrained r)
    (ht : TracksConstrained r) (rho : ℝ → ℝ) (v : Values) (hvalid : ∀ q, (v.intrinsics q).1 ≠ .invalid)
    (e : BA.Residual (ℝ × ℝ)) (he : IsObservation r e)
    (hnear : NearCentre (v.pose e.view).position (v.point e.track).1 (v.point e.track).2) :
    ∃ p, fullProblem r o = .ok p ∧ evaluate eps rho v p.residuals = .ok none := by
  obtain ⟨p, hp, _, hmem, _⟩ := C29_full r hr o hv ht
  refine ⟨p, hp, evaluate_none ?_ ((hmem e).2 he) ?_⟩
  · intro e' _
    unfold term
    by_cases hn : NearCentre (v.pose e'.view).position (v.point e'.track).1 (v.point e'.track).2
    · rw [residual_near hn]
      exact ⟨_, rfl⟩
    · rw [residual_far hn]
      have := cameraToPixel_ne_abort eps (hvalid e'.ptr) (v.intrinsics e'.ptr).2
        (rotate eps (v.pose e'.view).orientation ((v.point e'.track).1.sub ((v.pose e'.view).position.smul (v.point e'.track).2)))
      cases hc : cameraToPixel eps (v.intrinsics e'.ptr).1 (v.intrinsics e'.ptr).2
        (rotate eps (v.pose e'.view).orientation ((v.point e'.track).1.sub ((v.pose e'.view).position.smul (v.point e'.track).2))) with
      | ok a => exact ⟨_, rfl⟩
      | ub => exact ⟨_, rfl⟩
      | abort => exact absurd hc this
  · unfold term
    rw [residual_near hnear]

/-- Two views that observe three tracks; all are estimated. -/
def sceneOps (f : ℝ × ℝ) : List (Reconstruction.Op (ℝ × ℝ) Unit) :=
  [.addViewToGroup "a" 7, .addView "b", .addTrack () [(0, f), (1, f)], .addTrack () [(0, f), (1, f)], .addTrack () [(0, f), (1, f)],
   .setViewEstimated 0 true, .setViewEstimated 1 true, .setTrackEstimated 0 true (), .setTrackEstimated 1 true (),
   .setTrackEstimated 2 true ()]

/-- The reconstruction. -/
def sceneRecon (f : ℝ × ℝ) : Reconstruction (ℝ × ℝ) Unit :=
  match Reconstruction.run (Reconstruction.empty : Reconstruction (ℝ × ℝ) Unit) (sceneOps f) with
  | .ok (_, r) => r
  | _ => Reconstruction.empty

/-- Two cameras side by side, and points in front of them. -/
noncomputable def sceneValues : Values :=
  ⟨fun i => ⟨V3.zero, ⟨i, 0, 0⟩⟩, fun _ => (.pinhole, [1, 1, 0, 0, 0, 0, 0]), fun i => (⟨i, 1, 2⟩, 1)⟩

/-- The hypotheses of C100_cost are met by these. -/
example : (sceneRecon (1, 2)).Reachable ∧ ViewsConstrained (sceneRecon (1, 2)) ∧ TracksConstrained (sceneRecon (1, 2)) ∧
    (∃ e, IsObservation (sceneRecon (1, 2)) e) ∧ ∀ e : BA.Residual (ℝ × ℝ),
      (∃ pixel, ImagedAt (sceneValues.intrinsics e.ptr).1 (sceneValues.intrinsics e.ptr).2
        (cameraPoint (sceneValues.pose e.view).orientation (sceneValues.pose e.view).position (sceneValues.point e.track).1
          (sceneValues.point e.track).2) pixel) ∧
      (sceneValues.pose e.view).orientation = V3.zero ∧
      ¬NearCentre (sceneValues.pose e.view).position (sceneValues.point e.track).1 (sceneValues.point e.track).2 := by
  refine ⟨⟨sceneOps (1, 2), ?_⟩, ?_, ?_, ?_, ?_⟩
  · have key : (match Reconstruction.run (Reconstruction.empty : Reconstruction (ℝ × ℝ) Unit) (sceneOps (1, 2)) with
      | .ok _ => true
      | _ => false) = true := by decide +kernel
    cases h : Reconstruction.run (Reconstruction.empty : Reconstruction (ℝ × ℝ) Unit) (sceneOps (1, 2)) with
    | ok x => exact ⟨x.1, by simp only [sceneRecon, h]⟩
    | abort => rw [h] at key; exact absurd key (by simp)
    | ub => rw [h] at key; exact absurd key (by simp)
  · have key : ((sceneRecon (1, 2)).views.entries.all fun u => decide (3 ≤ (estimatedTracksIn (sceneRecon (1, 2)) u.2).length)) = true := by
      decide +kernel
    intro u U hU hE
    exact of_decide_eq_true (List.all_eq_true.1 key _ (AMap.mem_entries_of_get hU))
  · have key : ((sceneRecon (1, 2)).tracks.entries.all fun u => decide (2 ≤ (estimatedObservers (sceneRecon (1, 2)) u.2).length)) = true := by
      decide +kernel
    intro u U hU hE
    exact of_decide_eq_true (List.all_eq_true.1 key _ (AMap.mem_entries_of_get hU))
  · have key : (match (sceneRecon (1, 2)).view 0, (sceneRecon (1, 2)).track 0 with
      | some V, some T => V.estimated && T.estimated && (V.getFeature 0).isSome
      | _, _ => false) = true := by decide +kernel
    cases hV : (sceneRecon (1, 2)).view 0 with
    | none => rw [hV] at key; exact absurd key (by simp)
    | some V =>
      cases hT : (sceneRecon (1, 2)).track 0 with
      | none => rw [hV, hT] at key; exact absurd key (by simp)
      | some T =>
        rw [hV, hT] at key
        simp only [Bool.and_eq_true] at key
        obtain ⟨f, hf⟩ := Option.isSome_iff_exists.1 key.2
        exact ⟨⟨0, V.intrinsics, 0, f⟩, V, T, hV, key.1.1, hf, rfl, hT, key.1.2⟩
  · intro e
    refine ⟨?_, rfl, ?_⟩
    · have h : cameraPoint (sceneValues.pose e.view).orientation (sceneValues.pose e.view).position (sceneValues.point e.track).1
          (sceneValues.point e.track).2 = ⟨((e.track : ℝ) - e.view) / 2 * 2, 1 / 2 * 2, 2⟩ := by
        simp only [cameraPoint, sceneValues]
        rw [toM_zero, M3.one_mulVec]
        apply V3.ext <;> simp [V3.sub, V3.smul]
      rw [h]
      exact ⟨_, .pinhole _ _ _ _ _ _ _ _ _ _ _ _ _ two_ne_zero rfl rfl rfl⟩
    · simp only [NearCentre, sceneValues, V3.sub, V3.smul, V3.dot]
      rw [not_lt]
      nlinarith [mul_self_nonneg ((e.track : ℝ) - 1 * e.view)]

private theorem sub_zero_smul (x : V3 ℝ) (w : ℝ) : x.sub ((V3.zero : V3 ℝ).smul w) = x := by
  apply V3.ext <;> simp [V3.sub, V3.smul, V3.zero]

private theorem cameraPoint_zero (x : V3 ℝ) (w : ℝ) : cameraPoint V3.zero V3.zero x w = x := by
  unfold cameraPoint
  rw [sub_zero_smul, toM_zero, M3.one_mulVec]

/-- The fisheye model is an exception to C100_scale_partial: the same point, with larger homogeneous coordinates, is seen at another pixel,
because the test for small radii is made on coordinates that are not normalised (fisheye_camera_model.h:243). -/
theorem C100_fisheye_scale_counterexample (eps : ℝ) (h0 : 0 ≤ eps) (h1 : eps ≤ 1 / 10 ^ 10) :
    ∃ (ps : List ℝ) (x : V3 ℝ) (w s : ℝ) (d d' : ℝ × ℝ), 0 < s ∧ ¬NearCentre V3.zero x w ∧ ¬NearCentre V3.zero (x.smul s) (s * w) ∧
      residual eps .fisheye (0, 0) ⟨V3.zero, V3.zero⟩ ps x w = .ok (some d) ∧
      residual eps .fisheye (0, 0) ⟨V3.zero, V3.zero⟩ ps (x.smul s) (s * w) = .ok (some d') ∧ d ≠ d' := by
  have n1 : ¬NearCentre V3.zero ⟨9 / 100000, 0, 9 / 100000⟩ 1 := by
    unfold NearCentre
    rw [sub_zero_smul]
    norm_num [V3.dot]
  have e : (⟨9 / 100000, 0, 9 / 100000⟩ : V3 ℝ).smul (100000 / 9) = ⟨1, 0, 1⟩ := by apply V3.ext <;> norm_num [V3.smul]
  have n2 : ¬NearCentre V3.zero ((⟨9 / 100000, 0, 9 / 100000⟩ : V3 ℝ).smul (100000 / 9)) (100000 / 9 * 1) := by
    unfold NearCentre
    rw [sub_zero_smul, e]
    norm_num [V3.dot]
  have c1 : cameraToPixel eps .fisheye [1, 1, 0, 0, 0, 0, 0, 0, 0] ⟨9 / 100000, 0, 9 / 100000⟩ = .ok (9 / 100000, 0) := by
    unfold cameraToPixel calibration skew
    simp only [param, focalIndex, aspectIndex, skewIndex, principalXIndex, principalYIndex, radialIndex,
      List.getElem?_cons_zero, List.getElem?_cons_succ, Outcome.ok_bind]
    unfold fisheyeToPixel fisheyeDistort Calibration.apply
    norm_num
  obtain ⟨p, hp, i2⟩ : ∃ p : ℝ × ℝ, p.1 = Real.pi / 4 ∧ ImagedAt .fisheye [1, 1, 0, 0, 0, 0, 0, 0, 0]
      (cameraPoint V3.zero V3.zero ((⟨9 / 100000, 0, 9 / 100000⟩ : V3 ℝ).smul (100000 / 9)) (100000 / 9 * 1)) p := by
    rw [cameraPoint_zero, e]
    refine ⟨_, ?_, .fisheye _ _ _ _ _ _ _ _ _ 1 0 1 1 (Real.pi / 4) _ one_pos (by norm_num) (by norm_num) one_pos (by linarith [Real.pi_pos])
      (by linarith [Real.pi_pos]) (by rw [Real.tan_pi_div_four]; norm_num) rfl⟩
    simp
  refine ⟨[1, 1, 0, 0, 0, 0, 0, 0, 0], ⟨9 / 100000, 0, 9 / 100000⟩, 1, 100000 / 9, (9 / 100000 - 0, 0 - 0), _, by norm_num, n1, n2, ?_,
    (C100_residual eps h0 h1 _ _ ⟨V3.zero, V3.zero⟩ (Or.inl rfl) _ _ _ (0, 0) i2).1 n2, ?_⟩
  · rw [residual_far n1]
    simp only
    rw [sub_zero_smul, rotate_exact h0 (Or.inl rfl), toM_zero, M3.one_mulVec, c1]
    rfl
  · intro h
    have h' := congrArg Prod.fst h
    simp only at h'
    have := Real.pi_gt_three
    linarith

private theorem axis_residual {eps : ℝ} (h0 : 0 ≤ eps) (h1 : eps ≤ 1 / 10 ^ 10) {z : ℝ} (hz : z ≠ 0) (hn : ¬NearCentre V3.zero ⟨0, 0, z⟩ 1) :
    residual eps .pinhole (0, 0) ⟨V3.zero, V3.zero⟩ [1, 1, 0, 0, 0, 0, 0] ⟨0, 0, z⟩ 1 = .ok (some (0, 0)) := by
  obtain ⟨p, rfl, i⟩ : ∃ p : ℝ × ℝ, p = (0, 0) ∧ ImagedAt .pinhole [1, 1, 0, 0, 0, 0, 0] (cameraPoint V3.zero V3.zero ⟨0, 0, z⟩ 1) p := by
    rw [cameraPoint_zero]
    have := ImagedAt.pinhole 1 1 0 0 0 0 0 0 0 _ _ _ z hz rfl rfl rfl
    rw [zero_mul] at this
    exact ⟨_, by norm_num, this⟩
  rw [(C100_residual eps h0 h1 _ _ ⟨V3.zero, V3.zero⟩ (Or.inl rfl) _ _ _ (0, 0) i).1 hn]
  norm_num

/-- The threshold on the distance to the centre is on homogeneous coordinates as well: a point at distance one has a residual, and
none if its coordinates are scaled to be small. -/
theorem C100_near_scale_counterexample (eps : ℝ) (h0 : 0 ≤ eps) (h1 : eps ≤ 1 / 10 ^ 10) :
    ∃ (x : V3 ℝ) (s : ℝ), 0 < s ∧ ¬NearCentre V3.zero x 1 ∧ NearCentre V3.zero (x.smul s) (s * 1) ∧
      residual eps .pinhole (0, 0) ⟨V3.zero, V3.zero⟩ [1, 1, 0, 0, 0, 0, 0] x 1 = .ok (some (0, 0)) ∧
      residual eps .pinhole (0, 0) ⟨V3.zero, V3.zero⟩ [1, 1, 0, 0, 0, 0, 0] (x.smul s) (s * 1) = .ok none := by
  have n1 : ¬NearCentre V3.zero ⟨0, 0, 1⟩ 1 := by
    unfold NearCentre
    rw [sub_zero_smul]
    norm_num [V3.dot]
  have n2 : NearCentre V3.zero ((⟨0, 0, 1⟩ : V3 ℝ).smul (1 / 10 ^ 5)) (1 / 10 ^ 5 * 1) := by
    unfold NearCentre
    rw [sub_zero_smul]
    norm_num [V3.dot, V3.smul]
  exact ⟨⟨0, 0, 1⟩, 1 / 10 ^ 5, by norm_num, n1, n2, axis_residual h0 h1 one_ne_zero n1, residual_near n2⟩

/-- The error does not see on which side of the camera a point lies: a point behind the camera can have residual zero. -/
theorem C100_behind_counterexample (eps : ℝ) (h0 : 0 ≤ eps) (h1 : eps ≤ 1 / 10 ^ 10) :
    ∃ x : V3 ℝ, x.z < 0 ∧ residual eps .pinhole (0, 0) ⟨V3.zero, V3.zero⟩ [1, 1, 0, 0, 0, 0, 0] x 1 = .ok (some (0, 0)) := by
  refine ⟨⟨0, 0, -1⟩, by norm_num, axis_residual h0 h1 (by norm_num) ?_⟩
  unfold NearCentre
  rw [sub_zero_smul]
  norm_num [V3.dot]

/-- The hypothesis of C100_loss is needed: with width zero the Huber loss is zero everywhere, so that nothing is minimised. -/
theorem C100_width_counterexample : ∀ s : ℝ, 0 ≤ s → loss 0 .huber s = 0 := by
  intro s hs
  simp only [loss]
  split
  · ring
  · rename_i h
    exact le_antisymm (by linarith [not_lt.1 h]) hs

end Theia
