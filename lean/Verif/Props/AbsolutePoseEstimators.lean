import Verif.Model.AbsolutePoseEstimators
import Verif.Props.ProjectionMatrix
import Verif.Props.RobustEstimators
import Verif.Props.ThreePointPose
import Verif.Spec.AbsolutePoseEstimators

/-!
# C91: robust estimators of absolute poses
-/

namespace Theia

open Spec RansacVariants RobustEstimators LinearSolvers AbsolutePoseEstimators
open Triangulation hiding epipolar

private theorem squared_some (u v : ℝ × ℝ) : squaredDistance (some u) (some v) = ((distanceSq u v : ℝ) : WithTop ℝ) := by
  simp only [squaredDistance, sq2, distanceSq, pow_two]

private theorem hnormalized_of {v : V3 ℝ} (h : v.z ≠ 0) : hnormalized v = some (dehomogenised v) := by
  simp only [hnormalized, if_neg h, dehomogenised]

private theorem squared_top (u : Option (ℝ × ℝ)) : squaredDistance u none = ⊤ := by cases u <;> rfl

/-! ## A known orientation -/

/-- The feature's ray meets the plane, the point is not at the height of the camera, and the squared distance in the plane is below the
threshold. -/
def CloseInWorld (R : M3 ℝ) (t : ℝ) (p : V3 ℝ) (c : Corr) : Prop :=
  (worldRay R c.1).z ≠ 0 ∧ (c.2.sub p).z ≠ 0 ∧ worldPlaneSq R p c < t

/-- What is known of a position computed from a sample: the features are different, and it minimises the sum of the squared offsets of the points from the rays. If one of
the rays does not meet the plane, it is not a number. -/
def LeastOffset (R : M3 ℝ) (ds : List Corr) (m : Option (V3 ℝ)) : Prop :=
  (m = none ∧ ∃ c ∈ ds, (worldRay R c.1).z = 0) ∨
  ∃ a b p, ds = [a, b] ∧ m = some p ∧ a.1 ≠ b.1 ∧ ∀ q, rayOffset (dehomogenised (worldRay R a.1)) a.2 (dehomogenised (worldRay R b.1)) b.2 p ≤
    rayOffset (dehomogenised (worldRay R a.1)) a.2 (dehomogenised (worldRay R b.1)) b.2 q

/-- The camera sees both points of the sample, at different features whose rays meet the plane. -/
def SeesBoth (R : M3 ℝ) (ds : List Corr) (m : Option (V3 ℝ)) : Prop :=
  ∃ a b p, ds = [a, b] ∧ m = some p ∧ a.1 ≠ b.1 ∧ ∀ c ∈ ds, (worldRay R c.1).z ≠ 0 ∧ ∃ depth, OnSight R p c depth

private theorem onSight_iff {R : M3 ℝ} (hR : R.IsRotation) {p : V3 ℝ} {c : Corr} {depth : ℝ} :
    OnSight R p c depth ↔ c.2.sub p = (worldRay R c.1).smul depth := by
  unfold OnSight worldRay
  rw [← M3.mulVec_smul]
  constructor
  · intro h
    rw [← h, hR.transpose_mulVec]
  · intro h
    rw [h, hR.mulVec_transpose]

private theorem seen_of_sight {R : M3 ℝ} (hR : R.IsRotation) {p : V3 ℝ} {c : Corr} {depth : ℝ} (h : OnSight R p c depth)
    (hz : (worldRay R c.1).z ≠ 0) : SeenFrom p (dehomogenised (worldRay R c.1)) c.2 := by
  rw [onSight_iff hR] at h
  refine ⟨depth * (worldRay R c.1).z, ?_⟩
  rw [h]
  apply V3.ext <;> simp only [V3.smul, dehomogenised] <;> field_simp

private theorem ray_injective {R : M3 ℝ} (hR : R.IsRotation) {f g : ℝ × ℝ} (hf : (worldRay R f).z ≠ 0) (hg : (worldRay R g).z ≠ 0)
    (h : dehomogenised (worldRay R f) = dehomogenised (worldRay R g)) : f = g := by
  have h1 : worldRay R f = (worldRay R g).smul ((worldRay R f).z / (worldRay R g).z) := by
    simp only [dehomogenised, Prod.mk.injEq] at h
    obtain ⟨e1, e2⟩ := h
    rw [div_eq_div_iff hf hg] at e1 e2
    apply V3.ext <;> simp only [V3.smul] <;> field_simp <;> linarith
  have h2 := congrArg R.mulVec h1
  rw [M3.mulVec_smul] at h2
  unfold worldRay at h2
  rw [hR.mulVec_transpose, hR.mulVec_transpose] at h2
  obtain ⟨e1, e2, e3⟩ := V3.ext_iff.1 h2
  simp only [V3.smul, mul_one] at e1 e2 e3
  rw [← e3, one_mul] at e1 e2
  exact Prod.ext e1 e2

/-- The full claim of C91 is that the inliers are the correspondences whose squared reprojection error is below the threshold, with
the points in front of the camera. Proved: the position found is the least squares solution of two of the correspondences; no position from
which both points of a drawn sample are seen has a higher cost; the inliers are exactly the correspondences whose error, measured in a
plane of the *world*, is below the threshold. Missing: the error is not measured in the image, correspondences whose rays do not meet the plane
are lost, and points behind the camera are not excluded. -/
theorem C91_known_orientation_partial {qr : List (V3 ℝ) → Nat × (List ℝ → V3 ℝ)} (hq : QrSolver qr)
    (junk : List (Option (ℝ × ℝ) × V3 ℝ) → Bool) {t : RansacType} {s : Settings} (ht : t ≠ .lmed) (hpos : 0 < s.errorThresh)
    (hp : s.params.Valid) (lmed : List (WithTop ℝ) → WithTop ℝ × List Nat) (orientation : V3 ℝ) (cs : List Corr)
    (h2 : 2 ≤ cs.length) (sample : Nat → Option (List Nat)) (hs : SamplesOf 2 cs.length sample) (initial : Option (V3 ℝ))
    (R : M3 ℝ) (hR : R = AngleAxis.toM orientation) :
    ∃ m sum, estimateKnown qr junk t s lmed sample orientation cs initial = .ok (m, sum) ∧
      s.params.minIterations ≤ sum.numIterations ∧ (sum.numIterations : Int) ≤ max 0 s.params.maxIterations ∧
      RobustResult cs sample sum.numIterations (LeastOffset R) (SeesBoth R)
        (fun m c => ∃ p, m = some p ∧ CloseInWorld R s.errorThresh p c)
        (fun m => robustCost s.useMle s.errorThresh (fun c => ∃ p, m = some p ∧ CloseInWorld R s.errorThresh p c)
          (fun c => m.elim 0 fun p => worldPlaneSq R p c) cs) initial m sum.inliers := by
  have hrot : R.IsRotation := hR ▸ AngleAxis.isRotation_toM orientation
  have hcoord : ∀ c : Corr, (worldRay R c.1).z ≠ 0 → rotateCorrespondence R c = (some (dehomogenised (worldRay R c.1)), c.2) := by
    intro c hz
    unfold rotateCorrespondence
    rw [show R.transpose.mulVec (homog c.1) = worldRay R c.1 from rfl, hnormalized_of hz]
  have hcoord0 : ∀ c : Corr, (worldRay R c.1).z = 0 → rotateCorrespondence R c = (none, c.2) := by
    intro c hz
    unfold rotateCorrespondence
    rw [show R.transpose.mulVec (homog c.1) = worldRay R c.1 from rfl, hnormalized, if_pos hz]
  have herr : ∀ c p, CloseInWorld R s.errorThresh p c →
      knownError (rotateCorrespondence R c) (some p) = ((worldPlaneSq R p c : ℝ) : WithTop ℝ) := by
    rintro c p ⟨h1, h2, -⟩
    rw [hcoord c h1]
    simp only [knownError]
    rw [hnormalized_of h2, squared_some]
    rfl
  unfold estimateKnown
  simp only [← hR]
  refine robust_result (residual := fun m c => m.elim 0 fun p => worldPlaneSq R p c) ht (fun _ => rfl) hpos hp lmed hs _
    (by norm_num) h2 _ initial ?_ ?_ ?_ ?_
  · intro ds ms m hlen he hm
    obtain ⟨a, b, rfl⟩ := List.length_eq_two.1 hlen
    simp only [List.map_cons, List.map_nil] at he
    by_cases ha : (worldRay R a.1).z = 0
    · rw [hcoord0 a ha] at he
      simp only [knownModels] at he
      split at he
      · cases he
        exact .inl ⟨List.mem_singleton.1 hm, a, by simp, ha⟩
      · cases he
    · by_cases hb : (worldRay R b.1).z = 0
      · rw [hcoord a ha, hcoord0 b hb] at he
        simp only [knownModels] at he
        split at he
        · cases he
          exact .inl ⟨List.mem_singleton.1 hm, b, by simp, hb⟩
        · cases he
      · rw [hcoord a ha, hcoord b hb] at he
        simp only [knownModels] at he
        obtain ⟨p, hp', rfl⟩ := Option.map_eq_some_iff.1 he
        refine .inr ⟨a, b, p, rfl, List.mem_singleton.1 hm, fun hab => ?_, fun q => C80_two_rays_least hq hp' q⟩
        rw [(C80_two_rays_none hq _ _ _ _).2 (by rw [hab])] at hp'
        cases hp'
  · intro m c
    cases m with
    | none => simp [knownError]
    | some p =>
      constructor
      · intro h
        refine ⟨p, rfl, ?_⟩
        by_cases h1 : (worldRay R c.1).z = 0
        · rw [hcoord0 c h1] at h
          simp only [knownError] at h
          rw [squared_top] at h
          simp at h
        · by_cases h2 : (c.2.sub p).z = 0
          · rw [hcoord c h1] at h
            simp only [knownError, hnormalized, if_pos h2, squaredDistance] at h
            simp at h
          · refine ⟨h1, h2, ?_⟩
            rw [hcoord c h1] at h
            simp only [knownError] at h
            rw [hnormalized_of h2, squared_some, WithTop.coe_lt_coe] at h
            exact h
      · rintro ⟨q, e, h⟩
        cases e
        rw [herr c p h, WithTop.coe_lt_coe]
        exact h.2.2
  · rintro m c ⟨p, rfl, h⟩
    exact herr c p h
  · rintro ds m ⟨a, b, p, rfl, rfl, hne, hsee⟩ - -
    obtain ⟨ha, da, hda⟩ := hsee a (by simp)
    obtain ⟨hb, db, hdb⟩ := hsee b (by simp)
    have := C80_two_rays_exact hq (seen_of_sight hrot hda ha) (seen_of_sight hrot hdb hb) fun h => hne (ray_injective hrot ha hb h)
    refine ⟨[some p], some p, ?_, List.mem_singleton.2 rfl, fun _ => rfl⟩
    simp only [List.map_cons, List.map_nil]
    rw [hcoord a ha, hcoord b hb]
    simp only [knownModels]
    rw [this, Option.map_some]

private theorem close_of_sight {R : M3 ℝ} (hR : R.IsRotation) {p : V3 ℝ} {c : Corr} {depth : ℝ} (h : OnSight R p c depth)
    (hz : (worldRay R c.1).z ≠ 0) (hd : depth ≠ 0) {t : ℝ} (ht : 0 < t) : CloseInWorld R t p c ∧ worldPlaneSq R p c = 0 := by
  rw [onSight_iff hR] at h
  have e : worldPlaneSq R p c = 0 := by
    unfold worldPlaneSq distanceSq
    rw [h]
    simp only [dehomogenised, V3.smul]
    rw [mul_div_mul_left _ _ hd, mul_div_mul_left _ _ hd]
    simp
  refine ⟨⟨hz, ?_, by rw [e]; exact ht⟩, e⟩
  rw [h]
  exact mul_ne_zero hd hz

private theorem known_unique {qr : List (V3 ℝ) → Nat × (List ℝ → V3 ℝ)} (hq : QrSolver qr) {R : M3 ℝ} (hR : R.IsRotation) {p : V3 ℝ}
    {ds : List Corr} (hsee : ∀ c ∈ ds, (worldRay R c.1).z ≠ 0 ∧ ∃ depth, OnSight R p c depth) {m : Option (V3 ℝ)}
    (h : LeastOffset R ds m) : m = some p := by
  rcases h with ⟨-, c, hc, hz⟩ | ⟨a', b', q, rfl, rfl, hne', hmin⟩
  · exact absurd hz (hsee c hc).1
  · have h := hmin p
    obtain ⟨za, da, hda⟩ := hsee a' (by simp)
    obtain ⟨zb, db, hdb⟩ := hsee b' (by simp)
    have hsa := seen_of_sight hR hda za
    have hsb := seen_of_sight hR hdb zb
    rw [rayOffset_zero.2 ⟨hsa, hsb⟩] at h
    have h0 := le_antisymm h (by unfold rayOffset; positivity)
    obtain ⟨hqa, hqb⟩ := rayOffset_zero.1 h0
    have hne'' := fun h => hne' (ray_injective hR za zb h)
    have e1 := C80_two_rays_exact hq hsa hsb hne''
    rw [C80_two_rays_exact hq hqa hqb hne''] at e1
    exact e1

/-- C91: for a camera that sees all the points, along rays that meet the plane, and a drawn sample with two different features, the position
of the camera is found, and all correspondences are inliers. -/
theorem C91_known_orientation_exact {qr : List (V3 ℝ) → Nat × (List ℝ → V3 ℝ)} (hq : QrSolver qr)
    (junk : List (Option (ℝ × ℝ) × V3 ℝ) → Bool) {t : RansacType} {s : Settings} (ht : t ≠ .lmed) (hpos : 0 < s.errorThresh)
    (hp : s.params.Valid) (lmed : List (WithTop ℝ) → WithTop ℝ × List Nat) (orientation : V3 ℝ) (cs : List Corr)
    (h2 : 2 ≤ cs.length) (sample : Nat → Option (List Nat)) (hs : SamplesOf 2 cs.length sample) (initial : Option (V3 ℝ))
    (p : V3 ℝ) (hsee : ∀ c ∈ cs, (worldRay (AngleAxis.toM orientation) c.1).z ≠ 0 ∧
      ∃ depth, depth ≠ 0 ∧ OnSight (AngleAxis.toM orientation) p c depth)
    (i : Nat) (hi : i < s.params.minIterations) (a b : Corr) (hd : Drawn cs sample i [a, b]) (hne : a.1 ≠ b.1) :
    ∃ sum, estimateKnown qr junk t s lmed sample orientation cs initial = .ok (some p, sum) ∧
      ∀ j, j ∈ sum.inliers ↔ j < cs.length := by
  have hrot := AngleAxis.isRotation_toM orientation
  obtain ⟨m, sum, hr, h1, -, hR⟩ := C91_known_orientation_partial hq junk ht hpos hp lmed orientation cs h2 sample hs initial _ rfl
  have hin : i < sum.numIterations := by omega
  have he : SeesBoth (AngleAxis.toM orientation) [a, b] (some p) := by
    refine ⟨a, b, p, rfl, rfl, hne, fun c hc => ?_⟩
    obtain ⟨hz, d, -, hd'⟩ := hsee c (drawn_mem hd c hc)
    exact ⟨hz, d, hd'⟩
  have hall := C90_all_inliers hpos hR
    (by
      rintro m d ⟨q, rfl, -⟩
      simp only [Option.elim, worldPlaneSq, distanceSq]
      positivity) hin hd he
    (fun c hc => by
      obtain ⟨hz, d, hd0, hd'⟩ := hsee c hc
      obtain ⟨k1, k2⟩ := close_of_sight hrot hd' hz hd0 hpos
      exact ⟨⟨p, rfl, k1⟩, k2⟩)
  refine ⟨sum, ?_, hall⟩
  rw [hr]
  obtain ⟨⟨i', hi', ds, hd', hc⟩, -⟩ := hR.2.1 i hin _ _ hd he
  rw [known_unique hq hrot (fun c hc' => ?_) hc]
  obtain ⟨hz, d, -, h⟩ := hsee c (drawn_mem hd' c hc')
  exact ⟨hz, d, h⟩

private noncomputable def anySettings : Settings :=
  { errorThresh := 1 / 10, useMle := true,
    params := { failureProbability := 1 / 100, minInlierRatio := 0, minIterations := 1, maxIterations := 10, useTdd := false } }

private theorem anySettings_valid : ValidSettings .ransac anySettings :=
  ⟨.inl rfl, by norm_num [anySettings], by norm_num [anySettings, Ransac.Params.Valid]⟩

/-- Two points in front of a camera at the origin and one behind it. -/
private def threeSeen : List Corr := [((0, 0), ⟨0, 0, 1⟩), ((1, 0), ⟨1, 0, 1⟩), ((0, 1), ⟨0, -1, -1⟩)]

private theorem threeSeen_sight : ∀ c ∈ threeSeen, (worldRay M3.one c.1).z ≠ 0 ∧ ∃ depth, depth ≠ 0 ∧ OnSight M3.one ⟨0, 0, 0⟩ c depth := by
  simp only [threeSeen, List.forall_mem_cons, OnSight, M3.one_mulVec]
  refine ⟨⟨?_, 1, by norm_num, ?_⟩, ⟨?_, 1, by norm_num, ?_⟩, ⟨?_, -1, by norm_num, ?_⟩, by simp⟩ <;>
    norm_num [worldRay, M3.transpose, M3.one, M3.mulVec, V3.dot, V3.sub, V3.smul]

/-- The hypotheses of the theorems on a known orientation hold for these correspondences. -/
example : (∃ qr, QrSolver qr) ∧ 0 < anySettings.errorThresh ∧ anySettings.params.Valid ∧ 2 ≤ threeSeen.length ∧
    SamplesOf 2 threeSeen.length (fun _ => some [0, 1]) ∧ Drawn threeSeen (fun _ => some [0, 1]) 0 [((0, 0), ⟨0, 0, 1⟩), ((1, 0), ⟨1, 0, 1⟩)] ∧
    (∀ c ∈ threeSeen, (worldRay (AngleAxis.toM ⟨0, 0, 0⟩) c.1).z ≠ 0 ∧
      ∃ depth, depth ≠ 0 ∧ OnSight (AngleAxis.toM ⟨0, 0, 0⟩) ⟨0, 0, 0⟩ c depth) := by
  refine ⟨exists_qrSolver, anySettings_valid.2.1, anySettings_valid.2.2, by simp [threeSeen], ?_, ⟨_, rfl, by simp [Picked, threeSeen]⟩, ?_⟩
  · rintro i idx h
    cases h
    simp [threeSeen]
  · have : AngleAxis.toM (⟨0, 0, 0⟩ : V3 ℝ) = M3.one := AngleAxis.toM_zero
    rw [this]
    exact threeSeen_sight

/-- C91: points behind the camera are inliers. Here the camera is at the origin, with the axes of the world. The third point is behind it, where
its line of sight meets the feature. The position of the camera is found, and the point is an inlier. -/
theorem C91_known_behind_counterexample {qr : List (V3 ℝ) → Nat × (List ℝ → V3 ℝ)} (hq : QrSolver qr)
    (junk : List (Option (ℝ × ℝ) × V3 ℝ) → Bool) {t : RansacType} {s : Settings} (ht : t ≠ .lmed) (hpos : 0 < s.errorThresh)
    (hp : s.params.Valid) (hmin : 0 < s.params.minIterations) (lmed : List (WithTop ℝ) → WithTop ℝ × List Nat)
    (initial : Option (V3 ℝ)) :
    ∃ cs : List Corr, cs[2]? = some ((0, 1), ⟨0, -1, -1⟩) ∧
      ∃ sum, estimateKnown qr junk t s lmed (fun _ => some [0, 1]) ⟨0, 0, 0⟩ cs initial = .ok (some ⟨0, 0, 0⟩, sum) ∧ 2 ∈ sum.inliers := by
  have h0 : AngleAxis.toM (⟨0, 0, 0⟩ : V3 ℝ) = M3.one := AngleAxis.toM_zero
  obtain ⟨sum, h1, h2⟩ := C91_known_orientation_exact hq junk ht hpos hp lmed ⟨0, 0, 0⟩ threeSeen (by simp [threeSeen])
    (fun _ => some [0, 1]) (by rintro i idx h; cases h; simp [threeSeen]) initial ⟨0, 0, 0⟩ (by rw [h0]; exact threeSeen_sight) 0
    (by exact_mod_cast hmin) ((0, 0), ⟨0, 0, 1⟩) ((1, 0), ⟨1, 0, 1⟩) ⟨_, rfl, by simp [Picked, threeSeen]⟩ (by simp)
  exact ⟨threeSeen, rfl, sum, h1, (h2 2).2 (by simp [threeSeen])⟩

/-- The rotation of a camera that looks along the first axis of the world, with the third axis of the world as the second of the image. -/
private def sideways : M3 ℝ := ⟨⟨0, 1, 0⟩, ⟨0, 0, 1⟩, ⟨1, 0, 0⟩⟩

private theorem sideways_rotation : sideways.IsRotation := by
  constructor <;> simp [sideways, M3.transpose, M3.mul, M3.mulVec, M3.det, V3.dot, V3.cross, M3.one]

private theorem sideways_ray (f : ℝ × ℝ) : worldRay sideways f = ⟨1, f.1, f.2⟩ := by
  simp [worldRay, sideways, M3.transpose, M3.mulVec, V3.dot]

/-- C91: a camera that looks along a horizontal axis loses the features on the horizon. Here it is at the origin and sees three points in front
of it, exactly at the features, but whatever is drawn there are no inliers: the rays are divided by their third coordinate in the world. -/
theorem C91_horizon_counterexample {qr : List (V3 ℝ) → Nat × (List ℝ → V3 ℝ)} (hq : QrSolver qr)
    (junk : List (Option (ℝ × ℝ) × V3 ℝ) → Bool) :
    ∃ (orientation : V3 ℝ) (cs : List Corr), cs.length = 3 ∧ (cs.map Prod.fst).Nodup ∧
      (∀ c ∈ cs, ∃ depth, 0 < depth ∧ OnSight (AngleAxis.toM orientation) ⟨0, 0, 0⟩ c depth) ∧
      ∀ (t : RansacType) (s : Settings) (lmed : List (WithTop ℝ) → WithTop ℝ × List Nat) (sample : Nat → Option (List Nat))
        (initial : Option (V3 ℝ)), t ≠ .lmed → 0 < s.errorThresh → s.params.Valid → SamplesOf 2 3 sample →
        ∃ m sum, estimateKnown qr junk t s lmed sample orientation cs initial = .ok (m, sum) ∧ sum.inliers = [] := by
  obtain ⟨ofM, hlog⟩ := AngleAxis.exists_isLog
  have hR := (hlog sideways sideways_rotation).1
  refine ⟨ofM sideways, [((0, 0), ⟨1, 0, 0⟩), ((1, 0), ⟨1, 1, 0⟩), ((2, 0), ⟨2, 4, 0⟩)], rfl, by simp, ?_,
    fun t s lmed sample initial ht hpos hp hs => ?_⟩
  · rw [hR]
    simp only [List.forall_mem_cons, OnSight]
    refine ⟨⟨1, by norm_num, ?_⟩, ⟨1, by norm_num, ?_⟩, ⟨2, by norm_num, ?_⟩, by simp⟩ <;>
      norm_num [sideways, M3.mulVec, V3.dot, V3.sub, V3.smul]
  · obtain ⟨m, sum, hr, -, -, -, -, -, hin⟩ := C91_known_orientation_partial hq junk ht hpos hp lmed (ofM sideways)
      [((0, 0), ⟨1, 0, 0⟩), ((1, 0), ⟨1, 1, 0⟩), ((2, 0), ⟨2, 4, 0⟩)] (by simp) sample hs initial sideways hR.symm
    refine ⟨m, sum, hr, List.eq_nil_iff_forall_not_mem.2 fun j hj => ?_⟩
    obtain ⟨c, hc, p, -, hz, -⟩ := (hin j).1 hj
    rw [sideways_ray] at hz
    have := List.mem_of_getElem? hc
    simp only [List.mem_cons, List.not_mem_nil, or_false] at this
    rcases this with rfl | rfl | rfl <;> simp at hz

/-- C91: the threshold is not one for the image. The same camera; the position is found, the third feature is within a thousandth of the image of
its point, but it is an inlier only if the threshold is above 250000. -/
theorem C91_known_units_counterexample {qr : List (V3 ℝ) → Nat × (List ℝ → V3 ℝ)} (hq : QrSolver qr)
    (junk : List (Option (ℝ × ℝ) × V3 ℝ) → Bool) :
    ∃ (orientation : V3 ℝ) (cs : List Corr) (c : Corr), cs[2]? = some c ∧
      reprojectionSq (AngleAxis.toM orientation) ⟨0, 0, 0⟩ c = (1 / 1000) ^ 2 ∧
      0 < ((AngleAxis.toM orientation).mulVec (c.2.sub ⟨0, 0, 0⟩)).z ∧
      ∀ (t : RansacType) (s : Settings) (lmed : List (WithTop ℝ) → WithTop ℝ × List Nat) (initial : Option (V3 ℝ)), t ≠ .lmed →
        0 < s.errorThresh → s.params.Valid → 0 < s.params.minIterations →
        ∃ sum, estimateKnown qr junk t s lmed (fun _ => some [0, 1]) orientation cs initial = .ok (some ⟨0, 0, 0⟩, sum) ∧
          (2 ∈ sum.inliers ↔ 250000 < s.errorThresh) := by
  obtain ⟨ofM, hlog⟩ := AngleAxis.exists_isLog
  have hR := (hlog sideways sideways_rotation).1
  refine ⟨ofM sideways, [((0, 1), ⟨2, 0, 2⟩), ((1, 1), ⟨1, 1, 1⟩), ((0, 1 / 500), ⟨1, 0, 1 / 1000⟩)], ((0, 1 / 500), ⟨1, 0, 1 / 1000⟩), rfl, ?_, ?_,
    fun t s lmed initial ht hpos hp hmin => ?_⟩
  · rw [hR]
    norm_num [reprojectionSq, distanceSq, dehomogenised, sideways, M3.mulVec, V3.dot, V3.sub]
  · rw [hR]
    norm_num [sideways, M3.mulVec, V3.dot, V3.sub]
  · obtain ⟨m, sum, hr, h1, -, hRR⟩ := C91_known_orientation_partial hq junk ht hpos hp lmed (ofM sideways)
      [((0, 1), ⟨2, 0, 2⟩), ((1, 1), ⟨1, 1, 1⟩), ((0, 1 / 500), ⟨1, 0, 1 / 1000⟩)] (by simp)
      (fun _ => some [0, 1]) (by rintro i idx h; cases h; simp) initial sideways hR.symm
    have hsee : ∀ c ∈ [(((0, 1), ⟨2, 0, 2⟩) : Corr), ((1, 1), ⟨1, 1, 1⟩)], (worldRay sideways c.1).z ≠ 0 ∧
        ∃ depth, OnSight sideways ⟨0, 0, 0⟩ c depth := by
      simp only [List.forall_mem_cons, OnSight, sideways_ray]
      refine ⟨⟨by norm_num, 2, ?_⟩, ⟨by norm_num, 1, ?_⟩, by simp⟩ <;> norm_num [sideways, M3.mulVec, V3.dot, V3.sub, V3.smul]
    obtain ⟨⟨i, -, ds, ⟨idx, hidx, hpick⟩, hc⟩, -⟩ := hRR.2.1 0 (by omega) [((0, 1), ⟨2, 0, 2⟩), ((1, 1), ⟨1, 1, 1⟩)] (some ⟨0, 0, 0⟩)
      ⟨_, rfl, by simp [Picked]⟩ ⟨_, _, _, rfl, rfl, by simp, hsee⟩
    cases hidx
    have hds : ds = [((0, 1), ⟨2, 0, 2⟩), ((1, 1), ⟨1, 1, 1⟩)] := by
      simp only [Picked, List.forall₂_cons_left_iff, List.forall₂_nil_left_iff] at hpick
      obtain ⟨a, l, ha, ⟨b, l', hb, rfl, rfl⟩, rfl⟩ := hpick
      simp at ha hb
      rw [ha, hb]
    subst hds
    have hm := known_unique hq sideways_rotation hsee hc
    subst hm
    refine ⟨sum, hr, ?_⟩
    rw [hRR.2.2.2 2]
    have e : worldPlaneSq sideways ⟨0, 0, 0⟩ ((0, 1 / 500), ⟨1, 0, 1 / 1000⟩) = 250000 := by
      norm_num [worldPlaneSq, sideways_ray, distanceSq, dehomogenised, V3.sub]
    constructor
    · rintro ⟨c, hc, p, hp', -, -, h⟩
      cases hp'
      simp at hc
      subst hc
      have e' := e
      simp only [one_div] at e'
      rwa [e'] at h
    · intro h
      refine ⟨_, rfl, _, rfl, ?_, ?_, ?_⟩
      · rw [sideways_ray]; norm_num
      · norm_num [V3.sub]
      · rw [e]; exact h

/-! ## Calibrated cameras -/

/-- The point has an image, and the squared distance of the feature from it is below the threshold. -/
def CloseInImage (t : ℝ) (m : M3 ℝ × V3 ℝ) (c : Corr) : Prop :=
  (m.1.mulVec (c.2.sub m.2)).z ≠ 0 ∧ reprojectionSq m.1 m.2 c < t

/-- What is known of a pose computed from a sample: a rotation and a position from which the first two points are on the lines of sight of
their features, one of them not behind the camera. It may not be a number. -/
def TwoOnSight (ds : List Corr) (m : Option (M3 ℝ × V3 ℝ)) : Prop :=
  m = none ∨ ∃ R p a b c l0 l1, m = some (R, p) ∧ ds = [a, b, c] ∧ R.IsRotation ∧ (0 ≤ l0 ∨ 0 ≤ l1) ∧ OnSight R p a l0 ∧
    OnSight R p b l1

/-- A pose from which the three points of the sample are seen. The rays are not in a plane, the points not nearly on a line, the rays
have no right angle at the first, and the foot of the third point on the plane of the camera and the others is not on their circle. -/
def SeesThree (ds : List Corr) (m : Option (M3 ℝ × V3 ℝ)) : Prop :=
  ∃ R p a b c, m = some (R, p) ∧ ds = [a, b, c] ∧ R.IsRotation ∧ (∀ d ∈ ds, ∃ depth, 0 < depth ∧ OnSight R p d depth) ∧
    rayVolume ![a.1, b.1, c.1] ≠ 0 ∧ WideTriangle a.2 b.2 c.2 ∧
    ¬ RightAngleAt (rayOf (![a.1, b.1, c.1] (firstRay ![a.1, b.1, c.1]))) (rayOf (![a.1, b.1, c.1] (secondRay ![a.1, b.1, c.1])))
      (rayOf c.1) ∧
    ¬ FootOnCircle (R.mulVec (a.2.sub p)) (R.mulVec (b.2.sub p)) (R.mulVec (c.2.sub p))

private theorem eventually_forall {α : Type} {Q : α → Nat → Prop} : ∀ (l : List α), (∀ a ∈ l, ∃ N, ∀ n ≥ N, Q a n) →
    ∃ N, ∀ a ∈ l, ∀ n ≥ N, Q a n
  | [], _ => ⟨0, fun a ha => by cases ha⟩
  | a :: l, h => by
    obtain ⟨N, hN⟩ := h a (by simp)
    obtain ⟨M, hM⟩ := eventually_forall l fun b hb => h b (by simp [hb])
    refine ⟨max N M, fun b hb n hn => ?_⟩
    rcases List.mem_cons.1 hb with rfl | hb
    · exact hN n (le_trans (le_max_left _ _) hn)
    · exact hM b hb n (le_trans (le_max_right _ _) hn)

private theorem moved (R : M3 ℝ) (p x : V3 ℝ) : (R.mulVec x).add (R.mulVec p).neg = R.mulVec (x.sub p) := by
  apply V3.ext <;> simp only [M3.mulVec, V3.dot, V3.add, V3.neg, V3.sub] <;> ring

private theorem coplanar_ub {find : List ℝ → Option (List ℝ)} {f : Fin 3 → ℝ × ℝ} {x : Fin 3 → V3 ℝ} (hv : rayVolume f = 0) :
    ThreePointPose.solve find f x = .ok (false, none) ∨ ThreePointPose.solve find f x = .ub := by
  have hz : ((ThreePointPose.frame (TwoPointPose.normalized (ThreePointPose.homogeneous (f 0)))
      (TwoPointPose.normalized (ThreePointPose.homogeneous (f 1)))).mulVec
        (TwoPointPose.normalized (ThreePointPose.homogeneous (f 2)))).z = 0 := by
    have key : ∀ v : V3 ℝ, ∃ k, TwoPointPose.normalized v = v.smul k := by
      intro v
      unfold TwoPointPose.normalized
      split
      · exact ⟨1, by apply V3.ext <;> simp [V3.smul]⟩
      · exact ⟨_, rfl⟩
    obtain ⟨k0, e0⟩ := key (ThreePointPose.homogeneous (f 0))
    obtain ⟨k1, e1⟩ := key (ThreePointPose.homogeneous (f 1))
    obtain ⟨k2, e2⟩ := key (ThreePointPose.homogeneous (f 2))
    rw [e0, e1, e2]
    simp only [ThreePointPose.frame, M3.mulVec]
    obtain ⟨k, e⟩ := key ((V3.smul k0 (ThreePointPose.homogeneous (f 0))).cross (V3.smul k1 (ThreePointPose.homogeneous (f 1))))
    rw [e]
    have : k * k0 * k1 * k2 * rayVolume f = 0 := by rw [hv, mul_zero]
    rw [← this]
    simp only [rayVolume, rayOf, ThreePointPose.homogeneous, V3.dot, V3.cross, V3.smul]
    ring
  unfold ThreePointPose.solve
  simp only
  split
  · exact .inl rfl
  · right
    rw [if_neg (by rw [hz]; exact lt_irrefl _)]
    unfold ThreePointPose.core
    simp only
    rw [if_pos hz]

private theorem calibrated_lt (m : Option (M3 ℝ × V3 ℝ)) (t : ℝ) (c : Corr) :
    (calibratedError c m < (t : WithTop ℝ) ↔ ∃ p, m = some p ∧ CloseInImage t p c) ∧
      ∀ p, m = some p → CloseInImage t p c → calibratedError c m = ((reprojectionSq p.1 p.2 c : ℝ) : WithTop ℝ) := by
  cases m with
  | none => simp [calibratedError]
  | some p =>
    simp only [calibratedError, CloseInImage, Option.some.injEq]
    by_cases h : (p.1.mulVec (c.2.sub p.2)).z = 0
    · simp [hnormalized, h, squaredDistance]
    · rw [hnormalized_of h, squared_some, WithTop.coe_lt_coe]
      refine ⟨⟨fun h' => ⟨p, rfl, h, h'⟩, ?_⟩, ?_⟩
      · rintro ⟨q, rfl, -, h'⟩
        exact h'
      · rintro q rfl -
        rfl

/-- The full claim of C91 is that the inliers are the correspondences whose squared reprojection error is below the threshold, with the points
in front of the camera. Proved, with enough steps for the root finder: the pose found is a rotation and a position from which two of the points are
on their lines of sight; no pose from which the points of a drawn sample are seen, except for some positions, has a lower cost; the inliers
are exactly the correspondences whose squared reprojection error is below the threshold. Missing: points behind the camera are not excluded;
the exceptions; the result may not be a number. -/
theorem C91_calibrated_partial {infExp : ℤ} (hinf : infExp.tdiv 2 = 0) {eig : (n : Nat) → Matrix (Fin n) (Fin n) ℝ → Option (List ℂ)}
    (heig : EigenvalueSolver eig) (hok : ∀ n A, (eig n A).isSome) (junk : List Corr → Bool) {t : RansacType} {s : Settings}
    (hv : ValidSettings t s) (lmed : List (WithTop ℝ) → WithTop ℝ × List Nat) (cs : List Corr) (h3 : 3 ≤ cs.length)
    (sample : Nat → Option (List Nat)) (hs : SamplesOf 3 cs.length sample) (initial : Option (M3 ℝ × V3 ℝ)) :
    ∃ N, ∀ fuel ≥ N, ∃ m sum, estimateCalibrated (realParts infExp eig fuel) junk t s lmed sample cs initial = .ok (m, sum) ∧
      s.params.minIterations ≤ sum.numIterations ∧ (sum.numIterations : Int) ≤ max 0 s.params.maxIterations ∧
      RobustResult cs sample sum.numIterations TwoOnSight SeesThree
        (fun m c => ∃ p, m = some p ∧ CloseInImage s.errorThresh p c)
        (fun m => robustCost s.useMle s.errorThresh (fun c => ∃ p, m = some p ∧ CloseInImage s.errorThresh p c)
          (fun c => m.elim 0 fun p => reprojectionSq p.1 p.2 c) cs) initial m sum.inliers := by
  obtain ⟨ht, hpos, hp⟩ := hv
  have hN : ∃ N, ∀ a ∈ cs, ∀ fuel ≥ N, ∀ b ∈ cs, ∀ c ∈ cs, ∀ R p, SeesThree [a, b, c] (some (R, p)) →
      ∃ sols, ThreePointPose.solve (realParts infExp eig fuel) ![a.1, b.1, c.1] ![a.2, b.2, c.2] = .ok (true, some sols) ∧
        some (R, (R.mulVec p).neg) ∈ sols := by
    have h1 : ∀ a ∈ cs, ∀ b ∈ cs, ∀ c ∈ cs, ∃ N, ∀ fuel ≥ N, ∀ R p, SeesThree [a, b, c] (some (R, p)) →
        ∃ sols, ThreePointPose.solve (realParts infExp eig fuel) ![a.1, b.1, c.1] ![a.2, b.2, c.2] = .ok (true, some sols) ∧
          some (R, (R.mulVec p).neg) ∈ sols := by
      intro a _ b _ c _
      by_cases h : ∃ R p, SeesThree [a, b, c] (some (R, p))
      · obtain ⟨R, p, R', p', a', b', c', e1, e2, -, -, hvol, hwide, -⟩ := h
        simp only [List.cons.injEq, and_true] at e2
        obtain ⟨rfl, rfl, rfl⟩ := e2
        obtain ⟨N, sols, hN, -, hall⟩ := C76_complete hinf heig hok ![a.1, b.1, c.1] ![a.2, b.2, c.2] hvol (by
          have : ThreePointPose.tolerance = 1 / 1000000 := by norm_num [ThreePointPose.tolerance]
          rw [this]
          exact hwide)
        refine ⟨N, fun fuel hf R p hsee => ⟨sols, hN fuel hf, ?_⟩⟩
        obtain ⟨R', p', a', b', c', e1, e2, hrot, hsight, -, -, hang, hfoot⟩ := hsee
        simp only [Option.some.injEq, Prod.mk.injEq] at e1
        simp only [List.cons.injEq, and_true] at e2
        obtain ⟨rfl, rfl⟩ := e1
        obtain ⟨rfl, rfl, rfl⟩ := e2
        refine hall R _ ⟨hrot, fun i => ?_⟩ hang ?_
        · have : ∀ d ∈ [a, b, c], SeesPoint R (R.mulVec p).neg d.1 d.2 := by
            intro d hd
            obtain ⟨l, hl, h⟩ := hsight d hd
            exact ⟨l, hl, (moved R p d.2).trans h⟩
          fin_cases i
          · exact this a (by simp)
          · exact this b (by simp)
          · exact this c (by simp)
        · rw [moved, moved, moved]
          exact hfoot
      · exact ⟨0, fun fuel _ R p hsee => absurd ⟨R, p, hsee⟩ h⟩
    have h3 : ∀ a ∈ cs, ∃ N, ∀ fuel ≥ N, ∀ b ∈ cs, ∀ c ∈ cs, ∀ R p, SeesThree [a, b, c] (some (R, p)) →
        ∃ sols, ThreePointPose.solve (realParts infExp eig fuel) ![a.1, b.1, c.1] ![a.2, b.2, c.2] = .ok (true, some sols) ∧
          some (R, (R.mulVec p).neg) ∈ sols := by
      intro a ha
      have := eventually_forall (Q := fun b fuel => ∀ c ∈ cs, ∀ R p, SeesThree [a, b, c] (some (R, p)) →
        ∃ sols, ThreePointPose.solve (realParts infExp eig fuel) ![a.1, b.1, c.1] ![a.2, b.2, c.2] = .ok (true, some sols) ∧
          some (R, (R.mulVec p).neg) ∈ sols) cs fun b hb => by
        obtain ⟨N, hN⟩ := eventually_forall cs (h1 a ha b hb)
        exact ⟨N, fun fuel hf c hc => hN c hc fuel hf⟩
      obtain ⟨N, hN⟩ := this
      exact ⟨N, fun fuel hf b hb => hN b hb fuel hf⟩
    exact eventually_forall cs h3
  obtain ⟨N, hN⟩ := hN
  refine ⟨N, fun fuel hf => robust_result (residual := fun m c => m.elim 0 fun p => reprojectionSq p.1 p.2 c)
    (by rcases ht with rfl | rfl <;> decide) (by rcases ht with rfl | rfl <;> simp) hpos hp lmed hs _ (by norm_num) h3
    calibratedError initial ?_ (fun m c => (calibrated_lt m _ c).1) ?_ ?_⟩
  · intro ds ms m hlen he hm
    obtain ⟨a, b, c, rfl⟩ := List.length_eq_three.1 hlen
    simp only [calibratedModels] at he
    split at he
    · next sols hsol =>
      cases he
      obtain ⟨o, ho, rfl⟩ := List.mem_map.1 hm
      cases o with
      | none => exact .inl rfl
      | some q =>
        obtain ⟨R, tr⟩ := q
        have hvol : rayVolume ![a.1, b.1, c.1] ≠ 0 := by
          intro h0
          rcases coplanar_ub (find := realParts infExp eig fuel) (x := ![a.2, b.2, c.2]) h0 with h | h <;> rw [h] at hsol <;> simp at hsol
        obtain ⟨hrot, l0, l1, hl, e0, e1⟩ := C76_first_two _ _ _ hvol _ _ hsol R tr ho
        have hback : ∀ x : V3 ℝ, R.mulVec (x.sub ((R.transpose.mulVec tr).neg)) = (R.mulVec x).add tr := by
          intro x
          rw [← moved]
          congr 1
          have : R.mulVec (R.transpose.mulVec tr).neg = (R.mulVec (R.transpose.mulVec tr)).neg := by
            apply V3.ext <;> simp only [M3.mulVec, V3.dot, V3.neg] <;> ring
          rw [this, hrot.mulVec_transpose]
          apply V3.ext <;> simp [V3.neg]
        exact .inr ⟨R, _, a, b, c, l0, l1, rfl, rfl, hrot, hl, (hback _).trans e0, (hback _).trans e1⟩
    · cases he
    · split at he
      · cases he
        exact .inl (List.mem_singleton.1 hm)
      · cases he
  · rintro m c ⟨p, rfl, h⟩
    exact (calibrated_lt (some p) _ c).2 p rfl h
  · rintro ds m hsee - hmem
    obtain ⟨R, p, a, b, c, rfl, rfl, hrot, -⟩ := id hsee
    obtain ⟨sols, hsol, hin⟩ := hN a (hmem a (by simp)) fuel hf b (hmem b (by simp)) c (hmem c (by simp)) R p hsee
    refine ⟨sols.map (Option.map fun p => (p.1, (p.1.transpose.mulVec p.2).neg)), some (R, p), ?_, List.mem_map.2 ⟨_, hin, ?_⟩,
      fun _ => rfl⟩
    · simp only [calibratedModels]
      rw [hsol]
    · simp only [Option.map_some, Option.some.injEq, Prod.mk.injEq, true_and]
      have : R.transpose.mulVec (R.mulVec p).neg = (R.transpose.mulVec (R.mulVec p)).neg := by
        apply V3.ext <;> simp only [M3.mulVec, V3.dot, V3.neg] <;> ring
      rw [this, hrot.transpose_mulVec]
      apply V3.ext <;> simp [V3.neg]

/-- Three points in front of a camera at the origin and one behind it. -/
private def fourSeen : List Corr := [((0, 0), ⟨0, 0, 1⟩), ((1, 0), ⟨1, 0, 1⟩), ((1, -1), ⟨2, -2, 2⟩), ((0, 1), ⟨0, -1, -1⟩)]

private theorem fourSeen_sees : SeesThree [((0, 0), ⟨0, 0, 1⟩), ((1, 0), ⟨1, 0, 1⟩), ((1, -1), ⟨2, -2, 2⟩)] (some (M3.one, ⟨0, 0, 0⟩)) := by
  have hv : rayVolume ![(0, 0), (1, 0), (1, -1)] = -1 := by
    simp [rayVolume, rayOf, V3.cross, V3.dot]
  refine ⟨M3.one, ⟨0, 0, 0⟩, _, _, _, rfl, rfl, M3.IsRotation.one, ?_, by rw [hv]; norm_num, ?_, ?_, ?_⟩
  · simp only [List.forall_mem_cons, OnSight, M3.one_mulVec]
    refine ⟨⟨1, by norm_num, ?_⟩, ⟨1, by norm_num, ?_⟩, ⟨2, by norm_num, ?_⟩, by simp⟩ <;> norm_num [V3.sub, V3.smul]
  · norm_num [WideTriangle, V3.sub, V3.cross, V3.dot]
  · rw [firstRay, secondRay, hv, if_neg (by norm_num), if_neg (by norm_num)]
    simp [RightAngleAt, rayOf, V3.cross, V3.dot]
  · rw [M3.one_mulVec, M3.one_mulVec, M3.one_mulVec]
    rintro ⟨s, t, u, v, h1, h2, h3, h4, h5⟩
    simp [V3.add, V3.smul, V3.sub, V3.dot] at h1 h2 h3 h4 h5
    have hv : v = 2 := by linarith
    have hu : u = 0 := by linarith
    subst hv hu
    nlinarith

/-- The hypotheses of `C91_calibrated_partial` hold for these correspondences, and the first three are a sample of the camera. -/
example : (0 : ℤ).tdiv 2 = 0 ∧ (∃ eig, EigenvalueSolver eig ∧ ∀ n A, (eig n A).isSome) ∧ ValidSettings .ransac anySettings ∧
    3 ≤ fourSeen.length ∧ SamplesOf 3 fourSeen.length (fun _ => some [0, 1, 2]) ∧
    ∃ ds, Drawn fourSeen (fun _ => some [0, 1, 2]) 0 ds ∧ SeesThree ds (some (M3.one, ⟨0, 0, 0⟩)) := by
  refine ⟨rfl, exists_eigenvalueSolver, anySettings_valid, by simp [fourSeen], ?_, _, ⟨_, rfl, ?_⟩, fourSeen_sees⟩
  · rintro i idx h
    cases h
    simp [fourSeen]
  · simp [Picked, fourSeen]

/-- C91: points behind the camera are inliers. The first three points are in front of a camera at the origin with the axes of the world, at their
features; the fourth is behind it, where its line of sight meets the feature. All four are inliers. -/
theorem C91_calibrated_behind_counterexample {infExp : ℤ} (hinf : infExp.tdiv 2 = 0)
    {eig : (n : Nat) → Matrix (Fin n) (Fin n) ℝ → Option (List ℂ)} (heig : EigenvalueSolver eig) (hok : ∀ n A, (eig n A).isSome)
    (junk : List Corr → Bool) {t : RansacType} {s : Settings} (hv : ValidSettings t s) (hmin : 0 < s.params.minIterations)
    (lmed : List (WithTop ℝ) → WithTop ℝ × List Nat) (initial : Option (M3 ℝ × V3 ℝ)) :
    ∃ cs : List Corr, cs.length = 4 ∧ cs[3]? = some ((0, 1), ⟨0, -1, -1⟩) ∧
      (∀ c ∈ cs.take 3, ∃ depth, 0 < depth ∧ OnSight M3.one ⟨0, 0, 0⟩ c depth) ∧
      ∃ N, ∀ fuel ≥ N, ∃ m sum,
        estimateCalibrated (realParts infExp eig fuel) junk t s lmed (fun _ => some [0, 1, 2]) cs initial = .ok (m, sum) ∧
        ∀ j, j ∈ sum.inliers ↔ j < 4 := by
  refine ⟨fourSeen, rfl, rfl, ?_, ?_⟩
  · obtain ⟨R, p, a, b, c, e, -, -, h, -⟩ := fourSeen_sees
    cases e
    exact h
  · obtain ⟨N, hN⟩ := C91_calibrated_partial hinf heig hok junk hv lmed fourSeen (by simp [fourSeen]) (fun _ => some [0, 1, 2])
      (by rintro i idx h; cases h; simp [fourSeen]) initial
    refine ⟨N, fun fuel hf => ?_⟩
    obtain ⟨m, sum, hr, h1, -, hR⟩ := hN fuel hf
    refine ⟨m, sum, hr, C90_all_inliers hv.2.1 hR ?_ (i := 0) (by omega) ⟨_, rfl, by simp [Picked, fourSeen]⟩ fourSeen_sees ?_⟩
    · rintro m d ⟨q, rfl, -⟩
      simp only [Option.elim, reprojectionSq, distanceSq]
      positivity
    · have : ∀ c ∈ fourSeen, CloseInImage s.errorThresh (M3.one, ⟨0, 0, 0⟩) c ∧ reprojectionSq M3.one ⟨0, 0, 0⟩ c = 0 := by
        have hp := hv.2.1
        simp only [fourSeen, List.forall_mem_cons, CloseInImage, reprojectionSq, M3.one_mulVec]
        norm_num [V3.sub, distanceSq, dehomogenised, hp]
      exact fun c hc => ⟨⟨_, rfl, (this c hc).1⟩, (this c hc).2⟩

/-! ## Uncalibrated cameras -/

/-- The projection matrix is one of those the solver finds for the sample. -/
def ProjectionOf (fourPoint : List V2 → List (V3 ℝ) → List P34) (ds : List Corr) (P : P34) : Prop :=
  P ∈ fourPoint (ds.map Prod.fst) (ds.map Prod.snd)

/-- The squared distance of the feature from the image of the point under a projection matrix. -/
noncomputable def projectionSq (P : P34) (c : Corr) : ℝ := distanceSq (dehomogenised ((P.1.mulVec c.2).add P.2)) c.1

/-- The point has an image, and the squared distance is below the threshold. -/
def CloseUnder (t : ℝ) (P : P34) (c : Corr) : Prop := ((P.1.mulVec c.2).add P.2).z ≠ 0 ∧ projectionSq P c < t

/-- The projection matrix is, up to a factor, that of a camera with the focal length `f`, the rotation `R` and the position `p`. -/
def IsProjectionOf (P : P34) (f : ℝ) (R : M3 ℝ) (p : V3 ℝ) : Prop :=
  ∃ l : ℝ, l ≠ 0 ∧ ∀ X, (P.1.mulVec X).add P.2 =
    (⟨f * (R.mulVec (X.sub p)).x, f * (R.mulVec (X.sub p)).y, (R.mulVec (X.sub p)).z⟩ : V3 ℝ).smul l

private theorem matrix_ext {P Q : P34} (h : ∀ X, (P.1.mulVec X).add P.2 = (Q.1.mulVec X).add Q.2) : P = Q := by
  obtain ⟨⟨⟨a, b, c⟩, ⟨d, e, f⟩, ⟨g, i, j⟩⟩, ⟨k, l, m⟩⟩ := P
  obtain ⟨⟨⟨a', b', c'⟩, ⟨d', e', f'⟩, ⟨g', i', j'⟩⟩, ⟨k', l', m'⟩⟩ := Q
  have h0 := h ⟨0, 0, 0⟩
  have h1 := h ⟨1, 0, 0⟩
  have h2 := h ⟨0, 1, 0⟩
  have h3 := h ⟨0, 0, 1⟩
  simp [M3.mulVec, V3.dot, V3.add] at h0 h1 h2 h3
  obtain ⟨rfl, rfl, rfl⟩ := h0
  simp at h1 h2 h3
  simp [h1, h2, h3]

/-- C91: the projection matrix is one that the solver found for four of the correspondences, and none of those it found for the samples has a lower
cost; the inliers are exactly the correspondences whose squared reprojection error is below the threshold; and if it is the projection matrix of a
camera with a focal length, this focal length and the pose of the camera are returned. -/
theorem C91_uncalibrated (fourPoint : List V2 → List (V3 ℝ) → List P34) {qr svd : M3 ℝ → M3 ℝ × M3 ℝ} {ofM : M3 ℝ → V3 ℝ}
    (hqr : ProjectionMatrix.QrCorrect qr) (hsvd : ProjectionMatrix.SvdCorrectOnRotations svd) (hlog : AngleAxis.IsLog ofM) {t : RansacType} {s : Settings}
    (hv : ValidSettings t s) (lmed : List (WithTop ℝ) → WithTop ℝ × List Nat) (cs : List Corr) (h4 : 4 ≤ cs.length)
    (sample : Nat → Option (List Nat)) (hs : SamplesOf 4 cs.length sample) (initial : P34) (uninitialised : UncalibratedPose) :
    ∃ P pose sum, estimateUncalibrated fourPoint qr svd ofM t s lmed sample cs initial uninitialised = .ok (pose, sum) ∧
      s.params.minIterations ≤ sum.numIterations ∧ (sum.numIterations : Int) ≤ max 0 s.params.maxIterations ∧
      RobustResult cs sample sum.numIterations (ProjectionOf fourPoint) (ProjectionOf fourPoint) (CloseUnder s.errorThresh)
        (fun P => robustCost s.useMle s.errorThresh (CloseUnder s.errorThresh P) (projectionSq P) cs) initial P sum.inliers ∧
      ∀ f R p, 0 < f → R.IsRotation → IsProjectionOf P f R p → pose = ⟨R, p, f⟩ := by
  obtain ⟨ht, hpos, hp⟩ := hv
  have htl : t ≠ .lmed := by rcases ht with rfl | rfl <;> decide
  have htx : t ≠ .exhaustive := by rcases ht with rfl | rfl <;> decide
  have happ : ∀ (P : P34) (X : V3 ℝ), applyP P (X, 1) = (P.1.mulVec X).add P.2 := by
    intro P X
    unfold applyP
    congr 1
    apply V3.ext <;> simp [V3.smul]
  obtain ⟨P, sum, hr, h1, h2, hR⟩ := robust_result (residual := projectionSq) (fits := CloseUnder s.errorThresh)
    (computed := ProjectionOf fourPoint) (expected := ProjectionOf fourPoint) htl (fun h => absurd h htx)
    hpos hp lmed hs (uncalibratedModels fourPoint) (by norm_num) h4 uncalibratedError initial
    (by
      intro ds ms P hlen he hm
      simp only [uncalibratedModels] at he
      split at he
      · cases he
        exact hm
      · cases he)
    (by
      intro P c
      simp only [uncalibratedError, happ, CloseUnder]
      by_cases h : ((P.1.mulVec c.2).add P.2).z = 0
      · simp [hnormalized, h, squaredDistance]
      · rw [hnormalized_of h, squared_some, WithTop.coe_lt_coe]
        exact ⟨fun h' => ⟨h, h'⟩, fun h' => h'.2⟩)
    (by
      rintro P c ⟨h, -⟩
      simp only [uncalibratedError, happ]
      rw [hnormalized_of h, squared_some]
      rfl)
    (by
      rintro ds P hm - -
      refine ⟨_, P, ?_, hm, fun _ => rfl⟩
      simp only [uncalibratedModels]
      exact if_pos (List.length_pos_of_mem hm))
  refine ⟨P, recoverPose qr svd ofM uninitialised P, sum, ?_, h1, h2, hR, fun f R p hf hrot hP => ?_⟩
  · unfold estimateUncalibrated
    rw [hr]
    rfl
  · obtain ⟨l, hl, hX⟩ := hP
    have hRo : AngleAxis.toM (ofM R) = R := (hlog R hrot).1
    have hK : CalibrationMatrix (⟨⟨f, 0, 0⟩, ⟨0, f, 0⟩, ⟨0, 0, 1⟩⟩ : M3 ℝ) := ⟨⟨rfl, rfl, rfl⟩, hf, hf, one_pos⟩
    obtain ⟨r', hd, hr'⟩ := ProjectionMatrix.C58_round_trip hqr hsvd hlog hK (ofM R) p hl
    have hPeq : P = (ProjectionMatrix.scale l (ProjectionMatrix.compose ⟨⟨f, 0, 0⟩, ⟨0, f, 0⟩, ⟨0, 0, 1⟩⟩ (ofM R) p).1,
        (ProjectionMatrix.compose ⟨⟨f, 0, 0⟩, ⟨0, f, 0⟩, ⟨0, 0, 1⟩⟩ (ofM R) p).2.smul l) := by
      apply matrix_ext
      intro X
      have h0 := ProjectionMatrix.C58_compose ⟨⟨f, 0, 0⟩, ⟨0, f, 0⟩, ⟨0, 0, 1⟩⟩ (ofM R) p X 1
      rw [V3.one_smul', V3.one_smul', V3.one_smul', hRo] at h0
      have e : ∀ (A : M3 ℝ) (b : V3 ℝ), ((ProjectionMatrix.scale l A).mulVec X).add (b.smul l) = ((A.mulVec X).add b).smul l := by
        intro A b
        apply V3.ext <;> simp only [ProjectionMatrix.scale, M3.mulVec, V3.add, V3.dot, V3.smul] <;> ring
      rw [hX, e, h0]
      congr 1
      apply V3.ext <;> simp [M3.mulVec, V3.dot]
    have hl' : |l| ≠ 0 := abs_ne_zero.2 hl
    unfold recoverPose
    rw [hPeq, hd]
    simp only [ProjectionMatrix.scale, V3.smul, hr', hRo, mul_one]
    rw [mul_div_cancel_left₀ _ hl']

/-- The hypotheses of `C91_uncalibrated` are met, and so is that on the projection matrix: that of a camera with the focal length 2 at
(0, 0, -1), multiplied by -3. -/
example : (∃ qr, ProjectionMatrix.QrCorrect qr) ∧ (∃ svd, ProjectionMatrix.SvdCorrectOnRotations svd) ∧ (∃ ofM, AngleAxis.IsLog ofM) ∧
    ValidSettings .ransac anySettings ∧ 4 ≤ fourSeen.length ∧ SamplesOf 4 fourSeen.length (fun _ => some [0, 1, 2, 3]) ∧
    IsProjectionOf (⟨⟨-6, 0, 0⟩, ⟨0, -6, 0⟩, ⟨0, 0, -3⟩⟩, ⟨0, 0, -3⟩) 2 M3.one ⟨0, 0, -1⟩ := by
  refine ⟨ProjectionMatrix.assumptions_met.1, ProjectionMatrix.assumptions_met.2, AngleAxis.exists_isLog, anySettings_valid,
    by simp [fourSeen], ?_, -3, by norm_num, fun X => ?_⟩
  · rintro i idx h
    cases h
    simp [fourSeen]
  · rw [M3.one_mulVec]
    apply V3.ext <;> simp only [M3.mulVec, V3.dot, V3.add, V3.sub, V3.smul] <;> ring

/-- C91: if no sample has a projection matrix, success is reported with whatever was in the variables: the projection matrix that was never
written is decomposed, and if it is singular nothing else is written either. -/
theorem C91_uncalibrated_uninitialised_counterexample {qr svd : M3 ℝ → M3 ℝ × M3 ℝ} {ofM : M3 ℝ → V3 ℝ}
    (hqr : ProjectionMatrix.QrCorrect qr) (hsvd : ProjectionMatrix.SvdCorrectOnRotations svd) (hlog : AngleAxis.IsLog ofM)
    {t : RansacType} {s : Settings} (hv : ValidSettings t s) (lmed : List (WithTop ℝ) → WithTop ℝ × List Nat) (cs : List Corr)
    (h4 : 4 ≤ cs.length) (sample : Nat → Option (List Nat)) (hs : SamplesOf 4 cs.length sample) (initial : P34)
    (hd : initial.1.det = 0) (uninitialised : UncalibratedPose) :
    ∃ sum, estimateUncalibrated (fun _ _ => []) qr svd ofM t s lmed sample cs initial uninitialised = .ok (uninitialised, sum) := by
  obtain ⟨ht, hpos, hp⟩ := hv
  have htl : t ≠ .lmed := by rcases ht with rfl | rfl <;> decide
  have htx : t ≠ .exhaustive := by rcases ht with rfl | rfl <;> decide
  obtain ⟨P, sum, hr, -, -, h0, -⟩ := consensus_spec_any htl (fun h => absurd h htx) hpos hp lmed
    (fun i idx h => (hs i idx h).2) (uncalibratedModels fun _ _ => []) (by norm_num) h4 uncalibratedError initial
  have hP : P = initial := by
    refine h0 (List.eq_nil_iff_forall_not_mem.2 fun m hm => ?_)
    obtain ⟨i, -, ds, -, ms, e, -⟩ := mem_models_drawn.1 hm
    simp [uncalibratedModels] at e
  refine ⟨sum, ?_⟩
  unfold estimateUncalibrated
  rw [hr, hP]
  simp only [recoverPose, Outcome.ok_bind]
  rw [(ProjectionMatrix.C58_decompose hqr hsvd hlog initial).1.2 hd]

end Theia
