import Verif.Props.RobustEstimators
import Verif.Spec.AlignCameras

/-!
# C109: alignment of cameras with points
-/

namespace Theia

open Spec Spec.Align RansacVariants AlignCameras

namespace AlignCameras

theorem squared_some (u v : ℝ × ℝ) :
    AbsolutePoseEstimators.squaredDistance (some u) (some v) = ((distanceSq u v : ℝ) : WithTop ℝ) := by
  simp only [AbsolutePoseEstimators.squaredDistance, Triangulation.sq2, distanceSq, pow_two]

theorem pixelError_lt (cam : Cam) (obs : ℝ × ℝ) (xyz : V3 ℝ) (w t : ℝ) :
    pixelError cam obs xyz w < (t : WithTop ℝ) ↔ Close cam t obs (inCamera cam.rotation cam.position xyz w) w := by
  unfold pixelError Close inCamera NotBehind
  simp only
  by_cases hw : w = 0
  · subst hw
    simp only [if_true]
    by_cases hz : (cam.rotation.mulVec (xyz.sub (cam.position.smul 0))).z < 0
    · simp [hz]
    · rw [if_neg hz]
      cases h : cam.toPixel (cam.rotation.mulVec (xyz.sub (cam.position.smul 0))) with
      | none => simp [AbsolutePoseEstimators.squaredDistance]
      | some p =>
        rw [squared_some, WithTop.coe_lt_coe]
        simp [not_lt.1 hz]
  · simp only [if_neg hw]
    by_cases hz : (cam.rotation.mulVec (xyz.sub (cam.position.smul w))).z / w < 0
    · simp [hz, hw]
    · rw [if_neg hz]
      cases h : cam.toPixel (cam.rotation.mulVec (xyz.sub (cam.position.smul w))) with
      | none => simp [AbsolutePoseEstimators.squaredDistance]
      | some p =>
        rw [squared_some, WithTop.coe_lt_coe]
        simp [not_lt.1 hz, hw]

theorem pixelError_eq {cam : Cam} {obs : ℝ × ℝ} {xyz : V3 ℝ} {w t : ℝ}
    (h : Close cam t obs (inCamera cam.rotation cam.position xyz w) w) :
    pixelError cam obs xyz w = ((imageSq cam obs (inCamera cam.rotation cam.position xyz w) : ℝ) : WithTop ℝ) := by
  obtain ⟨⟨h0, h1⟩, p, hp, -⟩ := h
  unfold pixelError imageSq
  unfold inCamera at *
  simp only [hp, Option.elim_some, squared_some]
  rw [if_neg]
  by_cases hw : w = 0
  · rw [if_pos hw]; exact not_lt.2 (h0 hw)
  · rw [if_neg hw]; exact not_lt.2 (h1 hw)

theorem pixelError_zero {cam : Cam} {obs : ℝ × ℝ} {xyz : V3 ℝ} {w k : ℝ} (hw : 0 < w) (hk : 0 < k) (hc : Consistent cam obs)
    (h : inCamera cam.rotation cam.position xyz w = (cam.toRay obs).smul k) : pixelError cam obs xyz w = 0 := by
  unfold pixelError
  unfold inCamera at h
  simp only [h, hc.2 k hk]
  rw [if_neg, AbsolutePoseEstimators.squaredDistance]
  · simp [Triangulation.sq2]
  · rw [if_neg hw.ne']
    have : 0 < ((cam.toRay obs).smul k).z / w := div_pos (mul_pos hk hc.1) hw
    exact not_lt.2 this.le

theorem convert_same {Q : M3 ℝ} (hQ : Q.IsRotation) (t : V3 ℝ) (s : ℝ) : SameSolution (convert (Q, t, s)) Q t s := by
  refine ⟨rfl, hQ.transpose, ?_, ?_⟩
  · exact hQ.left
  · intro Y
    simp only [convert, carried]
    rw [M3.mulVec_add, M3.mulVec_smul, hQ.mulVec_transpose, hQ.mulVec_transpose]
    apply V3.ext <;> simp [V3.add, V3.neg]

theorem same_unique {T : Sim} {Q : M3 ℝ} (hQ : Q.IsRotation) {t : V3 ℝ} {s : ℝ} (h : SameSolution T Q t s) :
    T = convert (Q, t, s) := by
  obtain ⟨h1, h2, h3, h4⟩ := h
  have hR : T.rotation = Q.transpose := by
    have := congrArg (fun m => M3.mul m Q.transpose) h3
    simp only [M3.mul_assoc, M3.one_mul] at this
    rwa [hQ.right, M3.mul_one] at this
  have ht : T.translation = Q.transpose.mulVec t.neg := by
    have h0 := congrArg Q.transpose.mulVec (h4 V3.zero)
    rw [M3.mulVec_add, hQ.transpose_mulVec] at h0
    rw [M3.mulVec_neg]
    obtain ⟨a, b, c⟩ := V3.ext_iff.1 h0
    simp only [carried, V3.add, V3.smul, V3.zero, M3.mulVec, V3.dot, mul_zero, add_zero, zero_add] at a b c
    apply V3.ext <;> simp only [V3.neg, M3.mulVec, V3.dot] <;> linarith
  cases T
  simp only [convert] at *
  subst hR ht h1
  rfl

theorem direction_eq {c : Corr} (hc : Consistent c.camera c.observation) (hO : c.camera.rotation.IsRotation) :
    ∃ k, 0 < k ∧ (ray c).2.1 = (c.camera.rotation.transpose.mulVec (c.camera.toRay c.observation)).smul k := by
  refine normalize_eq ?_
  rw [hO.transpose.dot]
  have := hc.1
  simp only [V3.dot]
  nlinarith [mul_self_nonneg (c.camera.toRay c.observation).x, mul_self_nonneg (c.camera.toRay c.observation).y,
    mul_pos this this]

theorem afterSimilarity_eq {T : Sim} (hT : T.rotation.IsRotation) {c : Corr} (hw : c.w ≠ 0) {Y : V3 ℝ}
    (h : carried T Y = c.xyz.smul (1 / c.w)) :
    afterSimilarity T c = (c.camera.rotation.mulVec (Y.sub c.camera.position)).smul (c.w * T.scale) := by
  have e : c.xyz = (carried T Y).smul c.w := by
    rw [h]
    apply V3.ext <;> simp only [V3.smul] <;> field_simp
  have e2 : c.xyz.sub ((carried T c.camera.position).smul c.w) =
      (T.rotation.mulVec (Y.sub c.camera.position)).smul (c.w * T.scale) := by
    rw [e, M3.mulVec_sub]
    apply V3.ext <;> simp only [carried, V3.smul, V3.sub, V3.add] <;> ring
  unfold afterSimilarity inCamera
  rw [e2, M3.mulVec_mul, M3.mulVec_smul, M3.mulVec_smul, hT.transpose_mulVec]

theorem onRay {c : Corr} (hO : c.camera.rotation.IsRotation) (a k : ℝ)
    (hk : (ray c).2.1 = (c.camera.rotation.transpose.mulVec (c.camera.toRay c.observation)).smul k) :
    c.camera.rotation.mulVec (((ray c).1.add ((ray c).2.1.smul a)).sub c.camera.position) =
      (c.camera.toRay c.observation).smul (a * k) := by
  have : ((ray c).1.add ((ray c).2.1.smul a)).sub c.camera.position =
      (c.camera.rotation.transpose.mulVec (c.camera.toRay c.observation)).smul (a * k) := by
    rw [hk]
    apply V3.ext <;> simp only [ray, V3.smul, V3.sub, V3.add] <;> ring
  rw [this, M3.mulVec_smul, hO.mulVec_transpose]

theorem input_eq (c : Corr) : c.input = ray c := rfl

end AlignCameras

/-- **C109, similarity.** The similarity found comes from a solution of gDLS for the rays and points of four of the
correspondences, put into the form that carries the cameras; no other solution for the samples drawn has a lower cost;
the inliers are exactly the correspondences whose point is not behind the carried camera and is seen closer to the
observation than the threshold. -/
theorem C109_similarity {gdls : List (V3 ℝ × V3 ℝ × Option (V3 ℝ)) → List (M3 ℝ × V3 ℝ × ℝ)}
    (hg : ∀ rays, ∀ sol ∈ gdls rays, sol.1.IsRotation) {t : RansacType} {s : Settings} (ht : t = .ransac ∨ t = .prosac)
    (hpos : 0 < s.errorThresh) (hp : s.params.Valid) (lmed : List (WithTop ℝ) → WithTop ℝ × List Nat) (cs : List Corr)
    (h4 : 4 ≤ cs.length) (sample : Nat → Option (List Nat)) (hs : SamplesOf 4 cs.length sample) (initial : Sim) :
    ∃ T sum, estimateSimilarity gdls t s lmed sample cs initial = .ok (T, sum) ∧
      s.params.minIterations ≤ sum.numIterations ∧ (sum.numIterations : Int) ≤ max 0 s.params.maxIterations ∧
      RobustResult cs sample sum.numIterations
        (fun ds T => ∃ Q u k, (Q, u, k) ∈ gdls (ds.map ray) ∧ SameSolution T Q u k)
        (fun ds T => ∃ Q u k, (Q, u, k) ∈ gdls (ds.map ray) ∧ SameSolution T Q u k)
        (fun T c => Close c.camera s.errorThresh c.observation (afterSimilarity T c) c.w)
        (fun T => robustCost s.useMle s.errorThresh
          (fun c => Close c.camera s.errorThresh c.observation (afterSimilarity T c) c.w)
          (fun c => imageSq c.camera c.observation (afterSimilarity T c)) cs) initial T sum.inliers := by
  unfold estimateSimilarity
  refine robust_result (fits := fun T c => Close c.camera s.errorThresh c.observation (afterSimilarity T c) c.w)
    (residual := fun T c => imageSq c.camera c.observation (afterSimilarity T c))
    (by rcases ht with rfl | rfl <;> decide) (by rcases ht with rfl | rfl <;> simp) hpos hp lmed hs _
    (by norm_num) h4 _ initial ?_ ?_ ?_ ?_
  · intro ds ms T hl he hm
    match ds, hl with
    | [a, b, c, d], _ =>
      simp only [similarityModels, List.nil_append, ofOutcome] at he
      split at he
      · rename_i ms' heq
        simp only [Outcome.ok.injEq, Prod.mk.injEq] at heq
        simp only [Option.some.injEq] at he
        rw [← he, ← heq.2] at hm
        obtain ⟨⟨Q, u, k⟩, hmem, rfl⟩ := List.mem_map.1 hm
        exact ⟨Q, u, k, hmem, convert_same (hg _ _ hmem) u k⟩
      · cases he
  · intro T c
    exact pixelError_lt _ _ _ _ _
  · intro T c h
    exact pixelError_eq (cam := transformCamera T c.camera) h
  · rintro ds T ⟨Q, u, k, hmem, hsame⟩ hl -
    have hT := same_unique (hg _ _ hmem) hsame
    match ds, hl with
    | [a, b, c, d], _ =>
      have hm : T ∈ (gdls [a.input, b.input, c.input, d.input]).map convert := by
        rw [hT]
        exact List.mem_map.2 ⟨_, hmem, rfl⟩
      refine ⟨_, T, ?_, hm, fun _ => rfl⟩
      have : 0 < (gdls [a.input, b.input, c.input, d.input]).length := by
        simpa using List.length_pos_of_mem hm
      simp [similarityModels, ofOutcome, this]

/-- **C109, rigid.** The same for the rigid transformation, which moves the points and comes from UPnP. -/
theorem C109_rigid {upnp : List (V3 ℝ × V3 ℝ × Option (V3 ℝ)) → Option (List Rigid)} {t : RansacType} {s : Settings}
    (ht : t = .ransac ∨ t = .prosac) (hpos : 0 < s.errorThresh) (hp : s.params.Valid)
    (lmed : List (WithTop ℝ) → WithTop ℝ × List Nat) (cs : List Corr) (h4 : 4 ≤ cs.length)
    (sample : Nat → Option (List Nat)) (hs : SamplesOf 4 cs.length sample) (initial : Rigid) :
    ∃ T sum, estimateRigid upnp t s lmed sample cs initial = .ok (T, sum) ∧
      s.params.minIterations ≤ sum.numIterations ∧ (sum.numIterations : Int) ≤ max 0 s.params.maxIterations ∧
      RobustResult cs sample sum.numIterations
        (fun ds T => ∃ ms, upnp (ds.map ray) = some ms ∧ T ∈ ms)
        (fun ds T => ∃ ms, upnp (ds.map ray) = some ms ∧ T ∈ ms)
        (fun T c => c.w ≠ 0 ∧ Close c.camera s.errorThresh c.observation (afterRigid T c) 1)
        (fun T => robustCost s.useMle s.errorThresh
          (fun c => c.w ≠ 0 ∧ Close c.camera s.errorThresh c.observation (afterRigid T c) 1)
          (fun c => imageSq c.camera c.observation (afterRigid T c)) cs) initial T sum.inliers := by
  unfold estimateRigid
  refine robust_result (fits := fun T c => c.w ≠ 0 ∧ Close c.camera s.errorThresh c.observation (afterRigid T c) 1)
    (residual := fun T c => imageSq c.camera c.observation (afterRigid T c))
    (by rcases ht with rfl | rfl <;> decide) (by rcases ht with rfl | rfl <;> simp) hpos hp lmed hs _
    (by norm_num) h4 _ initial ?_ ?_ ?_ ?_
  · intro ds ms T hl he hm
    rw [rigidModels, if_neg (by omega), show ds.map Corr.input = ds.map ray from rfl] at he
    cases hu : upnp (ds.map ray) with
    | none => simp [hu, ofOutcome] at he
    | some ms' =>
      simp only [hu, ofOutcome, Option.some.injEq] at he
      exact ⟨ms', rfl, he ▸ hm⟩
  · intro T c
    by_cases hw : c.w = 0
    · simp [rigidError, Corr.point, hw]
    · simp only [rigidError, Corr.point, if_neg hw]
      rw [pixelError_lt]
      exact ⟨fun h => ⟨hw, h⟩, fun h => h.2⟩
  · rintro T c ⟨hw, h⟩
    simp only [rigidError, Corr.point, if_neg hw]
    exact pixelError_eq h
  · rintro ds T ⟨ms, hu, hm⟩ hl -
    refine ⟨ms, T, ?_, hm, fun _ => rfl⟩
    rw [rigidModels, if_neg (by omega), show ds.map Corr.input = ds.map ray from rfl, hu]
    rfl

/-- **C109, exact similarities.** If a similarity carries the point at the distance `a` on the ray of the observation
to the point of the correspondence, and `a` times the scale is positive, then the correspondence has the error zero. -/
theorem C109_similarity_exact (T : Sim) (hT : T.rotation.IsRotation) (c : Corr) (hw : 0 < c.w)
    (hO : c.camera.rotation.IsRotation) (hc : Consistent c.camera c.observation) (a : ℝ) (ha : 0 < a * T.scale)
    (h : carried T ((ray c).1.add ((ray c).2.1.smul a)) = c.xyz.smul (1 / c.w)) : similarityError c T = 0 := by
  obtain ⟨k, hk, he⟩ := direction_eq hc hO
  refine pixelError_zero (cam := transformCamera T c.camera) (k := c.w * (a * T.scale) * k) hw (by positivity) hc ?_
  rw [show inCamera (transformCamera T c.camera).rotation (transformCamera T c.camera).position c.xyz c.w =
    afterSimilarity T c from rfl, afterSimilarity_eq hT hw.ne' h, onRay hO a k he]
  apply V3.ext <;> simp only [V3.smul, transformCamera] <;> ring

/-- **C109, finding.** Nothing asks for a positive scale. A similarity with a negative scale that carries points *behind*
the cameras, on the rays of the observations extended backwards, to the given points has the error zero for all of
them: it is taken for a perfect alignment. -/
theorem C109_negative_scale (T : Sim) (hT : T.rotation.IsRotation) (hs : T.scale < 0) (cs : List Corr)
    (h : ∀ c ∈ cs, 0 < c.w ∧ c.camera.rotation.IsRotation ∧ Consistent c.camera c.observation ∧
      ∃ a < 0, carried T ((ray c).1.add ((ray c).2.1.smul a)) = c.xyz.smul (1 / c.w)) :
    ∀ c ∈ cs, similarityError c T = 0 := by
  intro c hc
  obtain ⟨hw, hO, hcon, a, ha, he⟩ := h c hc
  exact C109_similarity_exact T hT c hw hO hcon a (mul_pos_of_neg_of_neg ha hs) he

/-- **C109, exact rigid transformations.** If the transformation moves the point of the correspondence to the point at
the distance `a > 0` on the ray of the observation, the correspondence has the error zero. -/
theorem C109_rigid_exact (T : Rigid) (c : Corr) (hw : c.w ≠ 0) (hO : c.camera.rotation.IsRotation)
    (hc : Consistent c.camera c.observation) (a : ℝ) (ha : 0 < a)
    (h : (T.1.mulVec (c.xyz.smul (1 / c.w))).add T.2 = (ray c).1.add ((ray c).2.1.smul a)) : rigidError c T = 0 := by
  obtain ⟨k, hk, he⟩ := direction_eq hc hO
  simp only [rigidError, Corr.point, if_neg hw]
  refine pixelError_zero (k := a * k) one_pos (by positivity) hc ?_
  rw [h, ← onRay hO a k he]
  unfold inCamera
  congr 2
  apply V3.ext <;> simp [V3.smul]

/-- **C109.** Carrying the camera and leaving the point is the same as leaving the camera and carrying the point back: for
a positive scale the error is that of the original camera for the point `Y` that is carried to the given one. -/
theorem C109_carry_back (T : Sim) (hT : T.rotation.IsRotation) (hs : 0 < T.scale) (c : Corr) (hw : 0 < c.w)
    (hd : Directional c.camera) (Y : V3 ℝ) (h : carried T Y = c.xyz.smul (1 / c.w)) (thresh : ℝ) :
    similarityError c T < (thresh : WithTop ℝ) ↔
      0 ≤ (c.camera.rotation.mulVec (Y.sub c.camera.position)).z ∧
      ∃ p, c.camera.toPixel (c.camera.rotation.mulVec (Y.sub c.camera.position)) = some p ∧
        distanceSq p c.observation < thresh := by
  unfold similarityError
  rw [pixelError_lt, show inCamera (transformCamera T c.camera).rotation (transformCamera T c.camera).position c.xyz c.w =
    afterSimilarity T c from rfl, afterSimilarity_eq hT hw.ne' h]
  have hk : 0 < c.w * T.scale := mul_pos hw hs
  simp only [Close, NotBehind, transformCamera, hd _ _ hk]
  refine and_congr ?_ Iff.rfl
  have e : ∀ v : V3 ℝ, (v.smul (c.w * T.scale)).z / c.w = T.scale * v.z := by
    intro v
    simp only [V3.smul]
    field_simp
  rw [e]
  constructor
  · intro h
    exact nonneg_of_mul_nonneg_right (h.2 hw.ne') hs
  · intro h
    exact ⟨fun e => absurd e hw.ne', fun _ => mul_nonneg hs.le h⟩

/-- **C109.** A rigid transformation of the points is the same as the inverse similarity of the cameras with scale one:
both estimators give each correspondence the same error. -/
theorem C109_rigid_similarity (R : M3 ℝ) (hR : R.IsRotation) (t : V3 ℝ) (c : Corr) (hw : 0 < c.w)
    (hd : Directional c.camera) (thresh : ℝ) :
    rigidError c (R, t) < (thresh : WithTop ℝ) ↔
      similarityError c ⟨R.transpose, (R.transpose.mulVec t).neg, 1⟩ < (thresh : WithTop ℝ) := by
  rw [C109_carry_back _ hR.transpose one_pos c hw hd ((R.mulVec (c.xyz.smul (1 / c.w))).add t) _ thresh]
  · simp only [rigidError, Corr.point, if_neg hw.ne']
    rw [pixelError_lt]
    have : inCamera c.camera.rotation c.camera.position ((R.mulVec (c.xyz.smul (1 / c.w))).add t) 1 =
        c.camera.rotation.mulVec (((R.mulVec (c.xyz.smul (1 / c.w))).add t).sub c.camera.position) := by
      unfold inCamera
      congr 2
      apply V3.ext <;> simp [V3.smul]
    simp only [this, Close, NotBehind]
    simp
  · simp only [carried]
    rw [M3.mulVec_add, hR.transpose_mulVec]
    apply V3.ext <;> simp [V3.add, V3.neg, V3.smul]

/-- **C109, one camera.** With normalized features: a correspondence is an inlier of a transformation if and only if the
moved point is in front and its quotients are closer to the feature than the threshold. -/
theorem C109_single (upnp : List (V3 ℝ × V3 ℝ × Option (V3 ℝ)) → Option (List Rigid)) {t : RansacType} {s : Settings}
    (ht : t = .ransac ∨ t = .prosac) (hpos : 0 < s.errorThresh) (hp : s.params.Valid)
    (lmed : List (WithTop ℝ) → WithTop ℝ × List Nat) (cs : List ((ℝ × ℝ) × V3 ℝ)) (h4 : 4 ≤ cs.length)
    (sample : Nat → Option (List Nat)) (hs : SamplesOf 4 cs.length sample) (initial : Rigid) :
    ∃ T sum, estimateRigidSingle upnp t s lmed sample cs initial = .ok (T, sum) ∧
      s.params.minIterations ≤ sum.numIterations ∧ (sum.numIterations : Int) ≤ max 0 s.params.maxIterations ∧
      ∀ i : Nat, i ∈ sum.inliers ↔ ∃ f X, cs[i]? = some (f, X) ∧ 0 < ((T.1.mulVec X).add T.2).z ∧
        distanceSq (dehomogenised ((T.1.mulVec X).add T.2)) f < s.errorThresh := by
  obtain ⟨T, sum, h1, h2, h3, -, -, -, h5⟩ := C109_rigid (upnp := upnp) ht hpos hp lmed
    (cs.map fun c => (⟨unitCamera, c.1, c.2, 1⟩ : Corr)) (by simpa using h4) sample (by simpa using hs) initial
  refine ⟨T, sum, h1, h2, h3, ?_⟩
  have key : ∀ f X, ((1 : ℝ) ≠ 0 ∧ Close unitCamera s.errorThresh f (afterRigid T ⟨unitCamera, f, X, 1⟩) 1) ↔
      0 < ((T.1.mulVec X).add T.2).z ∧ distanceSq (dehomogenised ((T.1.mulVec X).add T.2)) f < s.errorThresh := by
    intro f X
    have e : afterRigid T ⟨unitCamera, f, X, 1⟩ = (T.1.mulVec X).add T.2 := by
      simp only [afterRigid, inCamera, unitCamera, M3.one_mulVec]
      have : X.smul (1 / 1 : ℝ) = X := by apply V3.ext <;> simp [V3.smul]
      rw [this]
      apply V3.ext <;> simp [V3.smul, V3.sub, V3.zero]
    rw [e]
    simp only [Close, NotBehind, unitCamera, AbsolutePoseEstimators.hnormalized, dehomogenised]
    constructor
    · rintro ⟨-, ⟨-, hz⟩, p, hp, hd⟩
      split at hp
      · cases hp
      · rename_i hne
        simp only [Option.some.injEq] at hp
        have := hz one_ne_zero
        rw [div_one] at this
        exact ⟨lt_of_le_of_ne this (Ne.symm hne), hp ▸ hd⟩
    · rintro ⟨hz, hd⟩
      refine ⟨one_ne_zero, ⟨fun h => absurd h one_ne_zero, fun _ => by rw [div_one]; exact hz.le⟩, _, ?_, hd⟩
      rw [if_neg hz.ne']
  intro i
  rw [h5 i]
  constructor
  · rintro ⟨c, hc, hf⟩
    rw [List.getElem?_map] at hc
    obtain ⟨⟨f, X⟩, hfx, rfl⟩ := Option.map_eq_some_iff.1 hc
    exact ⟨f, X, hfx, (key f X).1 hf⟩
  · rintro ⟨f, X, hfx, hf⟩
    exact ⟨⟨unitCamera, f, X, 1⟩, by rw [List.getElem?_map, hfx]; rfl, (key f X).2 hf⟩

/-- **C109, what the estimators do outside of the consensus.** The estimator of similarities reads past the end of fewer
than four correspondences, uses only the first four of more, appends to the vector it is given, and answers true whenever
that is not empty, even if nothing was found. The rigid one ends the program for fewer than four. -/
theorem C109_models (gdls : List (V3 ℝ × V3 ℝ × Option (V3 ℝ)) → List (M3 ℝ × V3 ℝ × ℝ))
    (upnp : List (V3 ℝ × V3 ℝ × Option (V3 ℝ)) → Option (List Rigid)) (held : List Sim) (cs more : List Corr) :
    (cs.length < 4 → similarityModels gdls held cs = .ub ∧ rigidModels upnp cs = .abort) ∧
    (cs.length = 4 → similarityModels gdls held (cs ++ more) = similarityModels gdls held cs) ∧
    (cs.length = 4 → gdls (cs.map ray) = [] → similarityModels gdls held cs = .ok (decide (held ≠ []), held)) := by
  refine ⟨?_, ?_, ?_⟩
  · intro h
    refine ⟨?_, by rw [rigidModels, if_pos h]⟩
    match cs, h with
    | [], _ => rfl
    | [a], _ => rfl
    | [a, b], _ => rfl
    | [a, b, c], _ => rfl
    | a :: b :: c :: d :: r, h => simp at h; omega
  · intro h
    match cs, h with
    | [a, b, c, d], _ => rfl
  · intro h hg
    match cs, h with
    | [a, b, c, d], _ =>
      have : gdls [a.input, b.input, c.input, d.input] = [] := hg
      simp [similarityModels, this, List.length_pos_iff]

/-- **C109, finding.** Asking for the exhaustive variant of the consensus, one of those offered, always ends the program. -/
theorem C109_exhaustive (gdls : List (V3 ℝ × V3 ℝ × Option (V3 ℝ)) → List (M3 ℝ × V3 ℝ × ℝ))
    (upnp : List (V3 ℝ × V3 ℝ × Option (V3 ℝ)) → Option (List Rigid)) (s : Settings)
    (lmed : List (WithTop ℝ) → WithTop ℝ × List Nat) (sample : Nat → Option (List Nat)) (cs : List Corr) (iS : Sim)
    (iR : Rigid) :
    estimateSimilarity gdls .exhaustive s lmed sample cs iS = .abort ∧
    estimateRigid upnp .exhaustive s lmed sample cs iR = .abort := by
  unfold estimateSimilarity estimateRigid consensus
  constructor <;> split <;> simp

section Examples

/-- A correspondence that meets the conditions: the camera at the origin sees `(0, 0, 2)`. -/
example : Consistent unitCamera (3, 4) ∧ Directional unitCamera ∧ unitCamera.rotation.IsRotation := by
  refine ⟨⟨by simp [unitCamera, Triangulation.homog], ?_⟩, ?_, M3.IsRotation.one⟩
  · intro k hk
    simp [unitCamera, Triangulation.homog, AbsolutePoseEstimators.hnormalized, V3.smul, hk.ne']
  · intro v k hk
    simp only [unitCamera, AbsolutePoseEstimators.hnormalized, V3.smul]
    by_cases hz : v.z = 0
    · simp [hz]
    · simp only [mul_eq_zero, hk.ne', hz, or_self, if_false]
      congr 2 <;> field_simp

private theorem unit_ray (X : V3 ℝ) (w : ℝ) : (ray ⟨unitCamera, (0, 0), X, w⟩).2.1 = ⟨0, 0, 1⟩ := by
  have : (M3.one : M3 ℝ).transpose.mulVec (⟨0, 0, 1⟩ : V3 ℝ) = ⟨0, 0, 1⟩ := by
    apply V3.ext <;> simp [M3.one, M3.transpose, M3.mulVec, V3.dot]
  simp only [ray, unitCamera, Triangulation.homog, this, Triangulation.normalize]
  rw [if_pos (by simp [V3.dot])]
  apply V3.ext <;> simp [V3.smul, V3.dot]

/-- A similarity with scale -2 and a point two units *behind* the camera that it carries to `(0, 0, 4)`. -/
example : similarityError ⟨unitCamera, (0, 0), ⟨0, 0, 4⟩, 1⟩ ⟨M3.one, V3.zero, -2⟩ = 0 := by
  refine C109_negative_scale ⟨M3.one, V3.zero, -2⟩ M3.IsRotation.one (by norm_num) [⟨unitCamera, (0, 0), ⟨0, 0, 4⟩, 1⟩]
    ?_ _ (by simp)
  intro c hc
  simp only [List.mem_singleton] at hc
  subst hc
  refine ⟨one_pos, M3.IsRotation.one, ⟨by simp [unitCamera, Triangulation.homog], ?_⟩, -2, by norm_num, ?_⟩
  · intro k hk
    simp [unitCamera, Triangulation.homog, AbsolutePoseEstimators.hnormalized, V3.smul, hk.ne']
  · rw [unit_ray]
    apply V3.ext <;> simp [carried, ray, unitCamera, M3.one_mulVec, V3.add, V3.smul, V3.zero]
    norm_num

end Examples

end Theia
