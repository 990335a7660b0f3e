import Verif.Proof.TriangulationEstimator
import Verif.Props.RobustEstimators

/-!
# C92: robust triangulation of points
-/

namespace Theia

open Spec RansacVariants TriangulationEstimator Triangulation

/-- C92: different numbers of cameras and features end the program; with fewer than two, false is returned and nothing is written. -/
theorem C92_too_few (smallest : (V4 → ℝ) → V4) (junk : List Observation → Option V4) (s : Settings)
    (lmed : List (WithTop ℝ) → WithTop ℝ × List Nat) (sample : Nat → Option (List Nat)) (cameras : List Cam) (features : List V2)
    (initial : V4) :
    (cameras.length ≠ features.length → estimate smallest junk s lmed sample cameras features initial = .abort) ∧
      (cameras.length = features.length →
        (estimate smallest junk s lmed sample cameras features initial = .ok none ↔ cameras.length < 2)) := by
  unfold estimate
  refine ⟨fun h => if_pos h, fun h => ?_⟩
  rw [if_neg (not_not.2 h)]
  by_cases h2 : cameras.length < 2
  · simp [h2]
  · rw [if_neg h2]
    simp only [h2, iff_false]
    intro he
    obtain ⟨os, -, he⟩ := Outcome.bind_eq_ok.1 he
    split at he
    · obtain ⟨r, -, he⟩ := Outcome.bind_eq_ok.1 he
      cases he
    · obtain ⟨r, -, he⟩ := Outcome.bind_eq_ok.1 he
      cases he

/-- C92: for at most fifteen cameras all pairs are triangulated, whatever the numbers of iterations asked for. The result is the point of a pair, and
no point of a pair has a lower cost; it is left as it was only if no pair gives a point. The inliers are exactly the observations for which the
point is in front of the camera and its squared reprojection error is below the threshold. -/
theorem C92_best_pair (smallest : (V4 → ℝ) → V4) (junk : List Observation → Option V4) {s : Settings} (hs : 0 < s.errorThresh)
    (hr : 0 ≤ s.params.minInlierRatio ∧ s.params.minInlierRatio ≤ 1) (hf : 0 < s.params.failureProbability ∧ s.params.failureProbability < 1)
    (lmed : List (WithTop ℝ) → WithTop ℝ × List Nat) (sample : Nat → Option (List Nat)) {cameras : List Cam} {features : List V2}
    (hlen : cameras.length = features.length) (h2 : 2 ≤ cameras.length) (h15 : cameras.length ≤ 15)
    (hray : ∀ o ∈ cameras.zip features, ∃ n, NormalizedFeature o n) (initial : V4) :
    ∃ X sum, estimate smallest junk s lmed sample cameras features initial = .ok (some (X, sum)) ∧
      sum.numIterations = cameras.length * (cameras.length - 1) / 2 ∧
      (X = initial ∨ ∃ pair, TwoOf (cameras.zip features) pair ∧ (PointOfPair smallest pair X ∨ DegeneratePair smallest pair)) ∧
      (∀ pair X', TwoOf (cameras.zip features) pair → PointOfPair smallest pair X' →
        (∃ pair, TwoOf (cameras.zip features) pair ∧ (PointOfPair smallest pair X ∨ DegeneratePair smallest pair)) ∧
        robustCost s.useMle s.errorThresh (ImagedWithin s.errorThresh X) (imageSq X) (cameras.zip features) ≤
          robustCost s.useMle s.errorThresh (ImagedWithin s.errorThresh X') (imageSq X') (cameras.zip features)) ∧
      ExactlyThePositions (cameras.zip features) (ImagedWithin s.errorThresh X) sum.inliers := by
  obtain ⟨os, h1, hkey, hos⟩ := observations_spec _ hray
  have hz : (cameras.zip features).length = cameras.length := by simp [hlen]
  have hol : os.length = cameras.length := by rw [← hz, ← hkey, List.length_map]
  obtain ⟨hsam, hpairs, hall⟩ := exhaustive_spec h2
  obtain ⟨X, sum, hc, a1, a2, hR⟩ := consensus_result smallest junk (t := .exhaustive) (by decide)
    (s := { s with params := { s.params with
      minIterations := ((cameras.length * (cameras.length - 1) / 2 : Nat) : Int),
      maxIterations := ((cameras.length * (cameras.length - 1) / 2 : Nat) : Int) } })
    hs ⟨hr.2, hr.1, hf.2, hf.1, le_refl _⟩ lmed (data := cameras.zip features) (by rw [hz]; exact h2)
    (sample := exhaustiveSample cameras.length) (by rw [hz]; exact hsam) hkey hos initial
  simp only at a1 a2 hR
  have hnum : sum.numIterations = cameras.length * (cameras.length - 1) / 2 := by
    rw [max_eq_right (Int.natCast_nonneg _)] at a2
    exact_mod_cast le_antisymm a2 a1
  have hdrawn : ∀ i ds, Drawn (cameras.zip features) (exhaustiveSample cameras.length) i ds → TwoOf (cameras.zip features) ds := by
    rintro i ds ⟨idx, hi, hp⟩
    obtain ⟨a, b, hab, -, he⟩ := hpairs i
    rw [he] at hi
    cases hi
    simp only [Picked, List.forall₂_cons_left_iff, List.forall₂_nil_left_iff] at hp
    obtain ⟨x, l, hx, ⟨y, l', hy, rfl, rfl⟩, rfl⟩ := hp
    exact ⟨a, b, x, y, hab, hx, hy, rfl⟩
  obtain ⟨r1, r2, r3⟩ := hR
  refine ⟨X, sum, ?_, hnum, ?_, ?_, r3⟩
  · unfold estimate
    rw [if_neg (not_not.2 hlen), if_neg (not_lt.2 h2), h1, Outcome.ok_bind, if_pos h15, hol]
    simp only
    rw [hc, Outcome.ok_bind]
  · rcases r1 with h | ⟨i, -, ds, hd, h⟩
    · exact .inl h
    · exact .inr ⟨ds, hdrawn i ds hd, h⟩
  · rintro pair X' ⟨i, j, a, b, hij, ha, hb, rfl⟩ hX'
    have hj : j < cameras.length := by
      rw [← hz]
      exact (List.getElem?_eq_some_iff.1 hb).1
    obtain ⟨k, hk, he⟩ := hall i j hij hj
    obtain ⟨⟨i', -, ds, hd, h⟩, hle⟩ := r2 k (by rw [hnum]; exact hk) [a, b] X'
      ⟨_, he, .cons ha (.cons hb .nil)⟩ hX'
    exact ⟨⟨ds, hdrawn i' ds hd, h⟩, hle⟩

/-- C92: for more than fifteen cameras the same holds for the pairs drawn, and the number of iterations is between the bounds. -/
theorem C92_sampled_pairs (smallest : (V4 → ℝ) → V4) (junk : List Observation → Option V4) {s : Settings} (hv : ValidSettings .ransac s)
    (lmed : List (WithTop ℝ) → WithTop ℝ × List Nat) {cameras : List Cam} {features : List V2}
    (hlen : cameras.length = features.length) (h15 : 15 < cameras.length) {sample : Nat → Option (List Nat)}
    (hsam : SamplesOf 2 cameras.length sample) (hray : ∀ o ∈ cameras.zip features, ∃ n, NormalizedFeature o n) (initial : V4) :
    ∃ X sum, estimate smallest junk s lmed sample cameras features initial = .ok (some (X, sum)) ∧
      s.params.minIterations ≤ sum.numIterations ∧ (sum.numIterations : Int) ≤ max 0 s.params.maxIterations ∧
      RobustResult (cameras.zip features) sample sum.numIterations
        (fun ds X => PointOfPair smallest ds X ∨ DegeneratePair smallest ds)
        (PointOfPair smallest) (ImagedWithin s.errorThresh)
        (fun X => robustCost s.useMle s.errorThresh (ImagedWithin s.errorThresh X) (imageSq X) (cameras.zip features)) initial X
        sum.inliers := by
  obtain ⟨os, h1, hkey, hos⟩ := observations_spec _ hray
  have hz : (cameras.zip features).length = cameras.length := by simp [hlen]
  obtain ⟨X, sum, hc, a1, a2, hR⟩ := consensus_result smallest junk (t := .ransac) (by decide) hv.2.1 hv.2.2 lmed
    (data := cameras.zip features) (by rw [hz]; omega) (sample := sample) (by rw [hz]; exact hsam) hkey hos initial
  refine ⟨X, sum, ?_, a1, a2, hR⟩
  unfold estimate
  rw [if_neg (not_not.2 hlen), if_neg (by omega), h1, Outcome.ok_bind, if_neg (by omega), hc, Outcome.ok_bind]

/-- A camera whose image of a point does not change if the point moves along its ray. -/
def RayCamera (c : Cam) : Prop := ∀ k : ℝ, 0 < k → ∀ v, c.toPixel (v.smul k) = c.toPixel v

/-- C92: if the features of at most fifteen cameras are the images of a point in front of them, and for one pair the rays are not along the baseline and
the decomposition gives a vector with a positive last coordinate, all observations are inliers. -/
theorem C92_exact_partial {smallest : (V4 → ℝ) → V4} (junk : List Observation → Option V4) {s : Settings} (hs : 0 < s.errorThresh)
    (hr : 0 ≤ s.params.minInlierRatio ∧ s.params.minInlierRatio ≤ 1) (hf : 0 < s.params.failureProbability ∧ s.params.failureProbability < 1)
    (lmed : List (WithTop ℝ) → WithTop ℝ × List Nat) (sample : Nat → Option (List Nat)) {cameras : List Cam} {features : List V2}
    (hlen : cameras.length = features.length) (h15 : cameras.length ≤ 15)
    (hray : ∀ o ∈ cameras.zip features, ∃ n, NormalizedFeature o n) (initial : V4) (X : V3 ℝ)
    (hsee : ∀ o ∈ cameras.zip features, RayCamera o.1 ∧ 0 < (inCamera o.1 (X, 1)).z ∧ o.1.toPixel (inCamera o.1 (X, 1)) = .ok o.2)
    {a b : Cam × V2} (hab : TwoOf (cameras.zip features) [a, b]) (ha : a.1.rotation.IsRotation) (hb : b.1.rotation.IsRotation)
    {na nb : V2} (hna : NormalizedFeature a na) (hnb : NormalizedFeature b nb)
    (hca : ∃ z, SeesAt a.1.rotation (poseMatrix a.1).2 X 1 na z) (hcb : ∃ z, SeesAt b.1.rotation (poseMatrix b.1).2 X 1 nb z)
    {d : V3 ℝ} (hd : RayOf b.1.rotation nb d) (hpar : ¬ Parallel (a.1.position.sub b.1.position) d)
    (hsm : SmallestVector (fun Y => sqNorm (dltDesign (poseMatrix a.1) (poseMatrix b.1) na nb Y))
      (smallest (fun Y => sqNorm (dltDesign (poseMatrix a.1) (poseMatrix b.1) na nb Y))))
    (hsign : ∀ Y, PairTriangulates smallest a b (.ok Y) → 0 < Y.2) :
    ∃ Y sum, estimate smallest junk s lmed sample cameras features initial = .ok (some (Y, sum)) ∧
      ∀ j, j ∈ sum.inliers ↔ j < cameras.length := by
  obtain ⟨i, j, a', b', hij, hi, hj, e⟩ := id hab
  simp only [List.cons.injEq, and_true] at e
  obtain ⟨rfl, rfl⟩ := e
  have hz : (cameras.zip features).length = cameras.length := by simp [hlen]
  have h2 : 2 ≤ cameras.length := by
    have := (List.getElem?_eq_some_iff.1 hj).1
    rw [hz] at this
    omega
  have hma := List.mem_of_getElem? hi
  have hmb := List.mem_of_getElem? hj
  have hdepth : ∀ (c : Cam) (n : V2) (z : ℝ), SeesAt c.rotation (poseMatrix c).2 X 1 n z → (inCamera c (X, 1)).z = z := by
    intro c n z h
    rw [← poseMatrix_apply]
    have := congrArg V3.z h
    simp only [V3.smul, mul_one] at this
    exact this
  obtain ⟨za, hza⟩ := hca
  obtain ⟨zb, hzb⟩ := hcb
  have pa := (hsee a hma).2.1
  have pb := (hsee b hmb).2.1
  rw [hdepth _ _ _ hza] at pa
  rw [hdepth _ _ _ hzb] at pb
  have hcent : ∀ c : Cam, Centre (poseMatrix c).1 (poseMatrix c).2 c.position := by
    intro c
    apply V3.ext <;> simp [poseMatrix, V3.add, V3.neg, V3.zero]
  obtain ⟨k, -, htri⟩ := C49_triangulate_exact (P1 := poseMatrix a.1) (P2 := poseMatrix b.1) ha hb pa.ne' pb.ne' hza hzb (hcent _) (hcent _)
    hd hpar hsm
  have hk : 0 < k := by
    have := hsign _ ⟨_, _, hna, hnb, htri⟩
    simpa using this
  have hcam : ∀ c : Cam, inCamera c (X.smul k, k * 1) = (inCamera c (X, 1)).smul k := by
    intro c
    apply V3.ext <;> simp only [inCamera, M3.mulVec, V3.dot, V3.sub, V3.smul] <;> ring
  have hzk : ∀ o ∈ cameras.zip features, 0 < (inCamera o.1 (X.smul k, k * 1)).z := by
    intro o ho
    rw [hcam]
    exact mul_pos hk (hsee o ho).2.1
  have hpix : ∀ o ∈ cameras.zip features, o.1.toPixel (inCamera o.1 (X.smul k, k * 1)) = .ok o.2 := by
    intro o ho
    rw [hcam, (hsee o ho).1 k hk]
    exact (hsee o ho).2.2
  have hpp : PointOfPair smallest [a, b] (X.smul k, k * 1) := ⟨a, b, rfl, ⟨_, _, hna, hnb, htri⟩, hzk a hma, hzk b hmb⟩
  have hself : ∀ p : ℝ × ℝ, distanceSq p p = 0 := by simp [distanceSq]
  have hzero : ∀ o ∈ cameras.zip features, ImagedWithin s.errorThresh (X.smul k, k * 1) o ∧ imageSq (X.smul k, k * 1) o = 0 := by
    intro o ho
    refine ⟨⟨.inl (mul_pos (hzk o ho) (by simpa using hk)), o.2, hpix o ho, by rw [hself]; exact hs⟩, ?_⟩
    unfold imageSq
    have h : ∃ pixel, o.1.toPixel (inCamera o.1 (X.smul k, k * 1)) = .ok pixel := ⟨_, hpix o ho⟩
    rw [dif_pos h]
    have := h.choose_spec.symm.trans (hpix o ho)
    rw [Outcome.ok.inj this, hself]
  obtain ⟨Y, sum, he, -, -, hbest, hin⟩ := C92_best_pair smallest junk hs hr hf lmed sample hlen h2 h15 hray initial
  refine ⟨Y, sum, he, ?_⟩
  rw [← hz]
  have hR : RobustResult (cameras.zip features) (fun _ => some [i, j]) 1 (fun _ _ => True) (PointOfPair smallest)
      (ImagedWithin s.errorThresh)
      (fun X => robustCost s.useMle s.errorThresh (ImagedWithin s.errorThresh X) (imageSq X) (cameras.zip features)) initial Y
      sum.inliers := by
    refine ⟨.inr ⟨0, by norm_num, [a, b], ⟨_, rfl, .cons hi (.cons hj .nil)⟩, trivial⟩, ?_, hin⟩
    rintro n - ds X' ⟨idx, hidx, hp⟩ hX'
    cases hidx
    simp only [Picked, List.forall₂_cons_left_iff, List.forall₂_nil_left_iff] at hp
    obtain ⟨x, l, hx, ⟨y, l', hy, rfl, rfl⟩, rfl⟩ := hp
    exact ⟨⟨0, by norm_num, [a, b], ⟨_, rfl, .cons hi (.cons hj .nil)⟩, trivial⟩,
      (hbest _ X' ⟨i, j, x, y, hij, hx, hy, rfl⟩ hX').2⟩
  exact C90_all_inliers hs hR (fun X o h => by
      unfold imageSq
      split
      · simp only [distanceSq]; positivity
      · exact le_refl _) (i := 0) (by norm_num) ⟨_, rfl, .cons hi (.cons hj .nil)⟩ hpp hzero

/-- A camera without calibration and distortion. -/
noncomputable def plainCam (P : P34) : Cam where
  rotation := P.1
  position := (P.1.transpose.mulVec P.2).neg
  toPixel v := if v.z = 0 then .ub else .ok (v.x / v.z, v.y / v.z)
  toCamera f := .ok ⟨f.1, f.2, 1⟩

private theorem plain_matrix {P : P34} (h : P.1.IsRotation) : poseMatrix (plainCam P) = P := by
  unfold poseMatrix plainCam
  simp only
  have : P.1.mulVec (P.1.transpose.mulVec P.2).neg = (P.1.mulVec (P.1.transpose.mulVec P.2)).neg := by
    apply V3.ext <;> simp only [M3.mulVec, V3.dot, V3.neg] <;> ring
  rw [this, h.mulVec_transpose]
  apply Prod.ext
  · rfl
  · apply V3.ext <;> simp [V3.neg]

private theorem plain_normalized (P : P34) (f : V2) : NormalizedFeature (plainCam P, f) f :=
  ⟨⟨f.1, f.2, 1⟩, rfl, one_ne_zero, by simp⟩

private theorem normalized_unique {o : Cam × V2} {n n' : V2} (h : NormalizedFeature o n) (h' : NormalizedFeature o n') : n = n' := by
  obtain ⟨r, e1, -, rfl⟩ := h
  obtain ⟨r', e2, -, rfl⟩ := h'
  rw [e1] at e2
  cases e2
  rfl

/-- C92: whether two exact observations of a point in front of both cameras are triangulated depends on the sign the singular value decomposition happens to
give its vectors: with one of the two valid signs nothing is triangulated, but success is reported, with the point as it was before the call. -/
theorem C92_sign_counterexample :
    ∃ (P1 P2 : P34) (p1 p2 : V2) (X : V3 ℝ) (v : V4), P1.1.IsRotation ∧ P2.1.IsRotation ∧
      SeesAt P1.1 P1.2 X 1 p1 (3 / 4) ∧ SeesAt P2.1 P2.2 X 1 p2 (3 / 4) ∧
      SmallestVector (fun Y => sqNorm (dltDesign P1 P2 p1 p2 Y)) v ∧
      ∀ (junk : List Observation → Option V4) (s : Settings) (lmed : List (WithTop ℝ) → WithTop ℝ × List Nat)
        (sample : Nat → Option (List Nat)) (initial : V4), 0 < s.errorThresh → 0 ≤ s.params.minInlierRatio ∧ s.params.minInlierRatio ≤ 1 →
        0 < s.params.failureProbability ∧ s.params.failureProbability < 1 →
        ∃ sum, estimate (fun _ => v) junk s lmed sample [plainCam P1, plainCam P2] [p1, p2] initial = .ok (some (initial, sum)) := by
  obtain ⟨P1, P2, p1, p2, X, -, v, h1, h2, hs1, hs2, -, hv, -, hnone⟩ := C49_estimator_sign_counterexample
  refine ⟨P1, P2, p1, p2, X, v, h1, h2, hs1, hs2, hv, fun junk s lmed sample initial hs hr hf => ?_⟩
  obtain ⟨Y, sum, he, -, hY, -⟩ := C92_best_pair (fun _ => v) junk hs hr hf lmed sample (cameras := [plainCam P1, plainCam P2])
    (features := [p1, p2]) rfl (by simp) (by simp) (by
      rw [List.zip_cons_cons, List.zip_cons_cons, List.forall_mem_cons, List.forall_mem_cons]
      exact ⟨⟨_, plain_normalized P1 p1⟩, ⟨_, plain_normalized P2 p2⟩, by simp⟩) initial
  rcases hY with rfl | ⟨pair, ⟨i, j, a, b, hij, ha, hb, rfl⟩, hp⟩
  · exact ⟨sum, he⟩
  · exfalso
    have hlt := (List.getElem?_eq_some_iff.1 hb).1
    simp at hlt
    obtain rfl : j = 1 := by omega
    obtain rfl : i = 0 := by omega
    simp at ha hb
    subst ha hb
    have htri : ∀ r, PairTriangulates (fun _ => v) (plainCam P1, p1) (plainCam P2, p2) r → triangulate (fun _ => v) P1 P2 p1 p2 = r := by
      rintro r ⟨na, nb, hna, hnb, e⟩
      rw [normalized_unique hna (plain_normalized P1 p1), normalized_unique hnb (plain_normalized P2 p2)] at e
      simpa only [plain_matrix h1, plain_matrix h2] using e
    rcases estimateModel_cases (fun _ => v) P1 P2 p1 p2 with ⟨Z, e1, e2⟩ | ⟨-, e2⟩
    · rcases hp with ⟨a, b, e, hpt, hza, hzb⟩ | ⟨a, b, e, r, hpt, hr'⟩
      · simp only [List.cons.injEq, and_true] at e
        obtain ⟨rfl, rfl⟩ := e
        have := Outcome.ok.inj (e1.symm.trans (htri _ hpt))
        subst this
        rw [← poseMatrix_apply, plain_matrix h1] at hza
        rw [← poseMatrix_apply, plain_matrix h2] at hzb
        rw [e2, if_pos ⟨hza, hzb⟩] at hnone
        simp at hnone
      · simp only [List.cons.injEq, and_true] at e
        obtain ⟨rfl, rfl⟩ := e
        exact hr' Z ((htri _ hpt).symm.trans e1)
    · rcases e2 with e2 | e2 <;> rw [e2] at hnone <;> cases hnone

/-- The hypotheses of `C92_exact_partial` are met by these two cameras with the other sign: both observations are inliers. -/
example (junk : List Observation → Option V4) {s : Settings} (hs : 0 < s.errorThresh)
    (hr : 0 ≤ s.params.minInlierRatio ∧ s.params.minInlierRatio ≤ 1) (hf : 0 < s.params.failureProbability ∧ s.params.failureProbability < 1)
    (lmed : List (WithTop ℝ) → WithTop ℝ × List Nat) (sample : Nat → Option (List Nat)) (initial : V4) :
    ∃ Y sum, estimate (fun _ => (⟨0, 0, 3 / 5 * 1⟩, 4 / 5 * 1)) junk s lmed sample [plainCam twoCameras.1, plainCam twoCameras.2]
        [(0, 0), (-4 / 3, 0)] initial = .ok (some (Y, sum)) ∧ ∀ j, j ∈ sum.inliers ↔ j < 2 := by
  have m1 : poseMatrix (plainCam twoCameras.1) = twoCameras.1 := plain_matrix M3.IsRotation.one
  have m2 : poseMatrix (plainCam twoCameras.2) = twoCameras.2 := plain_matrix M3.IsRotation.one
  have hs1 : SeesAt twoCameras.1.1 twoCameras.1.2 ⟨0, 0, 3 / 4⟩ 1 (0, 0) (3 / 4) := by
    apply V3.ext <;> norm_num [twoCameras, M3.mulVec, M3.one, V3.dot, V3.add, V3.smul]
  have hs2 : SeesAt twoCameras.2.1 twoCameras.2.2 ⟨0, 0, 3 / 4⟩ 1 (-4 / 3, 0) (3 / 4) := by
    apply V3.ext <;> norm_num [twoCameras, M3.mulVec, M3.one, V3.dot, V3.add, V3.smul]
  have hplain : ∀ P, RayCamera (plainCam P) := by
    intro P k hk v
    simp only [plainCam, V3.smul, mul_eq_zero, hk.ne', false_or, mul_div_mul_left _ _ hk.ne']
  refine C92_exact_partial junk hs hr hf lmed sample (cameras := [plainCam twoCameras.1, plainCam twoCameras.2])
    (features := [(0, 0), (-4 / 3, 0)]) rfl (by simp) ?_ initial ⟨0, 0, 3 / 4⟩ ?_ (a := (plainCam twoCameras.1, (0, 0)))
    (b := (plainCam twoCameras.2, (-4 / 3, 0))) ⟨0, 1, _, _, by norm_num, rfl, rfl, rfl⟩ M3.IsRotation.one M3.IsRotation.one
    (plain_normalized _ _) (plain_normalized _ _) ⟨3 / 4, by rw [m1]; exact hs1⟩ ⟨3 / 4, by rw [m2]; exact hs2⟩ (d := ⟨-4 / 3, 0, 1⟩) ?_ ?_ ?_ ?_
  · rw [List.zip_cons_cons, List.zip_cons_cons, List.forall_mem_cons, List.forall_mem_cons]
    exact ⟨⟨_, plain_normalized _ _⟩, ⟨_, plain_normalized _ _⟩, by simp⟩
  · rw [List.zip_cons_cons, List.zip_cons_cons, List.forall_mem_cons, List.forall_mem_cons]
    simp only [← poseMatrix_apply, m1, m2]
    refine ⟨⟨hplain _, ?_, ?_⟩, ⟨hplain _, ?_, ?_⟩, by simp⟩ <;>
      norm_num [applyP, plainCam, twoCameras, M3.mulVec, M3.one, V3.dot, V3.add, V3.smul]
  · apply V3.ext <;> norm_num [plainCam, twoCameras, M3.mulVec, M3.one, V3.dot]
  · intro h
    have := congrArg V3.y h
    norm_num [V3.cross, V3.zero, V3.sub, plainCam, twoCameras, M3.mulVec, M3.transpose, M3.one, V3.dot, V3.neg] at this
  · rw [m1, m2]
    exact twoCameras_smallest 1 (by norm_num)
  · rintro Y ⟨na, nb, -, -, e⟩
    unfold triangulate at e
    obtain ⟨c, -, e⟩ := Outcome.bind_eq_ok.1 e
    cases e
    norm_num [triangulateDLT]

/-- The hypotheses of `C92_sampled_pairs` are met by sixteen cameras and a sampler that always draws the first two. -/
example : ValidSettings .ransac ⟨1, true, ⟨1 / 100, 1 / 10, 1, 100, false⟩⟩ ∧
    (List.replicate 16 (plainCam twoCameras.1)).length = (List.replicate 16 ((0, 0) : V2)).length ∧
    SamplesOf 2 16 (fun _ => some [0, 1]) ∧
    ∀ o ∈ (List.replicate 16 (plainCam twoCameras.1)).zip (List.replicate 16 ((0, 0) : V2)), ∃ n, NormalizedFeature o n := by
  refine ⟨⟨.inl rfl, by norm_num, by norm_num [Ransac.Params.Valid]⟩, by simp, ?_, ?_⟩
  · rintro i idx h
    cases h
    simp
  · intro o ho
    obtain ⟨h1, h2⟩ := List.of_mem_zip (a := o.1) (b := o.2) ho
    have e1 := List.eq_of_mem_replicate h1
    exact ⟨o.2, by
      have : o = (plainCam twoCameras.1, o.2) := Prod.ext e1 rfl
      rw [this]
      exact plain_normalized _ _⟩

end Theia
