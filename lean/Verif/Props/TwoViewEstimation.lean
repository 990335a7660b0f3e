import Mathlib.Analysis.Real.Pi.Bounds
import Verif.Proof.Svd
import Verif.Proof.TwoViewEstimation

/-!
# C89: the geometry of two views
-/

namespace Theia

open Spec RansacVariants TwoViewEstimation CameraPriors

/-- Options that pass the checks, for the two variants with a threshold that draw samples of any size. -/
def ValidOptions (o : Options) : Prop :=
  0 < o.maxSampsonErrorPixels ∧ 0 < o.confidence ∧ o.confidence < 1 ∧ o.minIterations ≤ o.maxIterations ∧
    (o.ransacType = .ransac ∨ o.ransacType = .prosac)

/-- No image has a negative size. -/
def ValidSizes (p1 p2 : IntrinsicsPrior ℝ) : Prop := 0 ≤ p1.width ∧ 0 ≤ p1.height ∧ 0 ≤ p2.width ∧ 0 ≤ p2.height

theorem imageThreshold_pos {px : ℚ} (h : 0 < px) {w k : Int} (hw : 0 ≤ w) (hk : 0 ≤ k) : 0 < imageThreshold px w k := by
  unfold imageThreshold
  split
  · exact h
  · next h0 =>
    have : (0 : ℚ) < ((max w k : Int) : ℚ) := by
      have : 0 < max w k := by omega
      exact_mod_cast this
    positivity

theorem settings_valid {o : Options} (ho : ValidOptions o) (t : ℝ) : (settings o t).params.Valid := by
  obtain ⟨-, h1, h2, h3, -⟩ := ho
  refine ⟨by norm_num [settings], by norm_num [settings], ?_, ?_, h3⟩
  · simp only [settings]; linarith
  · simp only [settings]; linarith

theorem truth_evaluated {env : Env} (hsvd : ∀ E, IsSvd E (env.svd E).1 (env.svd E).2) {ns : List ((ℝ × ℝ) × (ℝ × ℝ))}
    {n i : Nat} (hi : i < n) {idx : List Nat} (hs : env.sample i = some idx) {E R : M3 ℝ} {t c : V3 ℝ}
    (hT : SampleOfTruth env.fivePoint ns idx E R t) (hc : Centre R t c) :
    (⟨E, R, c⟩ : RelativePose) ∈ modelsUpTo ns env.sample (relativeModels env) n := by
  obtain ⟨ds, Es, k, hp, h4, hg, hf, hE, hR, ht, hk, hI⟩ := hT
  obtain ⟨m, p, hb, hcp, hm⟩ := C56_recovers (corrs := ds) (good := ds) (bad := []) (hsvd E) hR ht hk hI
    (by simp) hg (by simp only [List.length_nil]; omega)
  have : p = c := by rw [centre_unique hR hcp, centre_unique hR hc]
  subst this
  have hpose : poseOf env.svd ds E = some ⟨E, R, p⟩ := by
    unfold poseOf
    rw [hb]
    exact if_pos (h4.trans hm)
  have hmem : (⟨E, R, p⟩ : RelativePose) ∈ Es.filterMap (poseOf env.svd ds) := List.mem_filterMap.2 ⟨E, hE, hpose⟩
  refine mem_modelsUpTo.2 ⟨i, hi, idx, ds, _, hs, hp, ?_, hmem⟩
  unfold relativeModels
  rw [hf]
  exact if_pos (List.length_pos_of_mem hmem)

theorem truth_evaluated_pixels {env : Env} (hsvd : ∀ E, IsSvd E (env.svd E).1 (env.svd E).2)
    {ns : List ((ℝ × ℝ) × (ℝ × ℝ))} {n i : Nat} (hi : i < n) {idx : List Nat} (hs : env.sample i = some idx) {F R : M3 ℝ}
    {f1 f2 : ℝ} {t c : V3 ℝ} (hT : SampleOfTruthPixels env.eightPoint env.focals ns idx F R f1 f2 t) (hc : Centre R t c) :
    (⟨F, f1, f2, R, c⟩ : UncalibratedPose) ∈ modelsUpTo ns env.sample (uncalibratedModels env) n := by
  obtain ⟨ds, k, hp, h8, hg, hf, hF, hR, ht, hk, hI⟩ := hT
  have hI' : IsEssential (FundamentalMatrix.essentialOf F f1 f2) R t k := hI
  obtain ⟨m, p, hb, hcp, hm⟩ := C56_recovers (corrs := ds.map (scaleDown f1 f2)) (good := ds.map (scaleDown f1 f2)) (bad := [])
    (hsvd _) hR ht hk hI' (by simp)
    (by
      intro c hc
      obtain ⟨d, hd, rfl⟩ := List.mem_map.1 hc
      exact hg d hd)
    (by simp only [List.length_nil, List.length_map]; omega)
  have : p = c := by rw [centre_unique hR hcp, centre_unique hR hc]
  subst this
  refine mem_modelsUpTo.2 ⟨i, hi, idx, ds, [⟨F, f1, f2, R, p⟩], hs, hp, ?_, List.mem_singleton.2 rfl⟩
  unfold uncalibratedModels
  rw [List.take_of_length_le (by simp [h8]), List.take_of_length_le (by simp [h8]), hf]
  simp only [hF, hb]

theorem exactly_congr {α : Type} {ns : List α} {P Q : α → Prop} {l : List Nat} (h : ExactlyThePositions ns P l)
    (hPQ : ∀ x, P x ↔ Q x) : ExactlyThePositions ns Q l :=
  ⟨h.1, fun i => (h.2 i).trans (exists_congr fun x => and_congr_right fun _ => hPQ x)⟩

/-- Two views with focal lengths. The function reports success. Either no sample gave a pose, or the rotation and the position
reported are those of a pose computed from one of the samples drawn (with the essential matrix `E`); the inliers are exactly
the correspondences whose normalised features are seen in front of both cameras with a squared Sampson distance below the
product of the thresholds of the images over the focal lengths, and they are counted; and if a sample was drawn from which
the solver computes the essential matrix of a pose with all points of the sample in front of its cameras, the pose returned
costs no more than this one. -/
theorem C89_calibrated_partial (env : Env) (hsvd : ∀ E, IsSvd E (env.svd E).1 (env.svd E).2) (o : Options) (ho : ValidOptions o)
    (p1 p2 : IntrinsicsPrior ℝ) (hsz : ValidSizes p1 p2) (hs : p1.focal.isSet = true ∧ p2.focal.isSet = true)
    (hf : 0 < p1.focal.value ∧ 0 < p2.focal.value) (corrs : List PixelMatch) (h5 : 5 ≤ corrs.length)
    (ns : List ((ℝ × ℝ) × (ℝ × ℝ))) (hn : normalizeFeatures p1 p2 corrs = .ok ns)
    (hsam : ∀ i idx, env.sample i = some idx → ∀ j ∈ idx, j < corrs.length) (info : TwoView.Info) (t : ℝ)
    (ht : t = ((imageThreshold o.maxSampsonErrorPixels p1.width p1.height *
      imageThreshold o.maxSampsonErrorPixels p2.width p2.height : ℚ) : ℝ) / (p1.focal.value * p2.focal.value)) :
    ∃ (n : Nat) (E R : M3 ℝ) (p : V3 ℝ) (inliers : List Nat),
      estimate env o p1 p2 corrs info = .ok (true, { info with
        rotation := env.angleAxis R, position := p, focal1 := p1.focal.value, focal2 := p2.focal.value,
        verified := inliers.length, visibility := 0 }, inliers) ∧
      o.minIterations ≤ n ∧ (n : Int) ≤ max 0 o.maxIterations ∧
      (modelsUpTo ns env.sample (relativeModels env) n = [] → env.uninitialised = ⟨E, R, p⟩) ∧
      (modelsUpTo ns env.sample (relativeModels env) n ≠ [] →
        (∃ i < n, ∃ idx ds Es, env.sample i = some idx ∧ Picked ns idx ds ∧
          env.fivePoint (ds.map Prod.fst) (ds.map Prod.snd) = some Es ∧ PoseOfSample Es ds E R p) ∧
        ExactlyThePositions ns (Verified E R p t) inliers) ∧
      ∀ i < n, ∀ idx, env.sample i = some idx → ∀ E' R' t' c, SampleOfTruth env.fivePoint ns idx E' R' t' → Centre R' t' c →
        modelsUpTo ns env.sample (relativeModels env) n ≠ [] ∧
        verificationCost o.useMle t E (Verified E R p t) ns ≤ verificationCost o.useMle t E' (Verified E' R' c t) ns := by
  obtain ⟨hp1, -, -, -, htype⟩ := id ho
  have hlen := normalizeFeatures_length hn
  have hpos : 0 < t := by
    rw [ht]
    have : 0 < imageThreshold o.maxSampsonErrorPixels p1.width p1.height *
        imageThreshold o.maxSampsonErrorPixels p2.width p2.height :=
      mul_pos (imageThreshold_pos hp1 hsz.1 hsz.2.1) (imageThreshold_pos hp1 hsz.2.2.1 hsz.2.2.2)
    exact div_pos (by exact_mod_cast this) (mul_pos hf.1 hf.2)
  have htp : ((thresholdProduct o p1 p2 : ℚ) : ℝ) / (p1.focal.value * p2.focal.value) = t := by rw [ht]; rfl
  obtain ⟨best, sum, hr, a1, a2, a3, a4, a5, a6⟩ := consensus_spec htype (s := settings o t) hpos (settings_valid ho t) env.lmed
    (data := ns) (sample := env.sample) (by rw [hlen]; exact hsam) (relativeModels env) (sampleSize := 5) (by norm_num)
    (by rw [hlen]; exact h5) relativeError env.uninitialised
  have hrot : ∀ m ∈ modelsUpTo ns env.sample (relativeModels env) sum.numIterations,
      ∃ i < sum.numIterations, ∃ idx ds Es, env.sample i = some idx ∧ Picked ns idx ds ∧
          env.fivePoint (ds.map Prod.fst) (ds.map Prod.snd) = some Es ∧
          PoseOfSample Es ds m.essential m.rotation m.position := by
    intro m hm
    obtain ⟨i, hi, idx, ds, ms, b1, b2, b3, b4⟩ := mem_modelsUpTo.1 hm
    obtain ⟨Es, c1, c2⟩ := mem_relativeModels hsvd b3 b4
    exact ⟨i, hi, idx, ds, Es, b1, b2, c1, c2⟩
  refine ⟨sum.numIterations, best.essential, best.rotation, best.position, sum.inliers, ?_, a1, a2, ?_, ?_, ?_⟩
  · unfold estimate
    rw [hs.1, hs.2]
    simp only [Bool.and_self, if_true]
    unfold calibrated
    rw [hn, Outcome.ok_bind, htp]
    unfold estimateRelativePose
    rw [hr, Outcome.ok_bind, visibility_nil p1 p2 corrs hsz, Outcome.ok_bind]
  · intro h
    rw [← a3 h]
  · intro h
    obtain ⟨i, hi, idx, ds, Es, b1, b2, b3, b4⟩ := hrot best (a4 h)
    exact ⟨⟨i, hi, idx, ds, Es, b1, b2, b3, b4⟩, exactly_congr a6 (relativeError_lt b4.2.1 t)⟩
  · intro i hi idx hidx E' R' t' c hT hc
    have hmem := truth_evaluated hsvd hi hidx hT hc
    have hne := List.ne_nil_of_mem hmem
    refine ⟨hne, ?_⟩
    obtain ⟨_, _, _, _, _, _, _, _, b4⟩ := hrot best (a4 hne)
    obtain ⟨_, _, _, _, _, _, _, _, hR', _⟩ := hT
    have := a5 _ hmem
    rw [show (settings o t).useMle = o.useMle from rfl, show (settings o t).errorThresh = t from rfl,
      relative_cost b4.2.1, relative_cost (m := ⟨E', R', c⟩) hR'] at this
    exact this

/-- Two views of which at least one has no focal length. The same with the solver for eight points, the focal lengths computed
from the fundamental matrix (a known one is not used), the product of the thresholds, and the number of correspondences that
are not verified as the cost, whatever the options ask for. -/
theorem C89_uncalibrated (env : Env) (hsvd : ∀ E, IsSvd E (env.svd E).1 (env.svd E).2) (o : Options) (ho : ValidOptions o)
    (p1 p2 : IntrinsicsPrior ℝ) (hsz : ValidSizes p1 p2) (hs : p1.focal.isSet = false ∨ p2.focal.isSet = false)
    (corrs : List PixelMatch) (h8 : 8 ≤ corrs.length) (ns : List ((ℝ × ℝ) × (ℝ × ℝ)))
    (hn : normalizeFeatures p1 p2 corrs = .ok ns)
    (hsam : ∀ i idx, env.sample i = some idx → ∀ j ∈ idx, j < corrs.length) (info : TwoView.Info) (t : ℝ)
    (ht : t = ((imageThreshold o.maxSampsonErrorPixels p1.width p1.height *
      imageThreshold o.maxSampsonErrorPixels p2.width p2.height : ℚ) : ℝ)) :
    ∃ (n : Nat) (F R : M3 ℝ) (f1 f2 : ℝ) (p : V3 ℝ) (inliers : List Nat),
      estimate env o p1 p2 corrs info = .ok (true, { info with
        rotation := env.angleAxis R, position := p, focal1 := f1, focal2 := f2,
        verified := inliers.length, visibility := 0 }, inliers) ∧
      o.minIterations ≤ n ∧ (n : Int) ≤ max 0 o.maxIterations ∧
      (modelsUpTo ns env.sample (uncalibratedModels env) n = [] → env.uninitialisedU = ⟨F, f1, f2, R, p⟩) ∧
      (modelsUpTo ns env.sample (uncalibratedModels env) n ≠ [] →
        (∃ i < n, ∃ idx ds, env.sample i = some idx ∧ Picked ns idx ds ∧
          env.eightPoint ((ds.map Prod.fst).take 8) ((ds.map Prod.snd).take 8) = some F ∧ env.focals F = some (f1, f2)) ∧
        R.IsRotation ∧ p.dot p = 1 ∧ ExactlyThePositions ns (VerifiedPixels F R p f1 f2 t) inliers) ∧
      ∀ i < n, ∀ idx, env.sample i = some idx → ∀ F' R' f1' f2' t' c,
        SampleOfTruthPixels env.eightPoint env.focals ns idx F' R' f1' f2' t' → Centre R' t' c →
        modelsUpTo ns env.sample (uncalibratedModels env) n ≠ [] ∧
        verificationCost false t F (VerifiedPixels F R p f1 f2 t) ns ≤
          verificationCost false t F' (VerifiedPixels F' R' c f1' f2' t) ns := by
  obtain ⟨hp1, -, -, -, htype⟩ := id ho
  have hlen := normalizeFeatures_length hn
  have hpos : 0 < t := by
    rw [ht]
    have : 0 < imageThreshold o.maxSampsonErrorPixels p1.width p1.height *
        imageThreshold o.maxSampsonErrorPixels p2.width p2.height :=
      mul_pos (imageThreshold_pos hp1 hsz.1 hsz.2.1) (imageThreshold_pos hp1 hsz.2.2.1 hsz.2.2.2)
    exact_mod_cast this
  have htp : ((thresholdProduct o p1 p2 : ℚ) : ℝ) = t := by rw [ht]; rfl
  obtain ⟨best, sum, hr, a1, a2, a3, a4, a5, a6⟩ := consensus_spec htype (s := { settings o t with useMle := false }) hpos
    (settings_valid ho t) env.lmed (data := ns) (sample := env.sample) (by rw [hlen]; exact hsam) (uncalibratedModels env)
    (sampleSize := 8) (by norm_num) (by rw [hlen]; exact h8) uncalibratedError env.uninitialisedU
  refine ⟨sum.numIterations, best.fundamental, best.rotation, best.focal1, best.focal2, best.position, sum.inliers, ?_, a1, a2,
    ?_, ?_, ?_⟩
  · have hunc : estimate env o p1 p2 corrs info = uncalibrated env o p1 p2 corrs info [] := by
      unfold estimate
      rcases hs with h | h <;> simp [h]
    rw [hunc]
    unfold uncalibrated
    rw [hn, Outcome.ok_bind, htp]
    unfold estimateUncalibratedPose
    rw [hr, Outcome.ok_bind, visibility_nil p1 p2 corrs hsz, Outcome.ok_bind]
  · intro h
    rw [← a3 h]
  · intro h
    obtain ⟨i, hi, idx, ds, ms, b1, b2, b3, b4⟩ := mem_modelsUpTo.1 (a4 h)
    obtain ⟨c1, c2, c3, c4, -⟩ := mem_uncalibratedModels hsvd b3 b4
    exact ⟨⟨i, hi, idx, ds, b1, b2, c1, c2⟩, c3, c4, exactly_congr a6 (uncalibratedError_lt c3 t)⟩
  · intro i hi idx hidx F' R' f1' f2' t' c hT hc
    have hmem := truth_evaluated_pixels hsvd hi hidx hT hc
    have hne := List.ne_nil_of_mem hmem
    refine ⟨hne, ?_⟩
    obtain ⟨_, _, _, _, ms, _, _, b3, b4⟩ := mem_modelsUpTo.1 (a4 hne)
    obtain ⟨_, _, c3, _, _⟩ := mem_uncalibratedModels hsvd b3 b4
    obtain ⟨_, _, _, _, _, _, _, hR', _⟩ := hT
    have := a5 _ hmem
    rw [show ({ settings o t with useMle := false } : Settings).useMle = false from rfl,
      show ({ settings o t with useMle := false } : Settings).errorThresh = t from rfl,
      uncalibrated_cost c3, uncalibrated_cost (m := ⟨F', f1', f2', R', c⟩) hR'] at this
    exact this

/-- Counting: with the number of correspondences that are not verified as the cost, a pose that costs no more has at least as
many verified correspondences. -/
theorem C89_cost_counts (t : ℝ) (F : M3 ℝ) (P : (ℝ × ℝ) × (ℝ × ℝ) → Prop) (ns : List ((ℝ × ℝ) × (ℝ × ℝ))) (l : List Nat)
    (h : ExactlyThePositions ns P l) : verificationCost false t F P ns = (ns.length : ℝ) - l.length := by
  classical
  have hl : l.length = ns.countP (fun c => decide (P c)) := by
    have h2 := Quality.exactly_inlierIndices (fun c => decide (P c)) ns
    rw [← Quality.length_inlierIndices (fun c => decide (P c)) ns 0]
    refine List.Perm.length_eq ((List.perm_ext_iff_of_nodup (h.1.imp fun {_ _} hab => Nat.ne_of_lt hab)
      (h2.1.imp fun {_ _} hab => Nat.ne_of_lt hab)).2 fun i => ?_)
    rw [h.2 i, h2.2 i]
    simp
  rw [hl]
  clear hl h
  unfold verificationCost
  induction ns with
  | nil => simp
  | cons c cs ih =>
    rw [List.map_cons, List.sum_cons, ih, List.countP_cons, List.length_cons]
    by_cases hc : P c
    · simp [hc]
    · simp [hc]
      ring

/-! ## Units -/

theorem gradient_split (E : M3 ℝ) {f1 f2 : ℝ} (h1 : 0 < f1) (h2 : 0 < f2) (c1 c2 x y : ℝ × ℝ) :
    ∃ A B, 0 ≤ A ∧ 0 ≤ B ∧
      epipolarGradient E ((x.1 - c1.1) / f1, (x.2 - c1.2) / f1) ((y.1 - c2.1) / f2, (y.2 - c2.2) / f2) = A + B ∧
      epipolarGradient (pixelMatrix E f1 f2 c1 c2) x y = A / f1 ^ 2 + B / f2 ^ 2 := by
  refine ⟨(E.r1.x * ((y.1 - c2.1) / f2) + E.r2.x * ((y.2 - c2.2) / f2) + E.r3.x) ^ 2 +
    (E.r1.y * ((y.1 - c2.1) / f2) + E.r2.y * ((y.2 - c2.2) / f2) + E.r3.y) ^ 2,
    (E.r1.x * ((x.1 - c1.1) / f1) + E.r1.y * ((x.2 - c1.2) / f1) + E.r1.z) ^ 2 +
    (E.r2.x * ((x.1 - c1.1) / f1) + E.r2.y * ((x.2 - c1.2) / f1) + E.r2.z) ^ 2, by positivity, by positivity, ?_, ?_⟩
  · simp only [epipolarGradient]
    ring
  · simp only [epipolarGradient, pixelMatrix, M3.mul, M3.transpose, M3.mulVec, V3.dot]
    field_simp
    ring

/-- The threshold is in pixels. The features of a camera with square pixels are the pixels relative to the principal point over
the focal length. With the fundamental matrix in pixels, the epipolar residual is the same, and the test on the normalised
features with the threshold over the focal lengths is the test on the pixels if the focal lengths are equal; if their ratio is
at most `ρ`, the squared distance in pixels differs by at most the factor `ρ`. -/
theorem C89_units (E : M3 ℝ) {f1 f2 ρ T : ℝ} (h1 : 0 < f1) (h2 : 0 < f2) (hT : 0 < T) (hr1 : f1 ≤ ρ * f2) (hr2 : f2 ≤ ρ * f1)
    (c1 c2 x y : ℝ × ℝ) (xn yn : ℝ × ℝ) (hx : xn = ((x.1 - c1.1) / f1, (x.2 - c1.2) / f1))
    (hy : yn = ((y.1 - c2.1) / f2, (y.2 - c2.2) / f2)) :
    epipolar (pixelMatrix E f1 f2 c1 c2) x y = epipolar E xn yn ∧
      (SampsonBelow E (T / (f1 * f2)) xn yn → SampsonBelow (pixelMatrix E f1 f2 c1 c2) (ρ * T) x y) ∧
      (SampsonBelow (pixelMatrix E f1 f2 c1 c2) (T / ρ) x y → SampsonBelow E (T / (f1 * f2)) xn yn) := by
  subst hx hy
  have he : epipolar (pixelMatrix E f1 f2 c1 c2) x y =
      epipolar E ((x.1 - c1.1) / f1, (x.2 - c1.2) / f1) ((y.1 - c2.1) / f2, (y.2 - c2.2) / f2) := by
    simp only [epipolar, pixelMatrix, M3.mul, M3.transpose, M3.mulVec, V3.dot]
    field_simp
    ring
  obtain ⟨A, B, hA, hB, g1, g2⟩ := gradient_split E h1 h2 c1 c2 x y
  have hρ : 0 < ρ := by
    by_contra h
    have : ρ * f2 ≤ 0 := mul_nonpos_of_nonpos_of_nonneg (not_lt.1 h) h2.le
    linarith
  refine ⟨he, fun h => ?_, fun h => ?_⟩
  · rw [SampsonBelow, he, g2]
    rw [SampsonBelow, g1] at h
    refine lt_of_lt_of_le h ?_
    have e1 : A / (f1 * f2) ≤ ρ * (A / f1 ^ 2) := by
      rw [← mul_div_assoc, div_le_div_iff₀ (by positivity) (by positivity)]
      nlinarith [mul_nonneg (mul_nonneg hA h1.le) (sub_nonneg.2 hr1)]
    have e2 : B / (f1 * f2) ≤ ρ * (B / f2 ^ 2) := by
      rw [← mul_div_assoc, div_le_div_iff₀ (by positivity) (by positivity)]
      nlinarith [mul_nonneg (mul_nonneg hB h2.le) (sub_nonneg.2 hr2)]
    calc T / (f1 * f2) * (A + B) = T * (A / (f1 * f2) + B / (f1 * f2)) := by ring
      _ ≤ T * (ρ * (A / f1 ^ 2) + ρ * (B / f2 ^ 2)) := by gcongr
      _ = ρ * T * (A / f1 ^ 2 + B / f2 ^ 2) := by ring
  · rw [SampsonBelow, g1]
    rw [SampsonBelow, he, g2] at h
    refine lt_of_lt_of_le h ?_
    have e1 : A / f1 ^ 2 / ρ ≤ A / (f1 * f2) := by
      rw [div_div, div_le_div_iff₀ (by positivity) (by positivity)]
      nlinarith [mul_nonneg (mul_nonneg hA h1.le) (sub_nonneg.2 hr2)]
    have e2 : B / f2 ^ 2 / ρ ≤ B / (f1 * f2) := by
      rw [div_div, div_le_div_iff₀ (by positivity) (by positivity)]
      nlinarith [mul_nonneg (mul_nonneg hB h2.le) (sub_nonneg.2 hr1)]
    calc T / ρ * (A / f1 ^ 2 + B / f2 ^ 2) = T * (A / f1 ^ 2 / ρ + B / f2 ^ 2 / ρ) := by ring
      _ ≤ T * (A / (f1 * f2) + B / (f1 * f2)) := by gcongr
      _ = T / (f1 * f2) * (A + B) := by ring

/-! ## Features -/

/-- A prior for a camera without distortion, with square pixels and without skew. -/
def PlainPrior (p : IntrinsicsPrior ℝ) : Prop :=
  p.modelType = "PINHOLE" ∧ p.aspect.isSet = false ∧ p.skew.isSet = false ∧ p.radial.isSet = false ∧
    (p.focal.isSet = true → 0 < p.focal.value) ∧ 0 ≤ p.width ∧ 0 ≤ p.height

/-- The principal point a prior stands for: the one given, or the middle of the image. -/
noncomputable def principalOf (p : IntrinsicsPrior ℝ) : ℝ × ℝ :=
  if p.principal.isSet then p.principal.value
  else if p.width ≠ 0 ∧ p.height ≠ 0 then ((p.width : ℝ) / 2, (p.height : ℝ) / 2) else (0, 0)

theorem cameraFor_plain {p : IntrinsicsPrior ℝ} (hp : PlainPrior p) :
    ∃ f, 0 < f ∧ (p.focal.isSet = true → f = p.focal.value) ∧
      cameraFor p = .ok ⟨⟨.pinhole, [f, 1, 0, (principalOf p).1, (principalOf p).2, 0, 0]⟩, p.width, p.height⟩ := by
  obtain ⟨h1, h2, h3, h4, h5, hw, hh⟩ := hp
  have hset : ∃ f, 0 < f ∧ (p.focal.isSet = true → f = p.focal.value) ∧
      setFocalFromPrior (6 / 5) p (⟨.pinhole, [1, 1, 0, 0, 0, 0, 0]⟩ : Intrinsics ℝ) = .ok ⟨.pinhole, [f, 1, 0, 0, 0, 0, 0]⟩ := by
    unfold setFocalFromPrior
    cases hf : p.focal.isSet
    · by_cases hz : p.width ≠ 0 ∧ p.height ≠ 0
      · have hpos : (0 : ℝ) < 6 / 5 * ((max p.width p.height : Int) : ℝ) := by
          have : (0 : ℝ) < ((max p.width p.height : Int) : ℝ) := by
            have : 0 < max p.width p.height := by omega
            exact_mod_cast this
          positivity
        refine ⟨6 / 5 * ((max p.width p.height : Int) : ℝ), hpos, by simp, ?_⟩
        rw [if_neg (by simp), if_pos hz]
        unfold setFocalLength
        rw [if_pos hpos]
        rfl
      · exact ⟨1, by norm_num, by simp, by rw [if_neg (by simp), if_neg hz]⟩
    · refine ⟨p.focal.value, h5 hf, fun _ => rfl, ?_⟩
      rw [if_pos rfl]
      unfold setFocalLength
      rw [if_pos (h5 hf)]
      rfl
  obtain ⟨f, hf0, hf, hset⟩ := hset
  refine ⟨f, hf0, hf, ?_⟩
  have hprin : setPrincipalFromPrior p (⟨.pinhole, [f, 1, 0, 0, 0, 0, 0]⟩ : Intrinsics ℝ) =
      .ok ⟨.pinhole, [f, 1, 0, (principalOf p).1, (principalOf p).2, 0, 0]⟩ := by
    unfold setPrincipalFromPrior principalOf
    cases hq : p.principal.isSet
    · by_cases hz : p.width ≠ 0 ∧ p.height ≠ 0
      · simp only [if_pos hz, Bool.false_eq_true, if_false]
        rfl
      · simp only [if_neg hz, Bool.false_eq_true, if_false]
    · simp only [if_true]
      rfl
  unfold cameraFor Camera.setFromPriors
  have ht : stringToType p.modelType = .ok .pinhole := by rw [h1]; rfl
  rw [ht, Outcome.ok_bind]
  have hm : Camera.modelFor .pinhole (⟨⟨.pinhole, [1, 1, 0, 0, 0, 0, 0]⟩, 0, 0⟩ : Camera ℝ) =
      .ok ⟨.pinhole, [1, 1, 0, 0, 0, 0, 0]⟩ := by
    unfold Camera.modelFor
    rw [if_neg (by simp)]
  rw [hm, Outcome.ok_bind]
  have hs : CameraPriors.setFromPriors p (⟨.pinhole, [1, 1, 0, 0, 0, 0, 0]⟩ : Intrinsics ℝ) =
      .ok ⟨.pinhole, [f, 1, 0, (principalOf p).1, (principalOf p).2, 0, 0]⟩ := by
    simp only [CameraPriors.setFromPriors, setPinhole, hset, hprin, Outcome.ok_bind, setIf, h2, h3, h4, Bool.false_eq_true,
      if_false]
  rw [hs, Outcome.ok_bind]

theorem normalizeFeature_plain {f : ℝ} (hf : 0 < f) (c : ℝ × ℝ) (x : ℚ × ℚ) :
    normalizeFeature ⟨.pinhole, [f, 1, 0, c.1, c.2, 0, 0]⟩ x = .ok (((x.1 : ℝ) - c.1) / f, ((x.2 : ℝ) - c.2) / f) := by
  have hund : ∀ p, CameraModels.pinholeUndistort 0 0 p = .ok p := by
    intro p
    have hn : CameraModels.pinholeNext 0 0 p p = .ok p := by
      simp [CameraModels.pinholeNext, CameraModels.radialFactor, CameraModels.divide]
    unfold CameraModels.pinholeUndistort CameraModels.undistortLoop
    rw [hn, Outcome.ok_bind, if_pos (by simp)]
  unfold normalizeFeature toCamera
  simp only [CameraModels.pinholeToCamera, CameraModels.Calibration.undo, CameraModels.divide, mul_one, if_neg hf.ne', mul_zero,
    sub_zero, Outcome.ok_bind, hund, CameraModels.normalized, one_ne_zero, if_false, div_one]

theorem normalizeAll_plain {f1 f2 : ℝ} (hf1 : 0 < f1) (hf2 : 0 < f2) (c1 c2 : ℝ × ℝ) : ∀ cs : List PixelMatch,
    normalizeAll ⟨.pinhole, [f1, 1, 0, c1.1, c1.2, 0, 0]⟩ ⟨.pinhole, [f2, 1, 0, c2.1, c2.2, 0, 0]⟩ cs =
      .ok (cs.map fun c => ((((c.1.1 : ℝ) - c1.1) / f1, ((c.1.2 : ℝ) - c1.2) / f1),
        (((c.2.1 : ℝ) - c2.1) / f2, ((c.2.2 : ℝ) - c2.2) / f2)))
  | [] => rfl
  | c :: cs => by
    unfold normalizeAll
    rw [normalizeFeature_plain hf1, Outcome.ok_bind, normalizeFeature_plain hf2, Outcome.ok_bind,
      normalizeAll_plain hf1 hf2 c1 c2 cs, Outcome.ok_bind]
    rfl

/-- For cameras without distortion: with two focal lengths the features are the pixels relative to the principal point over the
focal length; if one is missing, they are the pixels relative to the principal point, in both images. -/
theorem C89_features (p1 p2 : IntrinsicsPrior ℝ) (h1 : PlainPrior p1) (h2 : PlainPrior p2) (corrs : List PixelMatch) :
    (p1.focal.isSet = true → p2.focal.isSet = true → normalizeFeatures p1 p2 corrs = .ok (corrs.map fun c =>
      ((((c.1.1 : ℝ) - (principalOf p1).1) / p1.focal.value, ((c.1.2 : ℝ) - (principalOf p1).2) / p1.focal.value),
        (((c.2.1 : ℝ) - (principalOf p2).1) / p2.focal.value, ((c.2.2 : ℝ) - (principalOf p2).2) / p2.focal.value)))) ∧
    ((p1.focal.isSet = false ∨ p2.focal.isSet = false) → normalizeFeatures p1 p2 corrs = .ok (corrs.map fun c =>
      (((c.1.1 : ℝ) - (principalOf p1).1, (c.1.2 : ℝ) - (principalOf p1).2),
        ((c.2.1 : ℝ) - (principalOf p2).1, (c.2.2 : ℝ) - (principalOf p2).2)))) := by
  obtain ⟨f1, g1, e1, k1⟩ := cameraFor_plain h1
  obtain ⟨f2, g2, e2, k2⟩ := cameraFor_plain h2
  unfold normalizeFeatures
  rw [k1, k2]
  simp only [Outcome.ok_bind]
  constructor
  · intro s1 s2
    unfold resetFocal
    rw [if_neg (by simp [s1, s2]), if_neg (by simp [s1, s2])]
    simp only [Outcome.ok_bind]
    rw [normalizeAll_plain g1 g2, e1 s1, e2 s2]
  · intro s
    have hr : ∀ (f : ℝ) (c : ℝ × ℝ), resetFocal p1 p2 ⟨.pinhole, [f, 1, 0, c.1, c.2, 0, 0]⟩ =
        .ok ⟨.pinhole, [1, 1, 0, c.1, c.2, 0, 0]⟩ := by
      intro f c
      unfold resetFocal
      rw [if_pos (by rcases s with s | s <;> simp [s])]
      unfold setFocalLength
      rw [if_pos (by norm_num)]
      rfl
    rw [hr, hr]
    simp only [Outcome.ok_bind]
    rw [normalizeAll_plain one_pos one_pos]
    simp only [div_one]

/-- For a camera of the field-of-view model without a focal length, the distortion, which belongs to features normalised by the
focal length, is applied to pixels: a feature four pixels to the right of the principal point ends up to its left. -/
theorem C89_distortion_counterexample (p : IntrinsicsPrior ℝ)
    (hp : p = { (IntrinsicsPrior.default : IntrinsicsPrior ℝ) with modelType := "FOV" }) :
    ∃ x y : ℝ, normalizeFeatures p p [((4, 0), (4, 0))] = .ok [((x, y), (x, y))] ∧ x < 0 := by
  have hpi := Real.pi_le_four
  have hpi3 := Real.pi_gt_three
  have htan : Real.tan 3 < 0 := by
    rw [Real.tan_eq_sin_div_cos]
    exact div_neg_of_pos_of_neg (Real.sin_pos_of_pos_of_lt_pi (by norm_num) hpi3)
      (Real.cos_neg_of_pi_div_two_lt_of_lt (by linarith) (by linarith))
  have htan2 : 0 < Real.tan (3 / 8) := Real.tan_pos_of_pos_of_lt_pi_div_two (by norm_num) (by linarith)
  have hcam : cameraFor p = .ok ⟨⟨.fov, [1, 1, 0, 0, 3 / 4]⟩, 0, 0⟩ := by
    subst hp
    unfold cameraFor Camera.setFromPriors
    have ht : stringToType "FOV" = .ok .fov := by rfl
    simp only [ht, Outcome.ok_bind]
    simp [Camera.modelFor, create, CameraPriors.setFromPriors, setFov, setFocalFromPrior,
      setPrincipalFromPrior, setIf, IntrinsicsPrior.default, Prior.none, setParameter, radialIndex]
  have hreset : resetFocal p p (⟨.fov, [1, 1, 0, 0, 3 / 4]⟩ : Intrinsics ℝ) = .ok ⟨.fov, [1, 1, 0, 0, 3 / 4]⟩ := by
    unfold resetFocal
    rw [if_pos (by subst hp; simp [IntrinsicsPrior.default, Prior.none])]
    unfold setFocalLength
    rw [if_pos (by norm_num)]
    rfl
  have hsq : Real.sqrt 16 = 4 := by rw [show (16 : ℝ) = 4 ^ 2 by norm_num, Real.sqrt_sq (by norm_num)]
  have hfac : CameraModels.fovUndistortFactor (3 / 4) 16 = .ok (Real.tan 3 / (8 * Real.tan (3 / 8))) := by
    unfold CameraModels.fovUndistortFactor
    rw [if_neg (by norm_num), if_neg (by norm_num), hsq]
    unfold CameraModels.divide
    rw [show (3 / 4 / 2 : ℝ) = 3 / 8 by norm_num, show (4 * (3 / 4) : ℝ) = 3 by norm_num, show (2 * 4 : ℝ) = 8 by norm_num,
      if_neg (by positivity)]
  have hfeat : normalizeFeature (⟨.fov, [1, 1, 0, 0, 3 / 4]⟩ : Intrinsics ℝ) (4, 0) =
      .ok (Real.tan 3 / (8 * Real.tan (3 / 8)) * 4, 0) := by
    unfold normalizeFeature toCamera
    simp only [CameraModels.fovToCamera, CameraModels.fovUndistort, CameraModels.Calibration.undo, CameraModels.divide,
      CameraModels.normalized]
    norm_num [hfac]
  refine ⟨Real.tan 3 / (8 * Real.tan (3 / 8)) * 4, 0, ?_, ?_⟩
  · unfold normalizeFeatures
    rw [hcam]
    simp only [Outcome.ok_bind, hreset, normalizeAll, hfeat]
  · have := div_neg_of_neg_of_pos htan (by positivity : 0 < 8 * Real.tan (3 / 8))
    linarith

/-! ## What goes wrong -/

/-- The visibility score is computed from the inlier list before the inliers are put into it: whatever is estimated, the score
is zero. The score of the inliers is positive as soon as there is one. -/
theorem C89_visibility_counterexample (env : Env) (o : Options) (p1 p2 : IntrinsicsPrior ℝ) (corrs : List PixelMatch)
    (info info' : TwoView.Info) (b : Bool) (inliers : List Nat)
    (h : estimate env o p1 p2 corrs info = .ok (b, info', inliers)) :
    info'.visibility = 0 ∧ ∀ ms : List PixelMatch, ms ≠ [] → 0 < pairVisibility p1.width p1.height p2.width p2.height ms := by
  constructor
  · have hv : ∀ v, visibilityOfInliers p1 p2 corrs [] = .ok v → v = 0 := by
      intro v hv
      by_cases hneg : 0 ≤ p1.width ∧ 0 ≤ p1.height ∧ 0 ≤ p2.width ∧ 0 ≤ p2.height
      · rw [visibility_nil p1 p2 corrs hneg] at hv
        cases hv
        rfl
      · unfold visibilityOfInliers at hv
        split at hv
        · cases hv
          rfl
        · exfalso
          obtain ⟨v1, h1, h2⟩ := Outcome.bind_eq_ok.1 hv
          obtain ⟨v2, h3, -⟩ := Outcome.bind_eq_ok.1 h2
          have key : ∀ {w k : Nat} {v : VisibilityPyramid}, VisibilityPyramid.new w k 6 = .ok v → 0 < w ∧ 0 < k := by
            intro w k v hv
            unfold VisibilityPyramid.new at hv
            by_cases hw : 0 < w
            · by_cases hk : 0 < k
              · exact ⟨hw, hk⟩
              · simp [hw, hk] at hv
            · simp [hw] at hv
          have := key h1
          have := key h3
          omega
    have hu : uncalibrated env o p1 p2 corrs info [] = .ok (b, info', inliers) → info'.visibility = 0 := by
      intro h
      unfold uncalibrated at h
      obtain ⟨_, -, h⟩ := Outcome.bind_eq_ok.1 h
      obtain ⟨_, -, h⟩ := Outcome.bind_eq_ok.1 h
      obtain ⟨v, h1, h⟩ := Outcome.bind_eq_ok.1 h
      cases h
      exact hv v h1
    unfold estimate at h
    split at h
    · unfold calibrated at h
      obtain ⟨_, -, h⟩ := Outcome.bind_eq_ok.1 h
      obtain ⟨_, -, h⟩ := Outcome.bind_eq_ok.1 h
      obtain ⟨v, h1, h⟩ := Outcome.bind_eq_ok.1 h
      cases h
      exact hv v h1
    · split at h <;> exact hu h
  · intro ms hms
    unfold pairVisibility
    split
    · exact List.length_pos_iff.2 hms
    · refine Nat.add_pos_left ?_ _
      unfold visibilityScore
      refine Finset.sum_pos' (fun _ _ => Nat.zero_le _) ⟨0, by simp, ?_⟩
      refine Nat.mul_pos (Finset.card_pos.2 ?_) (by norm_num)
      obtain ⟨m, hm⟩ := List.exists_mem_of_ne_nil ms hms
      exact ⟨_, List.mem_toFinset.2 (List.mem_map_of_mem (List.mem_map_of_mem hm))⟩

/-- The function reports success even if no sample gave a pose: what is returned is whatever the uninitialised variable holds. -/
theorem C89_no_model_counterexample (env : Env) (hsvd : ∀ E, IsSvd E (env.svd E).1 (env.svd E).2)
    (hnone : ∀ xs ys, env.fivePoint xs ys = none) (o : Options) (ho : ValidOptions o)
    (p1 p2 : IntrinsicsPrior ℝ) (h1 : PlainPrior p1) (h2 : PlainPrior p2)
    (hs : p1.focal.isSet = true ∧ p2.focal.isSet = true) (corrs : List PixelMatch) (h5 : 5 ≤ corrs.length)
    (hsam : ∀ i idx, env.sample i = some idx → ∀ j ∈ idx, j < corrs.length) (info : TwoView.Info) :
    ∃ info' inliers, estimate env o p1 p2 corrs info = .ok (true, info', inliers) ∧
      info'.rotation = env.angleAxis env.uninitialised.rotation ∧ info'.position = env.uninitialised.position := by
  have hn := (C89_features p1 p2 h1 h2 corrs).1 hs.1 hs.2
  obtain ⟨n, E, R, p, inl, he, -, -, h, -, -⟩ := C89_calibrated_partial env hsvd o ho p1 p2
    ⟨h1.2.2.2.2.2.1, h1.2.2.2.2.2.2, h2.2.2.2.2.2.1, h2.2.2.2.2.2.2⟩ hs ⟨h1.2.2.2.2.1 hs.1, h2.2.2.2.2.1 hs.2⟩ corrs h5 _ hn hsam
    info _ rfl
  have hu := h (by
    rw [List.eq_nil_iff_forall_not_mem]
    intro m hm
    obtain ⟨i, -, idx, ds, ms, -, -, h3, -⟩ := mem_modelsUpTo.1 hm
    unfold relativeModels at h3
    rw [hnone] at h3
    simp at h3)
  exact ⟨_, inl, he, by rw [hu], by rw [hu]⟩

/-- With fewer correspondences than a sample needs the function does not return false: it ends the program. So it does, for any
number of correspondences, if exhaustive sampling is asked for. -/
theorem C89_abort_counterexample (env : Env) (o : Options) (p1 p2 : IntrinsicsPrior ℝ) (corrs : List PixelMatch)
    (ns : List ((ℝ × ℝ) × (ℝ × ℝ))) (hn : normalizeFeatures p1 p2 corrs = .ok ns) (info : TwoView.Info)
    (h : o.ransacType = .exhaustive ∨ (o.ransacType ≠ .prosac ∧ corrs.length < 5)) :
    estimate env o p1 p2 corrs info = .abort := by
  have hlen := normalizeFeatures_length hn
  have key : ∀ {M : Type} (s : Settings) (est : List ((ℝ × ℝ) × (ℝ × ℝ)) → Option (List M)) (k : Nat) (hk : 5 ≤ k)
      (err : (ℝ × ℝ) × (ℝ × ℝ) → M → WithTop ℝ) (ini : M),
      consensus o.ransacType s env.lmed ns env.sample est k err ini = .abort := by
    intro M s est k hk err ini
    unfold consensus
    split
    · rcases h with h | ⟨h, h'⟩
      · rw [if_pos ⟨h, by omega⟩]
      · split
        · rfl
        · rw [if_pos ⟨h, by omega⟩]
    · rfl
  have hu : uncalibrated env o p1 p2 corrs info [] = .abort := by
    unfold uncalibrated estimateUncalibratedPose
    rw [hn, Outcome.ok_bind, key _ _ _ (by norm_num)]
    rfl
  unfold estimate
  split
  · unfold calibrated estimateRelativePose
    rw [hn, Outcome.ok_bind, key _ _ _ (by norm_num)]
    rfl
  · split <;> exact hu

/-! ## Non-vacuity -/

/-- A camera with focal length 1 and the origin as principal point. -/
noncomputable def unitPrior : IntrinsicsPrior ℝ := { (IntrinsicsPrior.default : IntrinsicsPrior ℝ) with focal := ⟨true, 1⟩ }

theorem unitPrior_plain : PlainPrior unitPrior := by
  simp [PlainPrior, unitPrior, IntrinsicsPrior.default, Prior.none]

/-- Five points one unit in front of the first camera and two in front of the second. -/
def fiveMatches : List PixelMatch :=
  [((1, 0), (1 / 2, 0)), ((0, 1), (0, 1 / 2)), ((1, 1), (1 / 2, 1 / 2)), ((-1, 0), (-1 / 2, 0)), ((0, -1), (0, -1 / 2))]

/-- The hypotheses of `C89_calibrated_partial` can be met, with a sample of the truth drawn first. -/
example : ∃ (env : Env) (o : Options) (ns : List ((ℝ × ℝ) × (ℝ × ℝ))),
    (∀ E, IsSvd E (env.svd E).1 (env.svd E).2) ∧ ValidOptions o ∧ ValidSizes unitPrior unitPrior ∧ o.minIterations = 1 ∧
    normalizeFeatures unitPrior unitPrior fiveMatches = .ok ns ∧ (∀ i idx, env.sample i = some idx → ∀ j ∈ idx, j < 5) ∧
    env.sample 0 = some [0, 1, 2, 3, 4] ∧ SampleOfTruth env.fivePoint ns [0, 1, 2, 3, 4] forwardE M3.one ⟨0, 0, 1⟩ := by
  obtain ⟨svd, hsvd⟩ := Svd.exists_svd_function
  refine ⟨⟨fun _ => some [0, 1, 2, 3, 4], fun _ => (0, []), fun _ _ => some [forwardE], fun _ _ => none, fun _ => none, svd,
    fun _ => ⟨0, 0, 0⟩, ⟨M3.one, M3.one, ⟨0, 0, 0⟩⟩, ⟨M3.one, 1, 1, M3.one, ⟨0, 0, 0⟩⟩⟩,
    ⟨.ransac, 6, 1 / 2, 1, 10, false⟩, _, hsvd, ?_, ?_, rfl,
    (C89_features _ _ unitPrior_plain unitPrior_plain fiveMatches).1 rfl rfl, ?_, rfl, ?_⟩
  · norm_num [ValidOptions]
  · simp [ValidSizes, unitPrior, IntrinsicsPrior.default]
  · intro i idx h j hj
    cases h
    simp only [List.mem_cons, List.not_mem_nil, or_false] at hj
    omega
  · refine ⟨_, [forwardE], 1, .cons rfl (.cons rfl (.cons rfl (.cons rfl (.cons rfl .nil)))), by simp, ?_, rfl, by simp,
      M3.IsRotation.one, by norm_num [V3.dot], one_ne_zero, forwardE_essential⟩
    intro c hc
    simp only [List.mem_cons, List.not_mem_nil, or_false] at hc
    have key : ∀ a b : ℝ, a ≠ 0 ∨ b ≠ 0 → GoodCorrespondence M3.one ⟨0, 0, 1⟩ ((a, b), (a / 2, b / 2)) := by
      intro a b hab
      refine ⟨⟨a, b, 1⟩, 1, 2, by norm_num, by norm_num, ?_, ?_, ?_⟩
      · rw [SeesAt, M3.one_mulVec]; apply V3.ext <;> norm_num [V3.add, V3.smul, V3.zero]
      · rw [SeesAt, M3.one_mulVec]; apply V3.ext <;> norm_num [V3.add, V3.smul] <;> ring
      · intro c hc hp
        rw [Centre, M3.one_mulVec] at hc
        simp only [V3.add, V3.zero, V3.mk.injEq, add_zero] at hc
        obtain ⟨h1, h2, h3⟩ := hc
        have h3' : c.z = -1 := by linarith
        simp only [Parallel, V3.cross, V3.zero, h1, h2, h3', V3.mk.injEq] at hp
        rcases hab with h | h
        · exact h (by linarith [hp.2.1])
        · exact h (by linarith [hp.1])
    rcases hc with rfl | rfl | rfl | rfl | rfl
    · convert key 1 0 (by norm_num) using 2 <;> norm_num [principalOf, unitPrior, IntrinsicsPrior.default, Prior.none]
    · convert key 0 1 (by norm_num) using 2 <;> norm_num [principalOf, unitPrior, IntrinsicsPrior.default, Prior.none]
    · convert key 1 1 (by norm_num) using 2 <;> norm_num [principalOf, unitPrior, IntrinsicsPrior.default, Prior.none]
    · convert key (-1) 0 (by norm_num) using 2 <;> norm_num [principalOf, unitPrior, IntrinsicsPrior.default, Prior.none]
    · convert key 0 (-1) (by norm_num) using 2 <;> norm_num [principalOf, unitPrior, IntrinsicsPrior.default, Prior.none]

/-- `C89_units` with two different focal lengths. -/
example : SampsonBelow (pixelMatrix forwardE 2 3 (0, 0) (0, 0)) (6 / (3 / 2)) (2, 1) (3, 1) →
    SampsonBelow forwardE (6 / (2 * 3)) (1, 1 / 2) (1, 1 / 3) :=
  (C89_units forwardE (f1 := 2) (f2 := 3) (ρ := 3 / 2) (T := 6) (by norm_num) (by norm_num) (by norm_num) (by norm_num)
    (by norm_num) (0, 0) (0, 0) (2, 1) (3, 1) _ _ (by norm_num) (by norm_num)).2.2

end Theia
