import Verif.Model.TwoViewEstimation
import Verif.Props.Quality
import Verif.Props.EssentialMatrix
import Verif.Props.Ransac
import Verif.Props.Triangulation
import Verif.Props.VisibilityPyramid
import Verif.Spec.Quality
import Verif.Spec.TwoViewEstimation

/-!
# Proofs about the estimation of the geometry of two views
-/

namespace Theia

open Spec RansacVariants TwoViewEstimation Quality
open Triangulation hiding epipolar

/-! ## Consensus -/

/-- A residual cut off at the threshold, or one for a residual that is not below it. -/
noncomputable def cappedCost (mle : Bool) (t : ℝ) (r : WithTop ℝ) : ℝ :=
  if r < (t : WithTop ℝ) then if mle then r.untopD 0 else 0 else if mle then t else 1

theorem mleScore_top (t : ℝ) : ∀ (rs : List (WithTop ℝ)) (s : ℝ),
    Quality.mleScore (t : WithTop ℝ) (s : WithTop ℝ) rs = ((s + (rs.map (cappedCost true t)).sum : ℝ) : WithTop ℝ)
  | [], s => by simp [Quality.mleScore]
  | r :: rs, s => by
    unfold Quality.mleScore
    by_cases h : r < (t : WithTop ℝ)
    · obtain ⟨x, rfl⟩ := WithTop.ne_top_iff_exists.1 (ne_top_of_lt h)
      rw [if_pos h, ← WithTop.coe_add, mleScore_top t rs]
      simp [cappedCost, h, add_assoc]
    · rw [if_neg h, ← WithTop.coe_add, mleScore_top t rs]
      simp [cappedCost, h, add_assoc]

theorem quality_cost {t : RansacType} (ht : t ≠ .lmed) (s : Settings) (lmed : List (WithTop ℝ) → WithTop ℝ × List Nat)
    (rs : List (WithTop ℝ)) :
    (quality t s lmed rs).1 = (((rs.map (cappedCost s.useMle s.errorThresh)).sum : ℝ) : WithTop ℝ) ∧
      ExactlyThePositions rs (· < (s.errorThresh : WithTop ℝ)) (quality t s lmed rs).2 := by
  unfold quality
  rw [if_neg ht]
  have hex := exactly_inlierIndices (fun r => decide (r < (s.errorThresh : WithTop ℝ))) rs
  simp only [decide_eq_true_eq] at hex
  cases hm : s.useMle
  · rw [if_neg (by simp)]
    refine ⟨?_, hex⟩
    simp only [(C23_inlier_support (s.errorThresh : WithTop ℝ) rs).2.1]
    congr 1
    clear hex
    induction rs with
    | nil => simp
    | cons r rs ih =>
      rw [List.countP_cons, List.map_cons, List.sum_cons, ← ih]
      by_cases h : r < (s.errorThresh : WithTop ℝ)
      · simp [cappedCost, h]
      · simp [cappedCost, h, not_lt.1 h, add_comm]
  · rw [if_pos rfl]
    refine ⟨?_, hex⟩
    have := mleScore_top s.errorThresh rs 0
    simp only [WithTop.coe_zero, zero_add] at this
    exact this

theorem forall2_of_mapM {α : Type} {data : List α} : ∀ {idx : List Nat} {ds : List α},
    idx.mapM (fun j => data[j]?) = some ds → Picked data idx ds
  | [], ds, h => by
    simp at h
    subst h
    exact .nil
  | i :: idx, ds, h => by
    simp only [List.mapM_cons, Option.pure_def, Option.bind_eq_bind, Option.bind_eq_some_iff, Option.some.injEq] at h
    obtain ⟨d, hd, ds', hds, rfl⟩ := h
    exact .cons hd (forall2_of_mapM hds)

theorem mapM_of_forall2 {α : Type} {data : List α} : ∀ {idx : List Nat} {ds : List α},
    Picked data idx ds → idx.mapM (fun j => data[j]?) = some ds
  | [], _, .nil => by simp
  | i :: idx, _, .cons hd h => by
    have := mapM_of_forall2 h
    simp only [List.mapM_cons, hd, this, Option.pure_def, Option.bind_eq_bind, Option.bind_some]

theorem mem_modelsUpTo {D M : Type} {data : List D} {sample : Nat → Option (List Nat)}
    {estimate : List D → Option (List M)} {n : Nat} {m : M} :
    m ∈ modelsUpTo data sample estimate n ↔
      ∃ i < n, ∃ idx ds ms, sample i = some idx ∧ Picked data idx ds ∧ estimate ds = some ms ∧ m ∈ ms := by
  unfold modelsUpTo modelsOf
  rw [List.mem_flatMap]
  constructor
  · rintro ⟨i, hi, hm⟩
    refine ⟨i, List.mem_range.1 hi, ?_⟩
    cases hs : sample i with
    | none => simp [hs] at hm
    | some idx =>
      rw [hs, Option.bind_some] at hm
      cases hd : idx.mapM (fun j => data[j]?) with
      | none => simp [hd] at hm
      | some ds =>
        rw [hd, Option.bind_some] at hm
        cases he : estimate ds with
        | none => simp [he] at hm
        | some ms =>
          rw [he, Option.getD_some] at hm
          exact ⟨idx, ds, ms, rfl, forall2_of_mapM hd, he, hm⟩
  · rintro ⟨i, hi, idx, ds, ms, hs, hd, he, hm⟩
    refine ⟨i, List.mem_range.2 hi, ?_⟩
    rw [hs, Option.bind_some, mapM_of_forall2 hd, Option.bind_some, he, Option.getD_some]
    exact hm

/-- The consensus for all variants but LMED. -/
theorem consensus_spec_any {D M : Type} {t : RansacType} (htl : t ≠ .lmed) {sampleSize : Nat}
    (hte : t = .exhaustive → sampleSize = 2) {s : Settings} (hs : 0 < s.errorThresh) (hp : s.params.Valid) (lmed : List (WithTop ℝ) → WithTop ℝ × List Nat) {data : List D}
    {sample : Nat → Option (List Nat)} (hsam : ∀ i idx, sample i = some idx → ∀ j ∈ idx, j < data.length)
    (estimate : List D → Option (List M)) (h1 : 1 ≤ sampleSize) (hlen : sampleSize ≤ data.length)
    (error : D → M → WithTop ℝ) (initial : M) :
    ∃ best sum, consensus t s lmed data sample estimate sampleSize error initial = .ok (best, sum) ∧
      s.params.minIterations ≤ sum.numIterations ∧ (sum.numIterations : Int) ≤ max 0 s.params.maxIterations ∧
      (modelsUpTo data sample estimate sum.numIterations = [] → best = initial) ∧
      (modelsUpTo data sample estimate sum.numIterations ≠ [] →
        best ∈ modelsUpTo data sample estimate sum.numIterations) ∧
      (∀ m ∈ modelsUpTo data sample estimate sum.numIterations,
        (data.map fun d => cappedCost s.useMle s.errorThresh (error d best)).sum ≤
          (data.map fun d => cappedCost s.useMle s.errorThresh (error d m)).sum) ∧
      ExactlyThePositions data (fun d => error d best < (s.errorThresh : WithTop ℝ)) sum.inliers := by
  have hd : data ≠ [] := by
    rintro rfl
    simp at hlen
    omega
  obtain ⟨best, sum, hr, a1, a2, a3, a4, a5, -⟩ := C20_best_model s.params hp data hd sample hsam estimate sampleSize h1
    (fun m => quality t s lmed (data.map fun d => error d m)) initial
  refine ⟨best, sum, ?_, a1, a2, a3, ?_, ?_, ?_⟩
  · unfold consensus
    rw [if_pos ⟨hs, hp⟩, if_neg (fun h => h.2 (hte h.1)), if_neg (by omega)]
    exact hr
  · intro hne
    obtain ⟨pre, post, e, -, -⟩ := a4 hne
    rw [e]
    simp
  · intro m hm
    obtain ⟨pre, post, e, b1, b2⟩ := a4 (List.ne_nil_of_mem hm)
    have hle : (quality t s lmed (data.map fun d => error d best)).1 ≤ (quality t s lmed (data.map fun d => error d m)).1 := by
      rw [e, List.mem_append, List.mem_cons] at hm
      rcases hm with hm | rfl | hm
      · exact (b1 m hm).le
      · exact le_refl _
      · exact not_lt.1 (b2 m hm)
    rw [(quality_cost htl s lmed _).1, (quality_cost htl s lmed _).1, WithTop.coe_le_coe, List.map_map, List.map_map] at hle
    exact hle
  · rw [a5]
    obtain ⟨c1, c2⟩ := (quality_cost htl s lmed (data.map fun d => error d best)).2
    refine ⟨c1, fun i => ?_⟩
    rw [c2 i]
    constructor
    · rintro ⟨r, hr, hlt⟩
      rw [List.getElem?_map, Option.map_eq_some_iff] at hr
      obtain ⟨d, hd, rfl⟩ := hr
      exact ⟨d, hd, hlt⟩
    · rintro ⟨d, hd, hlt⟩
      exact ⟨_, by rw [List.getElem?_map, hd]; rfl, hlt⟩

/-- The consensus for RANSAC and PROSAC. -/
theorem consensus_spec {D M : Type} {t : RansacType} (ht : t = .ransac ∨ t = .prosac) {s : Settings}
    (hs : 0 < s.errorThresh) (hp : s.params.Valid) (lmed : List (WithTop ℝ) → WithTop ℝ × List Nat) {data : List D}
    {sample : Nat → Option (List Nat)} (hsam : ∀ i idx, sample i = some idx → ∀ j ∈ idx, j < data.length)
    (estimate : List D → Option (List M)) {sampleSize : Nat} (h1 : 1 ≤ sampleSize) (hlen : sampleSize ≤ data.length)
    (error : D → M → WithTop ℝ) (initial : M) :
    ∃ best sum, consensus t s lmed data sample estimate sampleSize error initial = .ok (best, sum) ∧
      s.params.minIterations ≤ sum.numIterations ∧ (sum.numIterations : Int) ≤ max 0 s.params.maxIterations ∧
      (modelsUpTo data sample estimate sum.numIterations = [] → best = initial) ∧
      (modelsUpTo data sample estimate sum.numIterations ≠ [] →
        best ∈ modelsUpTo data sample estimate sum.numIterations) ∧
      (∀ m ∈ modelsUpTo data sample estimate sum.numIterations,
        (data.map fun d => cappedCost s.useMle s.errorThresh (error d best)).sum ≤
          (data.map fun d => cappedCost s.useMle s.errorThresh (error d m)).sum) ∧
      ExactlyThePositions data (fun d => error d best < (s.errorThresh : WithTop ℝ)) sum.inliers :=
  consensus_spec_any (by rcases ht with rfl | rfl <;> decide) (by rcases ht with rfl | rfl <;> simp) hs hp lmed hsam estimate h1
    hlen error initial

/-! ## Geometry -/

theorem inFrontOfBoth_iff {R : M3 ℝ} (hR : R.IsRotation) (p : V3 ℝ) (c : (ℝ × ℝ) × (ℝ × ℝ)) :
    InFrontOfBoth R p c ↔ inFront c R p = true := by
  have h1 : RayOf M3.one c.1 (homog c.1) := by rw [RayOf, M3.one_mulVec]; rfl
  have h2 : RayOf R c.2 (R.transpose.mulVec (homog c.2)) := by rw [RayOf, hR.mulVec_transpose]; rfl
  constructor
  · rintro ⟨d1, d2, X, Y, r1, r2, hp, hc, hz⟩
    exact ((C49_cheirality hR p r1 r2 hp).2 X Y hc).2 hz
  · intro h
    by_cases hp : Parallel (homog c.1) (R.transpose.mulVec (homog c.2))
    · rw [C49_cheirality_parallel hR p h1 h2 hp] at h
      exact absurd h (by simp)
    · obtain ⟨⟨X, Y, hc⟩, hall⟩ := C49_cheirality hR p h1 h2 hp
      exact ⟨_, _, X, Y, h1, h2, hp, hc, (hall X Y hc).1 h⟩

theorem epipolarGradient_nonneg (F : M3 ℝ) (x y : ℝ × ℝ) : 0 ≤ epipolarGradient F x y := by
  unfold epipolarGradient
  positivity

theorem sampson_eq (F : M3 ℝ) (x y : ℝ × ℝ) : PoseUtil.sampson F x y =
    if epipolarGradient F x y = 0 then .ub else .ok (epipolar F x y ^ 2 / epipolarGradient F x y) := by
  unfold PoseUtil.sampson
  have hden : (homog y).dot F.transpose.r1 * (homog y).dot F.transpose.r1 +
      (homog y).dot F.transpose.r2 * (homog y).dot F.transpose.r2 +
      (F.mulVec (homog x)).x * (F.mulVec (homog x)).x + (F.mulVec (homog x)).y * (F.mulVec (homog x)).y =
      epipolarGradient F x y := by
    simp only [epipolarGradient, homog, V3.dot, M3.mulVec, M3.transpose]
    ring
  have hnum : (homog y).dot (F.mulVec (homog x)) * (homog y).dot (F.mulVec (homog x)) = epipolar F x y ^ 2 := by
    rw [epipolar, pow_two]; rfl
  simp only [hden, hnum]

theorem sampsonResidual_lt (F : M3 ℝ) (t : ℝ) (x y : ℝ × ℝ) :
    sampsonResidual F x y < (t : WithTop ℝ) ↔ SampsonBelow F t x y := by
  unfold sampsonResidual SampsonBelow
  rw [sampson_eq]
  by_cases h : epipolarGradient F x y = 0
  · rw [if_pos h, h]
    simp only [not_top_lt, mul_zero, false_iff, not_lt]
    positivity
  · rw [if_neg h]
    have hpos := lt_of_le_of_ne (epipolarGradient_nonneg F x y) (Ne.symm h)
    simp only [WithTop.coe_lt_coe]
    rw [div_lt_iff₀ hpos]

theorem sampsonResidual_value {F : M3 ℝ} {t : ℝ} {x y : ℝ × ℝ} (h : SampsonBelow F t x y) :
    (sampsonResidual F x y).untopD 0 = epipolar F x y ^ 2 / epipolarGradient F x y := by
  have hne : epipolarGradient F x y ≠ 0 := by
    intro h0
    rw [SampsonBelow, h0, mul_zero] at h
    nlinarith [sq_nonneg (epipolar F x y)]
  unfold sampsonResidual
  rw [sampson_eq, if_neg hne]
  simp

theorem relativeError_lt {m : RelativePose} (hR : m.rotation.IsRotation) (t : ℝ) (c : (ℝ × ℝ) × (ℝ × ℝ)) :
    relativeError c m < (t : WithTop ℝ) ↔ Verified m.essential m.rotation m.position t c := by
  unfold relativeError Verified
  rw [inFrontOfBoth_iff hR]
  by_cases h : inFront c m.rotation m.position = true
  · rw [if_pos h, sampsonResidual_lt]
    simp [h]
  · rw [if_neg h]
    simp [h]

theorem uncalibratedError_lt {m : UncalibratedPose} (hR : m.rotation.IsRotation) (t : ℝ) (c : (ℝ × ℝ) × (ℝ × ℝ)) :
    uncalibratedError c m < (t : WithTop ℝ) ↔
      VerifiedPixels m.fundamental m.rotation m.position m.focal1 m.focal2 t c := by
  unfold uncalibratedError VerifiedPixels
  rw [inFrontOfBoth_iff hR, ← sampsonResidual_lt]
  change (if inFront (scaleDown m.focal1 m.focal2 c) _ _ = true then _ else _) < _ ↔
    inFront (scaleDown m.focal1 m.focal2 c) _ _ = true ∧ _
  by_cases h : inFront (scaleDown m.focal1 m.focal2 c) m.rotation m.position = true
  · rw [if_pos h]
    simp [h]
  · rw [if_neg h]
    simp [h]

theorem relative_cost {m : RelativePose} (hR : m.rotation.IsRotation) (mle : Bool) (t : ℝ)
    (cs : List ((ℝ × ℝ) × (ℝ × ℝ))) :
    (cs.map fun c => cappedCost mle t (relativeError c m)).sum =
      verificationCost mle t m.essential (Verified m.essential m.rotation m.position t) cs := by
  unfold verificationCost
  congr 1
  apply List.map_congr_left
  intro c _
  unfold cappedCost
  by_cases h : relativeError c m < (t : WithTop ℝ)
  · have hv := (relativeError_lt hR t c).1 h
    rw [if_pos h, if_pos hv]
    have : relativeError c m = sampsonResidual m.essential c.1 c.2 := by
      unfold relativeError
      rw [if_pos ((inFrontOfBoth_iff hR _ _).1 hv.1)]
    rw [this, sampsonResidual_value hv.2]
  · rw [if_neg h, if_neg (fun hv => h ((relativeError_lt hR t c).2 hv))]

theorem uncalibrated_cost {m : UncalibratedPose} (hR : m.rotation.IsRotation) (mle : Bool) (t : ℝ)
    (cs : List ((ℝ × ℝ) × (ℝ × ℝ))) :
    (cs.map fun c => cappedCost mle t (uncalibratedError c m)).sum =
      verificationCost mle t m.fundamental
        (VerifiedPixels m.fundamental m.rotation m.position m.focal1 m.focal2 t) cs := by
  unfold verificationCost
  congr 1
  apply List.map_congr_left
  intro c _
  unfold cappedCost
  by_cases h : uncalibratedError c m < (t : WithTop ℝ)
  · have hv := (uncalibratedError_lt hR t c).1 h
    rw [if_pos h, if_pos hv]
    have : uncalibratedError c m = sampsonResidual m.fundamental c.1 c.2 := by
      unfold uncalibratedError
      exact if_pos ((inFrontOfBoth_iff hR _ _).1 hv.1)
    rw [this, sampsonResidual_value hv.2]
  · rw [if_neg h, if_neg (fun hv => h ((uncalibratedError_lt hR t c).2 hv))]

/-! ## Models -/

theorem candidates_spec {svd : M3 ℝ → M3 ℝ × M3 ℝ} {E : M3 ℝ} (hsvd : IsSvd E (svd E).1 (svd E).2) {R : M3 ℝ} {p : V3 ℝ}
    (h : (R, p) ∈ EssentialMatrix.candidates svd E) :
    R.IsRotation ∧ p.dot p = 1 ∧ ((∃ R' t k, R'.IsRotation ∧ t.dot t = 1 ∧ k ≠ 0 ∧ IsEssential E R' t k) →
      ∃ t k, Centre R t p ∧ k ≠ 0 ∧ IsEssential E R t k) := by
  obtain ⟨h1, h2, h3⟩ := C56_rotations hsvd
  have hneg : ∀ {M : M3 ℝ} {t : V3 ℝ} {k : ℝ}, IsEssential E M t k → IsEssential E M t.neg (-k) := by
    intro M t k h v
    rw [h v]
    apply V3.ext <;> simp only [V3.cross, V3.smul, V3.neg] <;> ring
  have hunit : ∀ {M : M3 ℝ} (_ : M.IsRotation) {t : V3 ℝ}, t.dot t = 1 → (M.transpose.mulVec t).neg.dot (M.transpose.mulVec t).neg = 1 := by
    intro M hM t ht
    have : (M.transpose.mulVec t).neg.dot (M.transpose.mulVec t).neg = (M.transpose.mulVec t).dot (M.transpose.mulVec t) := by
      simp only [V3.dot, V3.neg]; ring
    rw [this, hM.transpose.dot, ht]
  have hnn : ∀ {t : V3 ℝ}, t.dot t = 1 → t.neg.dot t.neg = 1 := by
    intro t ht
    rw [← ht]
    simp only [V3.dot, V3.neg]; ring
  simp only [EssentialMatrix.candidates, List.mem_cons, Prod.mk.injEq, List.not_mem_nil, or_false] at h
  rcases h with ⟨rfl, rfl⟩ | ⟨rfl, rfl⟩ | ⟨rfl, rfl⟩ | ⟨rfl, rfl⟩
  · refine ⟨h1, hunit h1 h3, ?_⟩
    rintro ⟨R', t, k, a, b, c, d⟩
    exact ⟨_, |k|, centre_exists h1 _, abs_ne_zero.2 c, (C56_same_essential hsvd a b c d).1⟩
  · refine ⟨h1, hunit h1 (hnn h3), ?_⟩
    rintro ⟨R', t, k, a, b, c, d⟩
    exact ⟨_, -|k|, centre_exists h1 _, neg_ne_zero.2 (abs_ne_zero.2 c), hneg (C56_same_essential hsvd a b c d).1⟩
  · refine ⟨h2, hunit h2 h3, ?_⟩
    rintro ⟨R', t, k, a, b, c, d⟩
    exact ⟨_, -|k|, centre_exists h2 _, neg_ne_zero.2 (abs_ne_zero.2 c), (C56_same_essential hsvd a b c d).2⟩
  · refine ⟨h2, hunit h2 (hnn h3), ?_⟩
    rintro ⟨R', t, k, a, b, c, d⟩
    exact ⟨_, - -|k|, centre_exists h2 _, neg_ne_zero.2 (neg_ne_zero.2 (abs_ne_zero.2 c)),
      hneg (C56_same_essential hsvd a b c d).2⟩

theorem mem_relativeModels {env : Env} (hsvd : ∀ E, IsSvd E (env.svd E).1 (env.svd E).2) {ds : List ((ℝ × ℝ) × (ℝ × ℝ))}
    {ms : List RelativePose} (h : relativeModels env ds = some ms) {m : RelativePose} (hm : m ∈ ms) :
    ∃ Es, env.fivePoint (ds.map Prod.fst) (ds.map Prod.snd) = some Es ∧
      PoseOfSample Es ds m.essential m.rotation m.position := by
  unfold relativeModels at h
  cases hf : env.fivePoint (ds.map Prod.fst) (ds.map Prod.snd) with
  | none => simp [hf] at h
  | some Es =>
    refine ⟨Es, rfl, ?_⟩
    rw [hf] at h
    simp only at h
    split at h
    · cases h
      rw [List.mem_filterMap] at hm
      obtain ⟨E, hE, hp⟩ := hm
      obtain ⟨n, R, p, hb, hc, hn, -⟩ := C56_best_count env.svd E ds
      unfold poseOf at hp
      rw [hb] at hp
      simp only at hp
      split at hp
      · next h4 =>
        cases hp
        obtain ⟨r1, r2, r3⟩ := candidates_spec (hsvd E) hc
        refine ⟨hE, r1, r2, ⟨ds.filter (fun c => inFront c R p), List.filter_sublist, ?_, ?_⟩, r3⟩
        · rw [← List.countP_eq_length_filter, ← hn]
          exact h4
        · intro c hc
          exact (inFrontOfBoth_iff r1 p c).2 (List.mem_filter.1 hc).2
      · simp at hp
    · simp at h

theorem mem_uncalibratedModels {env : Env} (hsvd : ∀ E, IsSvd E (env.svd E).1 (env.svd E).2)
    {ds : List ((ℝ × ℝ) × (ℝ × ℝ))} {ms : List UncalibratedPose} (h : uncalibratedModels env ds = some ms)
    {m : UncalibratedPose} (hm : m ∈ ms) :
    env.eightPoint ((ds.map Prod.fst).take 8) ((ds.map Prod.snd).take 8) = some m.fundamental ∧
      env.focals m.fundamental = some (m.focal1, m.focal2) ∧ m.rotation.IsRotation ∧ m.position.dot m.position = 1 ∧
      ((∃ R' t k, R'.IsRotation ∧ t.dot t = 1 ∧ k ≠ 0 ∧
        IsEssential (FundamentalMatrix.essentialOf m.fundamental m.focal1 m.focal2) R' t k) →
        ∃ t k, Centre m.rotation t m.position ∧ k ≠ 0 ∧
          IsEssential (FundamentalMatrix.essentialOf m.fundamental m.focal1 m.focal2) m.rotation t k) := by
  unfold uncalibratedModels at h
  cases hf : env.eightPoint ((ds.map Prod.fst).take 8) ((ds.map Prod.snd).take 8) with
  | none => simp [hf] at h
  | some F =>
    rw [hf] at h
    simp only at h
    cases hl : env.focals F with
    | none => simp [hl] at h
    | some f =>
      rw [hl] at h
      obtain ⟨f1, f2⟩ := f
      simp only at h
      obtain ⟨n, R, p, hb, hc, -, -⟩ := C56_best_count env.svd (FundamentalMatrix.essentialOf F f1 f2) (ds.map (scaleDown f1 f2))
      rw [hb] at h
      simp only [Option.some.injEq] at h
      subst h
      rw [List.mem_singleton] at hm
      subst hm
      obtain ⟨r1, r2, r3⟩ := candidates_spec (hsvd _) hc
      exact ⟨rfl, hl, r1, r2, r3⟩

/-! ## Visibility -/

theorem visibility_nil {K : Type} (p1 p2 : CameraPriors.IntrinsicsPrior K) (corrs : List PixelMatch)
    (h : 0 ≤ p1.width ∧ 0 ≤ p1.height ∧ 0 ≤ p2.width ∧ 0 ≤ p2.height) :
    visibilityOfInliers p1 p2 corrs [] = .ok 0 := by
  unfold visibilityOfInliers
  by_cases h0 : p1.width = 0 ∨ p1.height = 0 ∨ p2.width = 0 ∨ p2.height = 0
  · rw [if_pos h0]; rfl
  · rw [if_neg h0]
    have hz : ∀ (l : List Grid) (n : Nat), (∀ g ∈ l, g.count = 0) → l.foldl (fun s g => s + g.count * g.size) n = n := by
      intro l
      induction l with
      | nil => intro n _; rfl
      | cons g l ih =>
        intro n hg
        rw [List.foldl_cons, hg g List.mem_cons_self, Nat.zero_mul, Nat.add_zero]
        exact ih n fun g' hg' => hg g' (List.mem_cons_of_mem _ hg')
    obtain ⟨v1, w1, a1, b1, c1⟩ := C26_score p1.width.toNat p1.height.toNat 6 (by omega) (by omega) (by norm_num) []
    obtain ⟨v2, w2, a2, b2, c2⟩ := C26_score p2.width.toNat p2.height.toNat 6 (by omega) (by omega) (by norm_num) []
    cases b1
    cases b2
    rw [a1, a2]
    simp only [Outcome.ok_bind, addInliers, c1, c2]
    simp [visibilityScore, occupied]

theorem visibility_spec {K : Type} (p1 p2 : CameraPriors.IntrinsicsPrior K) {corrs : List PixelMatch}
    (h : 0 ≤ p1.width ∧ 0 ≤ p1.height ∧ 0 ≤ p2.width ∧ 0 ≤ p2.height) {inliers : List Nat} {ms : List PixelMatch}
    (hi : Picked corrs inliers ms) :
    visibilityOfInliers p1 p2 corrs inliers = .ok (pairVisibility p1.width p1.height p2.width p2.height ms : Nat) := by
  unfold visibilityOfInliers pairVisibility
  by_cases h0 : p1.width = 0 ∨ p1.height = 0 ∨ p2.width = 0 ∨ p2.height = 0
  · rw [if_pos h0, if_pos h0, hi.length_eq]
  · rw [if_neg h0, if_neg h0]
    obtain ⟨v1, w1, a1, b1, c1⟩ := C26_score p1.width.toNat p1.height.toNat 6 (by omega) (by omega) (by norm_num) (ms.map Prod.fst)
    obtain ⟨v2, w2, a2, b2, c2⟩ := C26_score p2.width.toNat p2.height.toNat 6 (by omega) (by omega) (by norm_num) (ms.map Prod.snd)
    have key : ∀ {inliers : List Nat} {ms : List PixelMatch} {v1 v2 w1 w2 : VisibilityPyramid}, Picked corrs inliers ms →
        VisibilityPyramid.addPoints (ms.map Prod.fst) v1 = .ok w1 →
        VisibilityPyramid.addPoints (ms.map Prod.snd) v2 = .ok w2 → addInliers corrs inliers v1 v2 = .ok (w1, w2) := by
      intro inliers ms v1 v2 w1 w2 hp
      induction hp generalizing v1 v2 with
      | nil =>
        intro h1 h2
        cases h1
        cases h2
        rfl
      | @cons i c is cs hd _ ih =>
        intro h1 h2
        simp only [List.map_cons, VisibilityPyramid.addPoints] at h1 h2
        unfold addInliers
        rw [hd]
        simp only
        cases g1 : v1.addPoint c.1 with
        | abort => simp [g1] at h1
        | ub => simp [g1] at h1
        | ok u1 =>
          cases g2 : v2.addPoint c.2 with
          | abort => simp [g2] at h2
          | ub => simp [g2] at h2
          | ok u2 =>
            rw [g1] at h1
            rw [g2] at h2
            simp only [Outcome.ok_bind]
            exact ih h1 h2
    rw [a1, a2]
    simp only [Outcome.ok_bind, key hi b1 b2, c1, c2]

/-! ## Features -/

theorem normalizeAll_length {m1 m2 : CameraPriors.Intrinsics ℝ} : ∀ {cs : List PixelMatch} {ns : List ((ℝ × ℝ) × (ℝ × ℝ))},
    normalizeAll m1 m2 cs = .ok ns → ns.length = cs.length
  | [], ns, h => by
    cases h; rfl
  | c :: cs, ns, h => by
    unfold normalizeAll at h
    obtain ⟨a, -, h⟩ := Outcome.bind_eq_ok.1 h
    obtain ⟨b, -, h⟩ := Outcome.bind_eq_ok.1 h
    obtain ⟨r, hr, h⟩ := Outcome.bind_eq_ok.1 h
    cases h
    rw [List.length_cons, List.length_cons, normalizeAll_length hr]

theorem normalizeFeatures_length {p1 p2 : CameraPriors.IntrinsicsPrior ℝ} {cs : List PixelMatch}
    {ns : List ((ℝ × ℝ) × (ℝ × ℝ))} (h : normalizeFeatures p1 p2 cs = .ok ns) : ns.length = cs.length := by
  unfold normalizeFeatures at h
  obtain ⟨a, -, h⟩ := Outcome.bind_eq_ok.1 h
  obtain ⟨b, -, h⟩ := Outcome.bind_eq_ok.1 h
  obtain ⟨r, -, h⟩ := Outcome.bind_eq_ok.1 h
  obtain ⟨q, -, h⟩ := Outcome.bind_eq_ok.1 h
  exact normalizeAll_length h

end Theia
