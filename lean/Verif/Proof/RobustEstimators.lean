import Verif.Model.RobustEstimators
import Verif.Proof.LinearPositionCoplanar
import Verif.Proof.TwoViewEstimation
import Verif.Props.EightPoint
import Verif.Props.Homography
import Verif.Props.KnownRotation
import Verif.Spec.RobustEstimators

/-!
# Proofs about robust estimators
-/

namespace Theia

open Spec RansacVariants RobustEstimators LinearSolvers
open Triangulation hiding epipolar

theorem mem_models_drawn {D M : Type} {data : List D} {sample : Nat → Option (List Nat)}
    {estimate : List D → Option (List M)} {n : Nat} {m : M} :
    m ∈ modelsUpTo data sample estimate n ↔
      ∃ i < n, ∃ ds, Drawn data sample i ds ∧ ∃ ms, estimate ds = some ms ∧ m ∈ ms := by
  rw [mem_modelsUpTo]
  constructor
  · rintro ⟨i, hi, idx, ds, ms, h1, h2, h3, h4⟩
    exact ⟨i, hi, ds, ⟨idx, h1, h2⟩, ms, h3, h4⟩
  · rintro ⟨i, hi, ds, ⟨idx, h1, h2⟩, ms, h3, h4⟩
    exact ⟨i, hi, idx, ds, ms, h1, h2, h3, h4⟩

theorem drawn_length {D : Type} {data : List D} {sample : Nat → Option (List Nat)} {k : Nat}
    (h : SamplesOf k data.length sample) {i : Nat} {ds : List D} (hd : Drawn data sample i ds) : ds.length = k := by
  obtain ⟨idx, h1, h2⟩ := hd
  rw [← h2.length_eq, (h i idx h1).1]

theorem drawn_mem {D : Type} {data : List D} {sample : Nat → Option (List Nat)} {i : Nat} {ds : List D}
    (hd : Drawn data sample i ds) : ∀ d ∈ ds, d ∈ data := by
  obtain ⟨idx, -, hp⟩ := hd
  intro p hpd
  obtain ⟨k, hk, e⟩ := List.mem_iff_getElem.1 hpd
  have hl := hp.length_eq
  have := List.forall₂_iff_get.1 hp |>.2 k (by omega) hk
  rw [List.get_eq_getElem, List.get_eq_getElem, e] at this
  exact List.mem_of_getElem? this

/-- Sample consensus as a robust estimation. -/
theorem robust_result {D M : Type} {t : RansacType} (htl : t ≠ .lmed) {k : Nat} (hte : t = .exhaustive → k = 2) {s : Settings}
    (hs : 0 < s.errorThresh) (hp : s.params.Valid) (lmed : List (WithTop ℝ) → WithTop ℝ × List Nat) {data : List D}
    {sample : Nat → Option (List Nat)} (hsam : SamplesOf k data.length sample) (estimate : List D → Option (List M))
    (h1 : 1 ≤ k) (hlen : k ≤ data.length) (error : D → M → WithTop ℝ) (initial : M) {computed expected : List D → M → Prop}
    {fits : M → D → Prop} {residual : M → D → ℝ}
    (hc : ∀ ds ms m, ds.length = k → estimate ds = some ms → m ∈ ms → computed ds m)
    (hfit : ∀ m d, error d m < (s.errorThresh : WithTop ℝ) ↔ fits m d)
    (hres : ∀ m d, fits m d → error d m = (residual m d : WithTop ℝ))
    (he : ∀ ds m, expected ds m → ds.length = k → (∀ d ∈ ds, d ∈ data) → ∃ ms m', estimate ds = some ms ∧ m' ∈ ms ∧
      ∀ d, error d m' = error d m) :
    ∃ m sum, consensus t s lmed data sample estimate k error initial = .ok (m, sum) ∧
      s.params.minIterations ≤ sum.numIterations ∧ (sum.numIterations : Int) ≤ max 0 s.params.maxIterations ∧
      RobustResult data sample sum.numIterations computed expected fits
        (fun m => robustCost s.useMle s.errorThresh (fits m) (residual m) data) initial m sum.inliers := by
  obtain ⟨m, sum, hr, a1, a2, a3, a4, a5, a6⟩ := consensus_spec_any htl hte hs hp lmed (fun i idx h => (hsam i idx h).2)
    estimate h1 hlen error initial
  have hcost : ∀ m, (data.map fun d => cappedCost s.useMle s.errorThresh (error d m)).sum =
      robustCost s.useMle s.errorThresh (fits m) (residual m) data := by
    intro m
    unfold robustCost
    congr 1
    refine List.map_congr_left fun d _ => ?_
    unfold cappedCost
    by_cases h : fits m d
    · rw [if_pos ((hfit m d).2 h), if_pos h, hres m d h]
      rfl
    · rw [if_neg (fun h' => h ((hfit m d).1 h')), if_neg h]
  have hmem : modelsUpTo data sample estimate sum.numIterations ≠ [] →
      ∃ i < sum.numIterations, ∃ ds, Drawn data sample i ds ∧ computed ds m := by
    intro hne
    obtain ⟨i, hi, ds, hd, ms, e1, e2⟩ := mem_models_drawn.1 (a4 hne)
    exact ⟨i, hi, ds, hd, hc ds ms m (drawn_length hsam hd) e1 e2⟩
  refine ⟨m, sum, hr, a1, a2, ?_, ?_, ?_⟩
  · by_cases hne : modelsUpTo data sample estimate sum.numIterations = []
    · exact .inl (a3 hne)
    · exact .inr (hmem hne)
  · intro i hi ds m' hd he'
    obtain ⟨ms, m'', e1, e2, e3⟩ := he ds m' he' (drawn_length hsam hd) (drawn_mem hd)
    have hm := mem_models_drawn.2 ⟨i, hi, ds, hd, ms, e1, e2⟩
    refine ⟨hmem (List.ne_nil_of_mem hm), ?_⟩
    have := a5 m'' hm
    simp only [e3] at this
    rwa [hcost, hcost] at this
  · obtain ⟨b1, b2⟩ := a6
    refine ⟨b1, fun i => (b2 i).trans (exists_congr fun d => and_congr_right fun _ => hfit m d)⟩

/-! ## Planes -/

theorem normalize_unit {v : V3 ℝ} (h : 0 < v.dot v) : (Triangulation.normalize v).dot (Triangulation.normalize v) = 1 := by
  unfold Triangulation.normalize
  rw [if_pos h]
  have hs := Real.sqrt_pos.2 h
  have hq := Real.mul_self_sqrt h.le
  generalize Real.sqrt (v.dot v) = r at *
  have : (v.smul (1 / r)).dot (v.smul (1 / r)) = 1 / r * (1 / r) * v.dot v := by simp only [V3.dot, V3.smul]; ring
  rw [this, ← hq]
  field_simp

theorem normalize_eq {v : V3 ℝ} (h : 0 < v.dot v) : ∃ k, 0 < k ∧ Triangulation.normalize v = v.smul k := by
  unfold Triangulation.normalize
  rw [if_pos h]
  exact ⟨_, by positivity, rfl⟩

/-- A unit vector orthogonal to two independent ones is the unit normal or its opposite. -/
theorem normal_unique {a b u : V3 ℝ} (hc : 0 < (a.cross b).dot (a.cross b)) (hu : u.dot u = 1) (h1 : u.dot a = 0)
    (h2 : u.dot b = 0) : Triangulation.normalize (a.cross b) = u ∨ Triangulation.normalize (a.cross b) = u.neg := by
  have hne : a.cross b ≠ V3.zero := by
    intro h
    rw [h] at hc
    simp [V3.dot, V3.zero] at hc
  have e := LinearPosition.parallel_normal hne h1 h2
  generalize u.dot (a.cross b) / (a.cross b).dot (a.cross b) = c at e
  obtain ⟨k, hk, hn⟩ := normalize_eq hc
  have h1' := normalize_unit hc
  rw [hn] at h1' ⊢
  rw [e] at hu ⊢
  have hkk : k ^ 2 = c ^ 2 := by
    have e1 : k ^ 2 * (a.cross b).dot (a.cross b) = 1 := by rw [← h1']; simp only [V3.dot, V3.smul]; ring
    have e2 : c ^ 2 * (a.cross b).dot (a.cross b) = 1 := by rw [← hu]; simp only [V3.dot, V3.smul]; ring
    exact mul_right_cancel₀ hc.ne' (e1.trans e2.symm)
  rcases sq_eq_sq_iff_eq_or_eq_neg.1 hkk with h | h
  · left; rw [h]
  · right
    rw [h]
    apply V3.ext <;> simp [V3.smul, V3.neg]

/-! ## Matrices -/

theorem matrixError_some (F : M3 ℝ) (c : Match) : matrixError c (some F) = TwoViewEstimation.sampsonResidual F c.1 c.2 := rfl

theorem matrixError_lt (m : Option (M3 ℝ)) (t : ℝ) (c : Match) :
    matrixError c m < (t : WithTop ℝ) ↔ SomeMatrix (fun F => SampsonBelow F t c.1 c.2) m := by
  cases m with
  | none => simp [matrixError, SomeMatrix]
  | some F => rw [matrixError_some, sampsonResidual_lt]; simp [SomeMatrix]

theorem sampson_scale (F : M3 ℝ) {k : ℝ} (hk : k ≠ 0) (c : Match) :
    matrixError c (some (combine k F 0 F)) = matrixError c (some F) := by
  have e1 : epipolar (combine k F 0 F) c.1 c.2 = k * epipolar F c.1 c.2 := by
    simp only [epipolar, combine, M3.mulVec, V3.dot, V3.add, V3.smul]; ring
  have e2 : epipolarGradient (combine k F 0 F) c.1 c.2 = k ^ 2 * epipolarGradient F c.1 c.2 := by
    simp only [epipolarGradient, combine, V3.add, V3.smul]; ring
  simp only [matrixError, sampson_eq, e1, e2]
  by_cases h : epipolarGradient F c.1 c.2 = 0
  · simp [h]
  · have hk2 : k ^ 2 ≠ 0 := pow_ne_zero 2 hk
    rw [if_neg (mul_ne_zero hk2 h), if_neg h]
    simp only
    congr 1
    field_simp

theorem crossMatrix_baseline (p : V3 ℝ) : crossMatrix p = baselineMatrix p := rfl

theorem crossMatrix_smul (p : V3 ℝ) (k : ℝ) :
    crossMatrix (p.smul k) = combine k (crossMatrix p) 0 (crossMatrix p) := by
  simp [crossMatrix, combine, V3.add, V3.smul]

theorem homographyError_scale (H : M3 ℝ) {k : ℝ} (hk : k ≠ 0) (c : Match) :
    homographyError c (some (combine k H 0 H)) = homographyError c (some H) := by
  have e : (combine k H 0 H).mulVec (homog c.1) = (H.mulVec (homog c.1)).smul k := by
    apply V3.ext <;> simp only [combine, M3.mulVec, V3.dot, V3.add, V3.smul] <;> ring
  simp only [homographyError, e, V3.smul]
  by_cases h : (H.mulVec (homog c.1)).z = 0
  · simp [h]
  · rw [if_neg (mul_ne_zero hk h), if_neg h, mul_div_mul_left _ _ hk, mul_div_mul_left _ _ hk]

theorem homographyError_lt (m : Option (M3 ℝ)) (t : ℝ) (c : Match) :
    homographyError c m < (t : WithTop ℝ) ↔ SomeMatrix (fun H => TransfersTo H t c) m := by
  cases m with
  | none => simp [homographyError, SomeMatrix]
  | some H =>
    have hh : homog c.1 = ⟨c.1.1, c.1.2, 1⟩ := rfl
    simp only [homographyError, SomeMatrix, TransfersTo, transferSq, sq2, hh]
    by_cases h : (H.mulVec ⟨c.1.1, c.1.2, 1⟩).z = 0
    · simp [h]
    · rw [if_neg h, WithTop.coe_lt_coe]
      simp [h, ← pow_two]

end Theia
