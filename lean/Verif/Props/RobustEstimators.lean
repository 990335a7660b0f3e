import Verif.Proof.RobustEstimators
import Verif.Proof.SingularFit

/-!
# C90: robust estimators of planes and of relations between two images
-/

namespace Theia

open Spec RansacVariants RobustEstimators LinearSolvers
open Triangulation hiding epipolar

/-- What is asked of the variant and of the options. -/
def ValidSettings (t : RansacType) (s : Settings) : Prop :=
  (t = .ransac ∨ t = .prosac) ∧ 0 < s.errorThresh ∧ s.params.Valid

/-- C90: if the data all fit a model exactly, and a sample that determines the model was drawn, all the data are inliers. -/
theorem C90_all_inliers {D M : Type} {data : List D} {sample : Nat → Option (List Nat)} {n : Nat}
    {computed expected : List D → M → Prop} {fits : M → D → Prop} {residual : M → D → ℝ} {mle : Bool} {t : ℝ} (ht : 0 < t)
    {initial m : M} {inliers : List Nat} (h : RobustResult data sample n computed expected fits
      (fun m => robustCost mle t (fits m) (residual m) data) initial m inliers)
    (hpos : ∀ m d, fits m d → 0 ≤ residual m d) {i : Nat} (hi : i < n) {ds : List D} (hd : Drawn data sample i ds) {m' : M}
    (he : expected ds m') (hm' : ∀ d ∈ data, fits m' d ∧ residual m' d = 0) : ∀ j, j ∈ inliers ↔ j < data.length := by
  obtain ⟨-, h2, h3⟩ := h
  obtain ⟨-, hle⟩ := h2 i hi ds m' hd he
  have h0 : robustCost mle t (fits m') (residual m') data = 0 := by
    unfold robustCost
    refine List.sum_eq_zero fun x hx => ?_
    obtain ⟨d, hd, rfl⟩ := List.mem_map.1 hx
    rw [if_pos (hm' d hd).1, (hm' d hd).2, ite_self]
  simp only [h0] at hle
  have hnn : ∀ x ∈ data.map fun d => (open Classical in if fits m d then if mle then residual m d else 0 else if mle then t else 1),
      0 ≤ x := by
    intro x hx
    obtain ⟨d, hd, rfl⟩ := List.mem_map.1 hx
    split
    · split
      · exact hpos _ _ ‹_›
      · exact le_rfl
    · split
      · exact ht.le
      · exact zero_le_one
  have hall : ∀ d ∈ data, fits m d := by
    intro d hd
    by_contra hf
    have := List.single_le_sum hnn _ (List.mem_map_of_mem (f := fun d =>
      (open Classical in if fits m d then if mle then residual m d else 0 else if mle then t else 1)) hd)
    simp only [if_neg hf] at this
    have hle' := this.trans hle
    cases mle
    · simp at hle'
      linarith
    · simp at hle'
      linarith
  obtain ⟨-, h3⟩ := h3
  intro j
  rw [h3]
  constructor
  · rintro ⟨d, hd, -⟩
    exact (List.getElem?_eq_some_iff.1 hd).1
  · intro hj
    exact ⟨data[j], List.getElem?_eq_getElem hj, hall _ (List.getElem_mem hj)⟩

/-! ## Planes -/

/-- What a sample says of a plane: three points that are not almost on a line, all in the plane, whose normal is a unit
vector. -/
def PlaneThrough (ds : List (V3 ℝ)) (m : Plane) : Prop :=
  m.normal.dot m.normal = 1 ∧ ∃ a b c, ds = [a, b, c] ∧ WideTriangle a b c ∧ ∀ p ∈ ds, InPlane m.point m.normal p

private theorem same_plane {a b c : V3 ℝ} (hw : WideTriangle a b c) {m : Plane} (h1 : m.normal.dot m.normal = 1)
    (hp : ∀ p ∈ [a, b, c], InPlane m.point m.normal p) :
    Triangulation.normalize ((b.sub a).cross (c.sub a)) = m.normal ∨
      Triangulation.normalize ((b.sub a).cross (c.sub a)) = m.normal.neg := by
  have pa := hp a (by simp)
  have pb := hp b (by simp)
  have pc := hp c (by simp)
  refine normal_unique (by unfold WideTriangle at hw; linarith) h1 ?_ ?_
  · simp only [InPlane, V3.dot, V3.sub] at *; linarith
  · simp only [InPlane, V3.dot, V3.sub] at *; linarith

/-- C90: the plane found goes through three of the points and has a unit normal; no plane through a drawn sample that is not almost on a
line has a lower cost; the inliers are exactly the points closer to it than the threshold. -/
theorem C90_plane {t : RansacType} {s : Settings} (hv : ValidSettings t s) (lmed : List (WithTop ℝ) → WithTop ℝ × List Nat)
    (points : List (V3 ℝ)) (h3 : 3 ≤ points.length) (sample : Nat → Option (List Nat))
    (hs : SamplesOf 3 points.length sample) (initial : Plane) :
    ∃ m sum, estimatePlane t s lmed sample points initial = .ok (m, sum) ∧
      s.params.minIterations ≤ sum.numIterations ∧ (sum.numIterations : Int) ≤ max 0 s.params.maxIterations ∧
      RobustResult points sample sum.numIterations PlaneThrough PlaneThrough
        (fun m p => planeDistance m.point m.normal p < s.errorThresh)
        (fun m => robustCost s.useMle s.errorThresh (fun p => planeDistance m.point m.normal p < s.errorThresh)
          (fun p => planeDistance m.point m.normal p) points) initial m sum.inliers := by
  obtain ⟨ht, hpos, hp⟩ := hv
  refine robust_result (by rcases ht with rfl | rfl <;> decide) (by rcases ht with rfl | rfl <;> simp) hpos hp lmed hs planeModels
    (by norm_num) h3 planeError initial ?_ (fun m p => WithTop.coe_lt_coe) (fun m p _ => rfl) ?_
  · intro ds ms m hl he hm
    obtain ⟨a, b, c, rfl⟩ := List.length_eq_three.1 hl
    simp only [planeModels] at he
    split at he
    · cases he
    · next hw =>
      cases he
      cases List.mem_singleton.1 hm
      have hw' : WideTriangle a b c := not_lt.1 hw
      have h0 : 0 < ((b.sub a).cross (c.sub a)).dot ((b.sub a).cross (c.sub a)) := by unfold WideTriangle at hw'; linarith
      refine ⟨normalize_unit h0, a, b, c, rfl, hw', ?_⟩
      obtain ⟨k, -, e⟩ := normalize_eq h0
      simp only [InPlane, e, List.forall_mem_cons]
      refine ⟨?_, ?_, ?_, by simp⟩ <;> simp only [V3.dot, V3.smul, V3.cross, V3.sub] <;> ring
  · rintro ds m ⟨h1, a, b, c, rfl, hw, hin⟩ - -
    refine ⟨_, ⟨a, Triangulation.normalize ((b.sub a).cross (c.sub a))⟩, by simp only [planeModels]; exact if_neg (not_lt.2 hw),
      List.mem_singleton.2 rfl, fun p => ?_⟩
    have pa := hin a (by simp)
    simp only [planeError]
    congr 1
    have e : m.normal.dot (p.sub a) = m.normal.dot (p.sub m.point) := by
      simp only [InPlane, V3.dot, V3.sub] at *; linarith
    rcases same_plane hw h1 hin with h | h
    · rw [h, e]
    · rw [h, ← e, ← abs_neg]
      congr 1
      simp only [V3.dot, V3.neg]; ring

/-- C90: if the points are in a plane, and a sample that is not almost on a line is drawn, that plane is found, and all points are
inliers. -/
theorem C90_plane_exact {t : RansacType} {s : Settings} (hv : ValidSettings t s)
    (lmed : List (WithTop ℝ) → WithTop ℝ × List Nat) (points : List (V3 ℝ)) (h3 : 3 ≤ points.length)
    (sample : Nat → Option (List Nat)) (hs : SamplesOf 3 points.length sample) (initial : Plane) (o u : V3 ℝ)
    (hu : u.dot u = 1) (hin : ∀ p ∈ points, InPlane o u p) (i : Nat) (hi : i < s.params.minIterations) (a b c : V3 ℝ)
    (hd : Drawn points sample i [a, b, c]) (hw : WideTriangle a b c) :
    ∃ m sum, estimatePlane t s lmed sample points initial = .ok (m, sum) ∧ InPlane o u m.point ∧
      (m.normal = u ∨ m.normal = u.neg) ∧ ∀ j, j ∈ sum.inliers ↔ j < points.length := by
  obtain ⟨m, sum, hr, h1, -, hR⟩ := C90_plane hv lmed points h3 sample hs initial
  have mem : ∀ {i ds}, Drawn points sample i ds → ∀ p ∈ ds, p ∈ points := by
    rintro i ds ⟨idx, -, hp⟩ p hpd
    obtain ⟨k, hk, e⟩ := List.mem_iff_getElem.1 hpd
    have hl := hp.length_eq
    have := List.forall₂_iff_get.1 hp |>.2 k (by omega) hk
    rw [List.get_eq_getElem, List.get_eq_getElem, e] at this
    exact List.mem_of_getElem? this
  have he : PlaneThrough [a, b, c] ⟨o, u⟩ := ⟨hu, a, b, c, rfl, hw, fun p hp => hin p (mem hd p hp)⟩
  have hin' : i < sum.numIterations := by omega
  obtain ⟨⟨i', -, ds, hd', hu', a', b', c', rfl, hw', hp'⟩, -⟩ := hR.2.1 i hin' _ _ hd he
  refine ⟨m, sum, hr, ?_, ?_, C90_all_inliers hv.2.1 hR (fun _ _ _ => abs_nonneg _) hin' hd he fun p hp => ?_⟩
  · have pa := hp' a' (by simp)
    have pa' := hin a' (mem hd' a' (by simp))
    rcases same_plane hw' hu' hp' with h | h <;>
      rcases same_plane (m := ⟨o, u⟩) hw' hu (fun p hp => hin p (mem hd' p hp)) with h' | h' <;>
      rw [h] at h' <;> obtain ⟨e1, e2, e3⟩ := V3.ext_iff.1 h' <;> simp only [InPlane, V3.dot, V3.sub, V3.neg] at * <;>
      first
      | (rw [e1, e2, e3] at pa; linarith)
      | (rw [← e1, ← e2, ← e3]; rw [← e1, ← e2, ← e3] at pa'; linarith)
      | (rw [neg_inj] at e1 e2 e3; rw [e1, e2, e3] at pa; linarith)
  · rcases same_plane hw' hu' hp' with h | h <;>
      rcases same_plane (m := ⟨o, u⟩) hw' hu (fun p hp => hin p (mem hd' p hp)) with h' | h' <;> rw [h] at h'
    · exact .inl h'
    · exact .inr h'
    · right
      rw [← show m.normal.neg = u from h']
      apply V3.ext <;> simp [V3.neg]
    · left
      obtain ⟨e1, e2, e3⟩ := V3.ext_iff.1 h'
      simp only [V3.neg] at e1 e2 e3
      apply V3.ext <;> linarith
  · have := hin p hp
    simp only [InPlane] at this
    simp only [planeDistance, this, abs_zero, hv.2.1, and_self]

/-- The square of side one at height two, and a point above it. -/
private def box : List (V3 ℝ) := [⟨0, 0, 2⟩, ⟨1, 0, 2⟩, ⟨0, 1, 2⟩, ⟨1, 1, 2⟩]

private noncomputable def someSettings : Settings :=
  { errorThresh := 1 / 10, useMle := true,
    params := { failureProbability := 1 / 100, minInlierRatio := 0, minIterations := 1, maxIterations := 10, useTdd := false } }

private theorem someSettings_valid : ValidSettings .ransac someSettings :=
  ⟨.inl rfl, by norm_num [someSettings], by norm_num [someSettings, Ransac.Params.Valid]⟩

/-- The hypotheses of the theorems on planes hold for a square. -/
example : ValidSettings .ransac someSettings ∧ 3 ≤ box.length ∧ SamplesOf 3 box.length (fun _ => some [0, 1, 2]) ∧
    (∀ p ∈ box, InPlane ⟨0, 0, 2⟩ ⟨0, 0, 1⟩ p) ∧ 0 < someSettings.params.minIterations ∧
    Drawn box (fun _ => some [0, 1, 2]) 0 [⟨0, 0, 2⟩, ⟨1, 0, 2⟩, ⟨0, 1, 2⟩] ∧ WideTriangle ⟨0, 0, 2⟩ ⟨1, 0, 2⟩ ⟨0, 1, 2⟩ := by
  refine ⟨someSettings_valid, by simp [box], ?_, ?_, by simp [someSettings], ⟨_, rfl, ?_⟩, ?_⟩
  · rintro i idx h
    cases h
    simp [box]
  · simp [box, InPlane, V3.dot, V3.sub]
  · simp [Picked, box]
  · norm_num [WideTriangle, V3.dot, V3.cross, V3.sub]

/-- C90: the tolerance for points on a line is absolute. If the points are within 1/100 of the first, say in metres, no plane is found,
success is reported, and the plane returned is what was in the variable before. -/
theorem C90_plane_small_counterexample {t : RansacType} {s : Settings} (hv : ValidSettings t s)
    (lmed : List (WithTop ℝ) → WithTop ℝ × List Nat) (initial : Plane) :
    ∃ points : List (V3 ℝ), points.length = 4 ∧ points.Nodup ∧ (∀ p ∈ points, InPlane V3.zero ⟨0, 0, 1⟩ p) ∧
      (∃ a ∈ points, ∃ b ∈ points, ∃ c ∈ points, (b.sub a).cross (c.sub a) ≠ V3.zero) ∧
      ∀ sample, SamplesOf 3 points.length sample → ∃ sum, estimatePlane t s lmed sample points initial = .ok (initial, sum) := by
  refine ⟨[⟨0, 0, 0⟩, ⟨1 / 100, 0, 0⟩, ⟨0, 1 / 100, 0⟩, ⟨1 / 100, 1 / 100, 0⟩], rfl, by norm_num, by simp [InPlane, V3.dot, V3.sub, V3.zero],
    ⟨⟨0, 0, 0⟩, by simp, ⟨1 / 100, 0, 0⟩, by simp, ⟨0, 1 / 100, 0⟩, by simp, fun h => ?_⟩, fun sample hs => ?_⟩
  · have := congrArg V3.z h
    norm_num [V3.cross, V3.sub, V3.zero] at this
  · obtain ⟨m, sum, hr, -, -, hm, -, -⟩ := C90_plane hv lmed _ (by simp) sample hs initial
    refine ⟨sum, ?_⟩
    rw [hr]
    rcases hm with rfl | ⟨i, -, ds, ⟨idx, -, hp⟩, -, a, b, c, rfl, hw, -⟩
    · rfl
    · exfalso
      have hmem : ∀ p ∈ [a, b, c], p ∈ [(⟨0, 0, 0⟩ : V3 ℝ), ⟨1 / 100, 0, 0⟩, ⟨0, 1 / 100, 0⟩, ⟨1 / 100, 1 / 100, 0⟩] := by
        intro p hpd
        obtain ⟨k, hk, e⟩ := List.mem_iff_getElem.1 hpd
        have hl := hp.length_eq
        have := List.forall₂_iff_get.1 hp |>.2 k (by omega) hk
        rw [List.get_eq_getElem, List.get_eq_getElem, e] at this
        exact List.mem_of_getElem? this
      have hb : ∀ p ∈ [a, b, c], p.z = 0 ∧ 0 ≤ p.x ∧ p.x ≤ 1 / 100 ∧ 0 ≤ p.y ∧ p.y ≤ 1 / 100 := by
        intro p hp
        have := hmem p hp
        simp only [List.mem_cons, List.not_mem_nil, or_false] at this
        rcases this with rfl | rfl | rfl | rfl <;> norm_num
      obtain ⟨a1, a2, a3, a4, a5⟩ := hb a (by simp)
      obtain ⟨b1, b2, b3, b4, b5⟩ := hb b (by simp)
      obtain ⟨c1, c2, c3, c4, c5⟩ := hb c (by simp)
      simp only [WideTriangle, V3.dot, V3.cross, V3.sub, a1, b1, c1, sub_self, mul_zero, zero_mul, zero_add] at hw
      have k1 : |(b.x - a.x) * (c.y - a.y)| ≤ 1 / 100 * (1 / 100) := by
        rw [abs_mul]
        exact mul_le_mul (abs_le.2 ⟨by linarith, by linarith⟩) (abs_le.2 ⟨by linarith, by linarith⟩) (abs_nonneg _) (by norm_num)
      have k2 : |(b.y - a.y) * (c.x - a.x)| ≤ 1 / 100 * (1 / 100) := by
        rw [abs_mul]
        exact mul_le_mul (abs_le.2 ⟨by linarith, by linarith⟩) (abs_le.2 ⟨by linarith, by linarith⟩) (abs_nonneg _) (by norm_num)
      have k3 : |(b.x - a.x) * (c.y - a.y) - (b.y - a.y) * (c.x - a.x)| ≤ 1 / 5000 := by
        refine (abs_sub _ _).trans ?_
        linarith
      have k4 := abs_mul_abs_self ((b.x - a.x) * (c.y - a.y) - (b.y - a.y) * (c.x - a.x))
      have := mul_le_mul k3 k3 (abs_nonneg _) (by norm_num)
      linarith

/-! ## Homographies -/

/-- The matrix whose normalised form has the least algebraic transfer error among the matrices of norm one; none, if all the points of
an image are the same. -/
def LeastTransfer (ds : List Match) (m : Option (M3 ℝ)) : Prop :=
  ((∀ p ∈ ds, ∀ q ∈ ds, p.1 = q.1) ∨ ∀ p ∈ ds, ∀ q ∈ ds, p.2 = q.2) ∧ m = none ∨
  ∃ H xs' N1 ys' N2 G, m = some H ∧ PoseUtil.normalizePoints (ds.map Prod.fst) = .ok (xs', N1) ∧
    PoseUtil.normalizePoints (ds.map Prod.snd) = .ok (ys', N2) ∧ N2.mul H = G.mul N1 ∧ entriesSq G = 1 ∧
    ∀ G', entriesSq G' = 1 → transferError G xs' ys' ≤ transferError G' xs' ys'

/-- The homography is invertible and sends the four points, no three on a line, to their counterparts. -/
def HomographyOf (ds : List Match) (m : Option (M3 ℝ)) : Prop :=
  ∃ H a b c d, m = some H ∧ H.det ≠ 0 ∧ ds = [a, b, c, d] ∧ (∀ p ∈ ds, SendsTo H p.1 p.2) ∧ GeneralPosition a.1 b.1 c.1 d.1

/-- C90: the homography found is the least squares solution for four of the matches; no homography that is determined by a drawn sample
has a lower cost; the inliers are exactly the matches whose first point is sent to a point closer to the second than the threshold. -/
theorem C90_homography {last : List (Fin 9 → ℝ) → Fin 9 → ℝ} (hl : LastSingularVector last) {t : RansacType} {s : Settings}
    (hv : ValidSettings t s) (lmed : List (WithTop ℝ) → WithTop ℝ × List Nat) (cs : List Match) (h4 : 4 ≤ cs.length)
    (sample : Nat → Option (List Nat)) (hs : SamplesOf 4 cs.length sample) (initial : Option (M3 ℝ)) :
    ∃ m sum, estimateHomography last t s lmed sample cs initial = .ok (m, sum) ∧
      s.params.minIterations ≤ sum.numIterations ∧ (sum.numIterations : Int) ≤ max 0 s.params.maxIterations ∧
      RobustResult cs sample sum.numIterations LeastTransfer HomographyOf
        (fun m c => SomeMatrix (fun H => TransfersTo H s.errorThresh c) m)
        (fun m => robustCost s.useMle s.errorThresh (fun c => SomeMatrix (fun H => TransfersTo H s.errorThresh c) m)
          (fun c => m.elim 0 fun H => transferSq H c) cs) initial m sum.inliers := by
  obtain ⟨ht, hpos, hp⟩ := hv
  refine robust_result (residual := fun m c => m.elim 0 fun H => transferSq H c) (by rcases ht with rfl | rfl <;> decide)
    (by rcases ht with rfl | rfl <;> simp) hpos hp lmed hs (homographyModels last) (by norm_num) h4 homographyError initial ?_
    (fun m c => homographyError_lt m _ c) ?_ ?_
  · intro ds ms m hlen he hm
    unfold homographyModels at he
    rw [List.take_of_length_le (by simp [hlen]), List.take_of_length_le (by simp [hlen])] at he
    by_cases hx : ∀ p ∈ ds, ∀ q ∈ ds, p.1 = q.1
    · have hu := (C79_undefined last (ds.map Prod.fst) (ds.map Prod.snd)).2.2
        ⟨by simp [hlen], by simp, .inl (by
          simp only [List.forall_mem_map]
          exact hx)⟩
      rw [hu] at he
      cases he
      exact .inl ⟨.inl hx, List.mem_singleton.1 hm⟩
    · by_cases hy : ∀ p ∈ ds, ∀ q ∈ ds, p.2 = q.2
      · have hu := (C79_undefined last (ds.map Prod.fst) (ds.map Prod.snd)).2.2
          ⟨by simp [hlen], by simp, .inr (by
          simp only [List.forall_mem_map]
          exact hy)⟩
        rw [hu] at he
        cases he
        exact .inl ⟨.inr hy, List.mem_singleton.1 hm⟩
      · push Not at hx hy
        obtain ⟨p, hp, q, hq, hpq⟩ := hx
        obtain ⟨p', hp', q', hq', hpq'⟩ := hy
        obtain ⟨H, xs', N1, ys', N2, G, hH, hr1, hr2, hN, hG, hmin⟩ := C79_least hl (ds.map Prod.fst) (ds.map Prod.snd) (by simp)
          (by simp [hlen]) ⟨_, List.mem_map_of_mem hp, _, List.mem_map_of_mem hq, hpq⟩
          ⟨_, List.mem_map_of_mem hp', _, List.mem_map_of_mem hq', hpq'⟩
        rw [hH] at he
        cases he
        exact .inr ⟨H, xs', N1, ys', N2, G, List.mem_singleton.1 hm, hr1, hr2, hN, hG, hmin⟩
  · rintro m c ⟨H, rfl, hz, -⟩
    have hh : homog c.1 = ⟨c.1.1, c.1.2, 1⟩ := rfl
    simp only [homographyError, hh, if_neg hz, Option.elim, transferSq, sq2, pow_two]
  · rintro ds m ⟨H, a, b, c, d, rfl, hd, rfl, hsend, hg⟩ - -
    have hz : ([a, b, c, d].map Prod.fst).zip ([a, b, c, d].map Prod.snd) = [a, b, c, d] := by simp
    obtain ⟨k, hk, hH⟩ := C79_exact hl ([a, b, c, d].map Prod.fst) ([a, b, c, d].map Prod.snd) (by simp) (by simp) H hd
      (by rw [hz]; exact hsend) a.1 b.1 c.1 d.1 (by simp) (by simp) (by simp) (by simp) hg
    refine ⟨_, _, ?_, List.mem_singleton.2 rfl, fun c => homographyError_scale H hk c⟩
    unfold homographyModels
    rw [List.take_of_length_le (by simp), List.take_of_length_le (by simp), hH]

/-- The hypotheses of `C90_homography` hold for a square and a projective map, and the sample of its corners determines it. -/
example : (∃ last : List (Fin 9 → ℝ) → Fin 9 → ℝ, LastSingularVector last) ∧ ValidSettings .ransac someSettings ∧
    ∃ (cs : List Match) (H : M3 ℝ), 4 ≤ cs.length ∧ SamplesOf 4 cs.length (fun _ => some [0, 1, 2, 3]) ∧
      Drawn cs (fun _ => some [0, 1, 2, 3]) 0 cs ∧ HomographyOf cs (some H) ∧
      ∀ c ∈ cs, SomeMatrix (fun H => TransfersTo H someSettings.errorThresh c) (some H) := by
  refine ⟨exists_last (by norm_num), someSettings_valid,
    [((0, 0), (2, 3)), ((1, 0), (3 / 2, 3 / 2)), ((0, 1), (2, 4)), ((1, 1), (3 / 2, 2))],
    ⟨⟨1, 0, 2⟩, ⟨0, 1, 3⟩, ⟨1, 0, 1⟩⟩, by simp, ?_, ⟨_, rfl, by simp [Picked]⟩,
    ⟨_, _, _, _, _, rfl, by norm_num [M3.det, V3.dot, V3.cross], rfl, ?_, by norm_num [GeneralPosition, ThreeOnLine]⟩, ?_⟩
  · rintro i idx h
    cases h
    simp
  · simp only [List.forall_mem_cons, SendsTo, M3.mulVec, V3.dot, V3.smul, V3.mk.injEq]
    exact ⟨⟨1, by norm_num⟩, ⟨2, by norm_num⟩, ⟨1, by norm_num⟩, ⟨2, by norm_num⟩, by simp⟩
  · simp only [List.forall_mem_cons, SomeMatrix, TransfersTo, transferSq, M3.mulVec, V3.dot, Option.some.injEq, exists_eq_left', someSettings]
    norm_num

/-! ## Fundamental and essential matrices -/

/-- A singular matrix, whose normalised form is nearest to one with the least algebraic error; none, if all the points of an image are
the same. -/
def LeastEpipolar (ds : List Match) (m : Option (M3 ℝ)) : Prop :=
  ((∀ p ∈ ds, ∀ q ∈ ds, p.1 = q.1) ∨ ∀ p ∈ ds, ∀ q ∈ ds, p.2 = q.2) ∧ m = none ∨
  ∃ F xs' N1 ys' N2 G Q, m = some F ∧ F.det = 0 ∧ PoseUtil.normalizePoints (ds.map Prod.fst) = .ok (xs', N1) ∧
    PoseUtil.normalizePoints (ds.map Prod.snd) = .ok (ys', N2) ∧ F = (N2.transpose.mul Q).mul N1 ∧ NearestSingular G Q ∧
    G ≠ ⟨V3.zero, V3.zero, V3.zero⟩ ∧ ∀ H, entriesSq H = entriesSq G → epipolarError G xs' ys' ≤ epipolarError H xs' ys'

/-- The singular matrix is, up to a factor, the only one that satisfies the epipolar constraints of the sample. -/
def FundamentalOf (ds : List Match) (m : Option (M3 ℝ)) : Prop :=
  ∃ F, m = some F ∧ F.det = 0 ∧ UniqueFit F (ds.map Prod.fst) (ds.map Prod.snd) ∧ (∃ p ∈ ds, ∃ q ∈ ds, p.1 ≠ q.1) ∧
    ∃ p ∈ ds, ∃ q ∈ ds, p.2 ≠ q.2

private theorem matrix_residual {m : Option (M3 ℝ)} {t : ℝ} {c : Match} (h : SomeMatrix (fun F => SampsonBelow F t c.1 c.2) m) :
    matrixError c m = ((m.elim 0 fun F => sampsonSq F c : ℝ) : WithTop ℝ) := by
  obtain ⟨F, rfl, h0⟩ := h
  have h0 : epipolarGradient F c.1 c.2 ≠ 0 := by
    intro h
    simp only [SampsonBelow, h, mul_zero] at h0
    exact absurd h0 (not_lt.2 (sq_nonneg _))
  simp only [matrixError, sampson_eq, if_neg h0, Option.elim, sampsonSq]

/-- C90: the fundamental matrix found is the one of eight of the matches; no matrix that is determined by a drawn sample has a lower
cost; the inliers are exactly the matches whose squared Sampson distance is below the threshold. -/
theorem C90_fundamental {kernel : Kernel 9} (hk : KernelSolver kernel) {last : List (Fin 9 → ℝ) → Fin 9 → ℝ}
    (hl : LastSingularVector last) {svd : M3 ℝ → M3 ℝ × V3 ℝ × M3 ℝ} (hsvd : SvdSolver svd) {t : RansacType} {s : Settings}
    (hv : ValidSettings t s) (lmed : List (WithTop ℝ) → WithTop ℝ × List Nat) (cs : List Match) (h8 : 8 ≤ cs.length)
    (sample : Nat → Option (List Nat)) (hs : SamplesOf 8 cs.length sample) (initial : Option (M3 ℝ)) :
    ∃ m sum, estimateFundamental kernel last svd t s lmed sample cs initial = .ok (m, sum) ∧
      s.params.minIterations ≤ sum.numIterations ∧ (sum.numIterations : Int) ≤ max 0 s.params.maxIterations ∧
      RobustResult cs sample sum.numIterations LeastEpipolar FundamentalOf
        (fun m c => SomeMatrix (fun F => SampsonBelow F s.errorThresh c.1 c.2) m)
        (fun m => robustCost s.useMle s.errorThresh (fun c => SomeMatrix (fun F => SampsonBelow F s.errorThresh c.1 c.2) m)
          (fun c => m.elim 0 fun F => sampsonSq F c) cs) initial m sum.inliers := by
  obtain ⟨ht, hpos, hp⟩ := hv
  refine robust_result (residual := fun m c => m.elim 0 fun F => sampsonSq F c) (by rcases ht with rfl | rfl <;> decide)
    (by rcases ht with rfl | rfl <;> simp) hpos hp lmed hs (fundamentalModels kernel last svd) (by norm_num) h8 matrixError initial ?_
    (fun m c => matrixError_lt m _ c) (fun m c h => matrix_residual h) ?_
  · intro ds ms m hlen he hm
    unfold fundamentalModels at he
    rw [List.take_of_length_le (by simp [hlen]), List.take_of_length_le (by simp [hlen])] at he
    by_cases hx : ∀ p ∈ ds, ∀ q ∈ ds, p.1 = q.1
    · have hu := (C78_undefined kernel last svd (ds.map Prod.fst) (ds.map Prod.snd)).2.2
        ⟨by simp [hlen], by simp, .inl (by
          simp only [List.forall_mem_map]
          exact hx)⟩
      rw [hu] at he
      cases he
      exact .inl ⟨.inl hx, List.mem_singleton.1 hm⟩
    · by_cases hy : ∀ p ∈ ds, ∀ q ∈ ds, p.2 = q.2
      · have hu := (C78_undefined kernel last svd (ds.map Prod.fst) (ds.map Prod.snd)).2.2
          ⟨by simp [hlen], by simp, .inr (by
          simp only [List.forall_mem_map]
          exact hy)⟩
        rw [hu] at he
        cases he
        exact .inl ⟨.inr hy, List.mem_singleton.1 hm⟩
      · push Not at hx hy
        obtain ⟨p, hp, q, hq, hpq⟩ := hx
        obtain ⟨p', hp', q', hq', hpq'⟩ := hy
        obtain ⟨out, hout, -, hF⟩ := C78_eight_point hk hl hsvd (ds.map Prod.fst) (ds.map Prod.snd) (by simp)
          (by simp [hlen]) ⟨_, List.mem_map_of_mem hp, _, List.mem_map_of_mem hq, hpq⟩
          ⟨_, List.mem_map_of_mem hp', _, List.mem_map_of_mem hq', hpq'⟩
        rw [hout] at he
        cases out with
        | none => cases he
        | some F =>
          cases he
          obtain ⟨h0, xs', N1, ys', N2, G, Q, h1, h2, h3, h4, h5, h6⟩ := hF F rfl
          exact .inr ⟨F, xs', N1, ys', N2, G, Q, List.mem_singleton.1 hm, h0, h1, h2, h3, h4, h5, h6⟩
  · rintro ds m ⟨F, rfl, hd, hu, ⟨p, hp, q, hq, hpq⟩, p', hp', q', hq', hpq'⟩ hlen -
    obtain ⟨k, hk0, hF⟩ := C78_eight_point_exact hk hl hsvd (ds.map Prod.fst) (ds.map Prod.snd) (by simp)
      (by simp [hlen]) ⟨_, List.mem_map_of_mem hp, _, List.mem_map_of_mem hq, hpq⟩
      ⟨_, List.mem_map_of_mem hp', _, List.mem_map_of_mem hq', hpq'⟩ F hu hd
    refine ⟨_, _, ?_, List.mem_singleton.2 rfl, fun c => sampson_scale F hk0 c⟩
    unfold fundamentalModels
    rw [List.take_of_length_le (by simp [hlen]), List.take_of_length_le (by simp [hlen]), hF]

/-- Matches of a scene seen from two places along the rows. -/
private def rowMatches : List Match :=
  [((0, 0), (0, 0)), ((1, 0), (0, 0)), ((0, 0), (1, 0)), ((1, 0), (1, 0)), ((0, 1), (0, 1)), ((0, -1), (0, -1)), ((1, 1), (0, 1)),
    ((0, 1), (1, 1))]

/-- The hypotheses of `C90_fundamental` hold for these matches, and the sample of all determines the matrix. -/
example : (∃ kernel : Kernel 9, KernelSolver kernel) ∧ (∃ last : List (Fin 9 → ℝ) → Fin 9 → ℝ, LastSingularVector last) ∧
    (∃ svd, SvdSolver svd) ∧ ValidSettings .ransac someSettings ∧ 8 ≤ rowMatches.length ∧
    SamplesOf 8 rowMatches.length (fun _ => some [0, 1, 2, 3, 4, 5, 6, 7]) ∧
    Drawn rowMatches (fun _ => some [0, 1, 2, 3, 4, 5, 6, 7]) 0 rowMatches ∧
    FundamentalOf rowMatches (some ⟨⟨0, 0, 0⟩, ⟨0, 0, -1⟩, ⟨0, 1, 0⟩⟩) := by
  refine ⟨exists_kernelSolver 9, exists_last (by norm_num), exists_svdSolver, someSettings_valid, by simp [rowMatches], ?_,
    ⟨_, rfl, by simp [Picked, rowMatches]⟩, ⟨_, rfl, by simp [M3.det, V3.dot, V3.cross], ⟨fun h => ?_, fun F => ?_⟩,
    ⟨((0, 0), (0, 0)), by simp [rowMatches], ((1, 0), (0, 0)), by simp [rowMatches], by simp⟩,
    ⟨((0, 0), (0, 0)), by simp [rowMatches], ((0, 0), (1, 0)), by simp [rowMatches], by simp⟩⟩⟩
  · rintro i idx h
    cases h
    simp [rowMatches]
  · have := congrArg (fun m : M3 ℝ => m.r3.y) h
    simp [V3.zero] at this
  · obtain ⟨⟨a, b, c⟩, ⟨d, e, f⟩, ⟨g, h, i⟩⟩ := F
    simp only [FitsAll, rowMatches, List.map_cons, List.map_nil, List.zip_cons_cons, List.zip_nil_right, List.forall_mem_cons,
      epipolarResidual, M3.mulVec, V3.dot, combine, V3.smul, V3.add, M3.mk.injEq, V3.mk.injEq]
    constructor
    · rintro ⟨h1, h2, h3, h4, h5, h6, h7, h8, -⟩
      refine ⟨h, ⟨?_, ?_, ?_⟩, ⟨?_, ?_, ?_⟩, ?_, ?_, ?_⟩ <;> linarith
    · rintro ⟨t, ⟨h1, h2, h3⟩, ⟨h4, h5, h6⟩, h7, h8, h9⟩
      refine ⟨?_, ?_, ?_, ?_, ?_, ?_, ?_, ?_, by simp⟩ <;> rw [h1, h2, h3, h4, h5, h6, h7, h8, h9] <;> ring

/-- The matrix is one of those the solver finds for the sample. -/
def SolutionOf (fivePoint : List V2 → List V2 → Option (List (M3 ℝ))) (ds : List Match) (m : Option (M3 ℝ)) : Prop :=
  ∃ E Es, m = some E ∧ fivePoint (ds.map Prod.fst) (ds.map Prod.snd) = some Es ∧ E ∈ Es

/-- C90: the essential matrix found is one the solver found for five of the matches, and none of the matrices it found for the samples
has a lower cost; the inliers are exactly the matches whose squared Sampson distance is below the threshold. -/
theorem C90_essential (fivePoint : List V2 → List V2 → Option (List (M3 ℝ))) {t : RansacType} {s : Settings}
    (hv : ValidSettings t s) (lmed : List (WithTop ℝ) → WithTop ℝ × List Nat) (cs : List Match) (h5 : 5 ≤ cs.length)
    (sample : Nat → Option (List Nat)) (hs : SamplesOf 5 cs.length sample) (initial : Option (M3 ℝ)) :
    ∃ m sum, estimateEssential fivePoint t s lmed sample cs initial = .ok (m, sum) ∧
      s.params.minIterations ≤ sum.numIterations ∧ (sum.numIterations : Int) ≤ max 0 s.params.maxIterations ∧
      RobustResult cs sample sum.numIterations (SolutionOf fivePoint) (SolutionOf fivePoint)
        (fun m c => SomeMatrix (fun F => SampsonBelow F s.errorThresh c.1 c.2) m)
        (fun m => robustCost s.useMle s.errorThresh (fun c => SomeMatrix (fun F => SampsonBelow F s.errorThresh c.1 c.2) m)
          (fun c => m.elim 0 fun F => sampsonSq F c) cs) initial m sum.inliers := by
  obtain ⟨ht, hpos, hp⟩ := hv
  refine robust_result (residual := fun m c => m.elim 0 fun F => sampsonSq F c) (by rcases ht with rfl | rfl <;> decide)
    (by rcases ht with rfl | rfl <;> simp) hpos hp lmed hs (essentialModels fivePoint) (by norm_num) h5 matrixError initial ?_
    (fun m c => matrixError_lt m _ c) (fun m c h => matrix_residual h) ?_
  · intro ds ms m hlen he hm
    obtain ⟨Es, e1, rfl⟩ := Option.map_eq_some_iff.1 he
    obtain ⟨E, hE, rfl⟩ := List.mem_map.1 hm
    exact ⟨E, Es, rfl, e1, hE⟩
  · rintro ds m ⟨E, Es, rfl, e1, hE⟩ - -
    exact ⟨_, _, Option.map_eq_some_iff.2 ⟨Es, e1, rfl⟩, List.mem_map_of_mem hE, fun _ => rfl⟩

/-- The hypotheses of `C90_essential` hold for these matches and a solver that finds the matrix. -/
example : ∃ fivePoint : List V2 → List V2 → Option (List (M3 ℝ)), ValidSettings .ransac someSettings ∧ 5 ≤ rowMatches.length ∧
    SamplesOf 5 rowMatches.length (fun _ => some [0, 2, 4, 6, 7]) ∧
    ∃ ds, Drawn rowMatches (fun _ => some [0, 2, 4, 6, 7]) 0 ds ∧
      SolutionOf fivePoint ds (some ⟨⟨0, 0, 0⟩, ⟨0, 0, -1⟩, ⟨0, 1, 0⟩⟩) := by
  refine ⟨fun _ _ => some [⟨⟨0, 0, 0⟩, ⟨0, 0, -1⟩, ⟨0, 1, 0⟩⟩], someSettings_valid, by simp [rowMatches], ?_,
    [((0, 0), (0, 0)), ((0, 0), (1, 0)), ((0, 1), (0, 1)), ((1, 1), (0, 1)), ((0, 1), (1, 1))], ⟨_, rfl, by simp [Picked, rowMatches]⟩,
    _, _, rfl, rfl, by simp⟩
  rintro i idx h
  cases h
  simp [rowMatches]

/-! ## Positions -/

/-- What a sample says of the direction: a unit vector in the planes of the rays of both matches. -/
def DirectionOf (ds : List Match) (p : V3 ℝ) : Prop :=
  p.dot p = 1 ∧ ∀ c ∈ ds, p.dot (rayNormal c.1 c.2) = 0

/-- Both matches are of points seen by a camera at the origin and by one at `p`, in different planes through the cameras. -/
def PositionOf (ds : List Match) (p : V3 ℝ) : Prop :=
  p ≠ V3.zero ∧ ∃ a b, ds = [a, b] ∧ (∀ c ∈ ds, ∃ X, SeenFrom V3.zero c.1 X ∧ SeenFrom p c.2 X) ∧
    (rayNormal a.1 a.2).cross (rayNormal b.1 b.2) ≠ V3.zero

private theorem position_scale (p : V3 ℝ) {k : ℝ} (hk : k ≠ 0) (c : Match) : positionError c (p.smul k) = positionError c p := by
  unfold positionError
  have : (p.smul k).neg = p.neg.smul k := by apply V3.ext <;> simp [V3.neg, V3.smul]
  rw [this, crossMatrix_smul, sampson_scale _ hk]

private theorem position_error (p : V3 ℝ) (c : Match) : positionError c p = matrixError c (some (baselineMatrix p)) := by
  have : p = p.neg.smul (-1) := by apply V3.ext <;> simp [V3.neg, V3.smul]
  unfold positionError
  conv_rhs => rw [← crossMatrix_baseline, this, crossMatrix_smul]
  exact (sampson_scale _ (by norm_num) c).symm

/-- The full claim of C90 is that the direction from the first camera to the second is found. Proved: a unit vector in the planes of the
rays of two of the matches is found; no position determined by a drawn sample has a lower cost; the inliers are exactly the matches whose
squared Sampson distance is below the threshold. Missing: which of the two opposite directions is returned. -/
theorem C90_position_partial {kernel : Kernel 3} (hk : KernelSolver kernel) {t : RansacType} {s : Settings}
    (ht : t ≠ .lmed) (hpos : 0 < s.errorThresh) (hp : s.params.Valid) (lmed : List (WithTop ℝ) → WithTop ℝ × List Nat)
    (cs : List Match) (h2 : 2 ≤ cs.length) (sample : Nat → Option (List Nat)) (hs : SamplesOf 2 cs.length sample)
    (initial : V3 ℝ) :
    ∃ p sum, estimatePosition kernel t s lmed sample cs initial = .ok (p, sum) ∧
      s.params.minIterations ≤ sum.numIterations ∧ (sum.numIterations : Int) ≤ max 0 s.params.maxIterations ∧
      RobustResult cs sample sum.numIterations DirectionOf PositionOf
        (fun p c => SampsonBelow (baselineMatrix p) s.errorThresh c.1 c.2)
        (fun p => robustCost s.useMle s.errorThresh (fun c => SampsonBelow (baselineMatrix p) s.errorThresh c.1 c.2)
          (fun c => sampsonSq (baselineMatrix p) c) cs) initial p sum.inliers := by
  refine robust_result (residual := fun p c => sampsonSq (baselineMatrix p) c) ht (fun _ => rfl) hpos hp lmed hs
    (positionModels kernel) (by norm_num) h2 positionError initial ?_ ?_ ?_ ?_
  · intro ds ms p hlen he hm
    obtain ⟨a, b, rfl⟩ := List.length_eq_two.1 hlen
    simp only [positionModels] at he
    obtain ⟨q, hq, rfl⟩ := Option.map_eq_some_iff.1 he
    cases List.mem_singleton.1 hm
    obtain ⟨hu, ho⟩ := (C80_relative_position hk ![a.1, b.1] ![a.2, b.2]).2 p hq
    exact ⟨hu, by simpa using ⟨ho 0, ho 1⟩⟩
  · intro p c
    rw [position_error, matrixError_lt]
    simp [SomeMatrix]
  · intro p c h
    rw [position_error]
    exact matrix_residual (m := some (baselineMatrix p)) ⟨_, rfl, h⟩
  · rintro ds p ⟨hp0, a, b, rfl, hX, hpl⟩ - -
    obtain ⟨X, hX1, hX2⟩ := hX a (by simp)
    obtain ⟨Y, hY1, hY2⟩ := hX b (by simp)
    have hsub : p.sub V3.zero = p := by apply V3.ext <;> simp [V3.sub, V3.zero]
    obtain ⟨q, hq, hqp⟩ := C80_relative_direction_partial hk ![a.1, b.1] ![a.2, b.2] V3.zero p ![X, Y]
      (by intro i; fin_cases i <;> simpa) (by intro i; fin_cases i <;> simpa) (Ne.symm hp0) (by simpa using hpl)
    rw [hsub] at hqp
    have h0 : 0 < Real.sqrt (p.dot p) := Real.sqrt_pos.2 (V3.self_pos hp0)
    refine ⟨_, q, Option.map_eq_some_iff.2 ⟨q, hq, rfl⟩, List.mem_singleton.2 rfl, fun c => ?_⟩
    rcases hqp with rfl | rfl
    · exact position_scale p (by positivity) c
    · have : (p.smul (1 / Real.sqrt (p.dot p))).neg = p.smul (-(1 / Real.sqrt (p.dot p))) := by
        apply V3.ext <;> simp [V3.neg, V3.smul]
      rw [this]
      exact position_scale p (neg_ne_zero.2 (by positivity)) c

/-- The hypotheses of `C90_position_partial` hold for the points (0, 0, 2) and (0, 2, 2), seen from the origin and from (2, 0, 0). -/
example : (∃ kernel : Kernel 3, KernelSolver kernel) ∧ 0 < someSettings.errorThresh ∧ someSettings.params.Valid ∧
    ∃ cs : List Match, 2 ≤ cs.length ∧ SamplesOf 2 cs.length (fun _ => some [0, 1]) ∧ Drawn cs (fun _ => some [0, 1]) 0 cs ∧
      PositionOf cs ⟨2, 0, 0⟩ := by
  refine ⟨exists_kernelSolver 3, someSettings_valid.2.1, someSettings_valid.2.2, [((0, 0), (-1, 0)), ((0, 1), (-1, 1))], by simp, ?_,
    ⟨_, rfl, by simp [Picked]⟩, fun h => by simp [V3.zero] at h, _, _, rfl, ?_, fun h => ?_⟩
  · rintro i idx h
    cases h
    simp
  · simp only [List.forall_mem_cons]
    refine ⟨⟨⟨0, 0, 2⟩, ⟨2, ?_⟩, ⟨2, ?_⟩⟩, ⟨⟨0, 2, 2⟩, ⟨2, ?_⟩, ⟨2, ?_⟩⟩, by simp⟩ <;> simp [V3.sub, V3.smul, V3.zero]
  · have := congrArg V3.x h
    norm_num [rayNormal, V3.cross, V3.zero] at this

/-- C90: the direction returned can be opposite to that of the second camera, whatever is drawn. The second camera is at (-2, 0, 0), and
every point is in front of both cameras, but (1, 0, 0) is returned: for each sample it is the vector of the null space that the decomposition
finds, and nothing checks on which side the points are. -/
theorem C90_direction_counterexample : ∃ kernel : Kernel 3, KernelSolver kernel ∧
    ∃ (cs : List Match) (X : List (V3 ℝ)), cs.length = 2 ∧ X.length = 2 ∧
      (∀ p ∈ cs.zip X, SeenFrom V3.zero p.1.1 p.2 ∧ SeenFrom ⟨-2, 0, 0⟩ p.1.2 p.2 ∧ 0 < p.2.z) ∧
      ∀ (t : RansacType) (s : Settings) (lmed : List (WithTop ℝ) → WithTop ℝ × List Nat) (initial : V3 ℝ), t ≠ .lmed →
        0 < s.errorThresh → s.params.Valid → 0 < s.params.minIterations →
        ∃ sum, estimatePosition kernel t s lmed (fun _ => some [0, 1]) cs initial = .ok (⟨1, 0, 0⟩, sum) := by
  obtain ⟨kernel, hk, p, q, c1, c2, X, h1, h2, h3, rfl, rfl, hr⟩ := C80_direction_counterexample
  refine ⟨kernel, hk, [(p 0, q 0), (p 1, q 1)], [X 0, X 1], rfl, rfl, ?_, fun t s lmed initial ht hpos hp hmin => ?_⟩
  · simpa using ⟨⟨h1 0, h2 0, h3 0⟩, h1 1, h2 1, h3 1⟩
  · obtain ⟨m, sum, hc, a1, -, -, a4, -, -⟩ := consensus_spec_any ht (fun _ => rfl) hpos hp lmed
      (data := [(p 0, q 0), (p 1, q 1)]) (sample := fun _ => some [0, 1])
      (by rintro i idx h; cases h; simp) (positionModels kernel) (by norm_num) (by simp) positionError initial
    have hmod : ∀ m' ∈ modelsUpTo [(p 0, q 0), (p 1, q 1)] (fun _ => some [0, 1]) (positionModels kernel) sum.numIterations,
        m' = ⟨1, 0, 0⟩ := by
      intro m' hm'
      obtain ⟨i, -, ds, ⟨idx, hidx, hpick⟩, ms, e1, e2⟩ := mem_models_drawn.1 hm'
      cases hidx
      have hp' : ds = [(p 0, q 0), (p 1, q 1)] := by
        simp only [Picked, List.forall₂_cons_left_iff, List.forall₂_nil_left_iff] at hpick
        obtain ⟨a, l, ha, ⟨b, l', hb, rfl, rfl⟩, rfl⟩ := hpick
        simp at ha hb
        rw [ha, hb]
      subst hp'
      have e : (![p 0, p 1] : Fin 2 → V2) = p := by funext i; fin_cases i <;> rfl
      have e' : (![q 0, q 1] : Fin 2 → V2) = q := by funext i; fin_cases i <;> rfl
      simp only [positionModels, e, e', hr, Option.map_some, Option.some.injEq] at e1
      subst e1
      exact List.mem_singleton.1 e2
    have hne : modelsUpTo [(p 0, q 0), (p 1, q 1)] (fun _ => some [0, 1]) (positionModels kernel) sum.numIterations ≠ [] := by
      refine List.ne_nil_of_mem (a := ⟨1, 0, 0⟩) (mem_models_drawn.2 ⟨0, by omega, [(p 0, q 0), (p 1, q 1)],
        ⟨[0, 1], rfl, ?_⟩, [⟨1, 0, 0⟩], ?_, by simp⟩)
      · simp [Picked]
      · have e : (![p 0, p 1] : Fin 2 → V2) = p := by funext i; fin_cases i <;> rfl
        have e' : (![q 0, q 1] : Fin 2 → V2) = q := by funext i; fin_cases i <;> rfl
        simp only [positionModels, e, e', hr, Option.map_some]
    refine ⟨sum, ?_⟩
    unfold estimatePosition
    rw [hc, hmod m (a4 hne)]

end Theia
