import Verif.Proof.Transform
import Mathlib.Data.Rat.Lemmas
import Mathlib.Algebra.Order.Field.Rat
import Verif.Base.RotationMatrix

/-!
# C39: similarity transformations; C53: normalisation
-/

namespace Theia

open Transform Spec

variable {K I P : Type} [Field K] [LinearOrder K]

/-- What is assumed of the stored form of rotations: it stores rotations, and storing one loses nothing. -/
def Transform.Rep.Faithful (rep : Rep K) : Prop :=
  (∀ a, (rep.toM a).IsRotation) ∧ ∀ m : M3 K, m.IsRotation → rep.toM (rep.ofM m) = m

/-- C39. What the transformation does: it runs unless an estimated point has last coordinate zero; the views and
tracks stay; those not estimated are not changed; estimated points and camera positions are moved by the
similarity and the orientation by its rotation. -/
theorem C39_transform (rep : Rep K) (hrep : rep.Faithful) (r : M3 K) (hr : r.IsRotation) (t : V3 K) (s : K)
    (sc : Scene rep.A I K) (hv : sc.views.WF) (ht : sc.tracks.WF) :
    ((∃ sc', transform rep r t s sc = .ok sc') ↔
      ∀ i x, sc.tracks.get i = some x → x.estimated = true → x.w ≠ 0) ∧
    ∀ sc', transform rep r t s sc = .ok sc' →
      sc'.views.keys = sc.views.keys ∧ sc'.tracks.keys = sc.tracks.keys ∧
      (∀ i v, sc.views.get i = some v → v.estimated = false → sc'.views.get i = some v) ∧
      (∀ i x, sc.tracks.get i = some x → x.estimated = false → sc'.tracks.get i = some x) ∧
      (∀ i v, sc.views.get i = some v → v.estimated = true → ∃ v', sc'.views.get i = some v' ∧
        v'.estimated = true ∧ v'.intrinsics = v.intrinsics ∧ v'.position = similarity r t s v.position ∧
        rep.toM v'.orientation = (rep.toM v.orientation).mul r.transpose) ∧
      (∀ i x, sc.tracks.get i = some x → x.estimated = true → ∃ x', sc'.tracks.get i = some x' ∧
        x'.estimated = true ∧ x'.w = 1 ∧ x'.xyz = similarity r t s (x.xyz.smul x.w⁻¹)) := by
  constructor
  · constructor
    · rintro ⟨sc', h⟩
      exact (transform_ok rep r t s hv ht h).1
    · intro h
      exact ⟨_, transform_eq rep r t s sc hv ht h⟩
  · intro sc' h
    obtain ⟨_, rfl⟩ := transform_ok rep r t s hv ht h
    unfold image
    simp only [AMap.keys_mapVals, AMap.get_mapVals]
    refine ⟨trivial, trivial, ?_, ?_, ?_, ?_⟩
    · intro i v hg he
      simp [hg, changeView, he]
    · intro i x hg he
      simp [hg, changeTrack, he]
    · intro i v hg he
      refine ⟨changeView rep r t s v, by simp [hg], ?_⟩
      unfold changeView
      rw [if_pos he]
      exact ⟨he, rfl, rfl, hrep.2 _ ((hrep.1 _).mul hr.transpose)⟩
    · intro i x hg he
      refine ⟨changeTrack r t s x, by simp [hg], ?_⟩
      unfold changeTrack
      rw [if_pos he]
      exact ⟨rfl, rfl, rfl⟩

variable [IsStrictOrderedRing K]

/-- C39. A similarity with positive scale changes no reprojection and multiplies every depth by the scale. The map
of the intrinsics to the image may be any that depends on the direction only. -/
theorem C39_reprojection (rep : Rep K) (hrep : rep.Faithful) (toImage : I → V3 K → P)
    (hinv : ∀ i q c, 0 < c → toImage i (V3.smul c q) = toImage i q)
    (r : M3 K) (hr : r.IsRotation) (t : V3 K) (s : K) (hs : 0 < s)
    (sc sc' : Scene rep.A I K) (hv : sc.views.WF) (ht : sc.tracks.WF) (h : transform rep r t s sc = .ok sc')
    (i j : Nat) (v : View rep.A I K) (x : Track K) (hi : sc.views.get i = some v) (hj : sc.tracks.get j = some x)
    (hve : v.estimated = true) (hxe : x.estimated = true) (hw : 0 < x.w) :
    ∃ v' x', sc'.views.get i = some v' ∧ sc'.tracks.get j = some x' ∧ v'.estimated = true ∧ x'.estimated = true ∧
      x'.w = 1 ∧
      project rep toImage v' x' = ((project rep toImage v x).1, s * (project rep toImage v x).2) := by
  obtain ⟨_, rfl⟩ := transform_ok rep r t s hv ht h
  refine ⟨changeView rep r t s v, changeTrack r t s x, ?_, ?_, ?_, ?_, ?_, ?_⟩
  · unfold image; simp only [AMap.get_mapVals, hi, Option.map_some]
  · unfold image; simp only [AMap.get_mapVals, hj, Option.map_some]
  · unfold changeView; rw [if_pos hve]; exact hve
  · unfold changeTrack; rw [if_pos hxe]
  · unfold changeTrack; rw [if_pos hxe]
  · exact project_change rep hrep.2 hrep.1 toImage hr t s v x hve hxe (ne_of_gt hw)
      (fun q => hinv _ q _ (mul_pos hs (inv_pos.2 hw)))

omit [IsStrictOrderedRing K] in
/-- C39. Transforming by a similarity and then by its inverse restores every camera position and orientation and
every point (with last coordinate one). -/
theorem C39_inverse (rep : Rep K) (hrep : rep.Faithful) (r : M3 K) (hr : r.IsRotation) (t : V3 K) (s : K)
    (hs : s ≠ 0) (sc sc' : Scene rep.A I K) (hv : sc.views.WF) (ht : sc.tracks.WF)
    (h : transform rep r t s sc = .ok sc') :
    ∃ sc'', transform rep r.transpose ((r.transpose.mulVec t).smul (-s⁻¹)) s⁻¹ sc' = .ok sc'' ∧
      (∀ i v, sc.views.get i = some v → ∃ v', sc''.views.get i = some v' ∧ v'.estimated = v.estimated ∧
        v'.position = v.position ∧ v'.intrinsics = v.intrinsics ∧
        rep.toM v'.orientation = rep.toM v.orientation) ∧
      (∀ i x, sc.tracks.get i = some x → x.estimated = true →
        sc''.tracks.get i = some ⟨true, x.xyz.smul x.w⁻¹, 1⟩) ∧
      (∀ i x, sc.tracks.get i = some x → x.estimated = false → sc''.tracks.get i = some x) := by
  have back : ∀ p : V3 K, similarity r.transpose ((r.transpose.mulVec t).smul (-s⁻¹)) s⁻¹ (similarity r t s p) = p := by
    intro p
    unfold similarity
    rw [M3.mulVec_add, M3.mulVec_smul, hr.transpose_mulVec]
    apply V3.ext <;> simp only [V3.add, V3.smul] <;> field_simp <;> ring
  obtain ⟨_, rfl⟩ := transform_ok rep r t s hv ht h
  obtain ⟨hv', ht'⟩ := wf_image rep r t s hv ht
  refine ⟨_, transform_eq rep _ _ _ _ hv' ht' (finite_image rep r t s), ?_, ?_, ?_⟩
  · intro i v hi
    refine ⟨changeView rep r.transpose ((r.transpose.mulVec t).smul (-s⁻¹)) s⁻¹ (changeView rep r t s v), ?_, ?_⟩
    · unfold image; simp only [AMap.get_mapVals, hi, Option.map_some]
    · by_cases he : v.estimated
      · unfold changeView
        have h2 : (transformCamera rep r t s v).estimated = true := he
        rw [if_pos he, if_pos h2]
        refine ⟨rfl, back v.position, rfl, ?_⟩
        unfold transformCamera
        simp only
        rw [hrep.2 _ ((hrep.1 _).mul hr.transpose),
          hrep.2 _ (((hrep.1 _).mul hr.transpose).mul hr.transpose.transpose), M3.transpose_transpose, M3.mul_assoc,
          hr.left, M3.mul_one]
      · unfold changeView
        rw [if_neg he, if_neg he]
        exact ⟨rfl, rfl, rfl, rfl⟩
  · intro i x hi he
    unfold image
    simp only [AMap.get_mapVals, hi, Option.map_some, Option.some.injEq]
    have : changeTrack r t s x = ⟨true, transformPoint r t s (x.xyz.smul x.w⁻¹), 1⟩ := by
      unfold changeTrack; rw [if_pos he]
    rw [this]
    unfold changeTrack
    simp only [if_true, Track.mk.injEq, true_and, and_true]
    have e : (transformPoint r t s (x.xyz.smul x.w⁻¹)).smul (1 : K)⁻¹ = similarity r t s (x.xyz.smul x.w⁻¹) := by
      unfold transformPoint similarity
      apply V3.ext <;> simp [V3.smul]
    rw [e]
    exact back _
  · intro i x hi he
    unfold image
    simp only [AMap.get_mapVals, hi, Option.map_some]
    simp [changeTrack, he]

/-- C53. Normalisation is a similarity for everything that is observed: every pixel stays and all depths are
multiplied by one positive number. -/
theorem C53_reprojection (rep : Rep K) (hrep : rep.Faithful) (toImage : I → V3 K → P)
    (hinv : ∀ i q c, 0 < c → toImage i (V3.smul c q) = toImage i q)
    (upright : M3 K → M3 K) (hup : ∀ c, (upright c).IsRotation)
    (sc sc' : Scene rep.A I K) (hv : sc.views.WF) (ht : sc.tracks.WF)
    (h : Normalize.normalize rep upright sc = .ok sc') :
    ∃ s : K, 0 < s ∧ ∀ i j v x, sc.views.get i = some v → sc.tracks.get j = some x → v.estimated = true →
      x.estimated = true → 0 < x.w → ∃ v' x', sc'.views.get i = some v' ∧ sc'.tracks.get j = some x' ∧
        project rep toImage v' x' = ((project rep toImage v x).1, s * (project rep toImage v x).2) := by
  unfold Normalize.normalize at h
  rw [Outcome.bind_eq_ok] at h
  obtain ⟨m, _, h⟩ := h
  rw [Outcome.bind_eq_ok] at h
  obtain ⟨sc1, h1, h⟩ := h
  have w1 := transform_ok rep _ _ _ hv ht h1
  have wf1 := wf_image rep M3.one m.neg 1 hv ht
  rw [← w1.2] at wf1
  have one : (M3.one : M3 K).IsRotation := M3.IsRotation.one
  split at h
  · obtain rfl := Outcome.ok.inj h
    refine ⟨1, one_pos, fun i j v x hi hj hve hxe hw => ?_⟩
    obtain ⟨v', x', a, b, _, _, _, c⟩ := C39_reprojection rep hrep toImage hinv _ one _ 1 one_pos sc sc1 hv ht h1 i j v x
      hi hj hve hxe hw
    exact ⟨v', x', a, b, c⟩
  · rw [Outcome.bind_eq_ok] at h
    obtain ⟨m2, _, h⟩ := h
    rw [Outcome.bind_eq_ok] at h
    obtain ⟨d, hd, h⟩ := h
    split at h
    · cases h
    · rename_i hd0
      rw [Outcome.bind_eq_ok] at h
      obtain ⟨sc2, h2, h⟩ := h
      have w2 := transform_ok rep _ _ _ wf1.1 wf1.2 h2
      have wf2 := wf_image rep M3.one V3.zero (100 / d) wf1.1 wf1.2
      rw [← w2.2] at wf2
      have hdpos : 0 < d := by
        have := (Normalize.isMedian_of_median hd).1
        obtain ⟨p, _, rfl⟩ := List.mem_map.1 this
        refine lt_of_le_of_ne ?_ (fun h => hd0 h.symm)
        unfold Normalize.norm1
        positivity
      have hspos : 0 < 100 / d := by positivity
      refine ⟨100 / d, hspos, fun i j v x hi hj hve hxe hw => ?_⟩
      obtain ⟨v1, x1, a1, b1, e1, f1, g1, c1⟩ := C39_reprojection rep hrep toImage hinv _ one _ 1 one_pos sc sc1 hv ht h1
        i j v x hi hj hve hxe hw
      obtain ⟨v2, x2, a2, b2, e2, f2, g2, c2⟩ := C39_reprojection rep hrep toImage hinv _ one _ _ hspos sc1 sc2
        wf1.1 wf1.2 h2 i j v1 x1 a1 b1 e1 f1 (by rw [g1]; exact one_pos)
      obtain ⟨v3, x3, a3, b3, _, _, _, c3⟩ := C39_reprojection rep hrep toImage hinv _ (hup _) _ 1 one_pos sc2 sc'
        wf2.1 wf2.2 h i j v2 x2 a2 b2 e2 f2 (by rw [g2]; exact one_pos)
      refine ⟨v3, x3, a3, b3, ?_⟩
      rw [c3, c2, c1]
      simp

/-- C53. Up to the last rotation, the camera positions have median zero in every coordinate and the points have
median distance 100 (sum of coordinate distances) from their own median point. -/
theorem C53_medians (rep : Rep K) (upright : M3 K → M3 K) (hup : ∀ c, (upright c).IsRotation)
    (sc sc' : Scene rep.A I K) (hv : sc.views.WF) (ht : sc.tracks.WF)
    (h : Normalize.normalize rep upright sc = .ok sc') :
    ∃ r : M3 K, r.IsRotation ∧
      IsMedianPoint ((Normalize.positions sc').map r.transpose.mulVec) V3.zero ∧
      (Normalize.points sc' ≠ [] → ∃ c, IsMedianPoint ((Normalize.points sc').map r.transpose.mulVec) c ∧
        IsMedian ((Normalize.points sc').map fun p => dist1 (r.transpose.mulVec p) c) 100) := by
  unfold Normalize.normalize at h
  rw [Outcome.bind_eq_ok] at h
  obtain ⟨m, hm, h⟩ := h
  rw [Outcome.bind_eq_ok] at h
  obtain ⟨sc1, h1, h⟩ := h
  have w1 := transform_ok rep _ _ _ hv ht h1
  have wf1 := wf_image rep M3.one m.neg 1 hv ht
  rw [← w1.2] at wf1
  have one : (M3.one : M3 K).IsRotation := M3.IsRotation.one
  have sim1 : ∀ (t : V3 K) (s : K), similarity M3.one t s = fun p => (p.smul s).add t := by
    intro t s
    funext p
    simp only [similarity, M3.one_mulVec]
  have med1 : IsMedianPoint (Normalize.positions sc1) V3.zero := by
    rw [w1.2, Normalize.positions_image]
    have := Normalize.IsMedianPoint.affine (Normalize.isMedianPoint_of hm) m.neg 1 one_pos
    have e : ((m.smul 1).add m.neg) = V3.zero := by
      apply V3.ext <;> simp [V3.smul, V3.add, V3.neg, V3.zero]
    rw [e] at this
    rw [sim1]
    exact this
  split at h
  · rename_i hemp
    obtain rfl := Outcome.ok.inj h
    have e : ∀ l : List (V3 K), l.map (M3.one : M3 K).transpose.mulVec = l := by
      intro l
      have : (M3.one : M3 K).transpose.mulVec = id := by
        funext v
        exact M3.one_mulVec v
      rw [this, List.map_id]
    refine ⟨M3.one, one, ?_, ?_⟩
    · rw [e]; exact med1
    · intro hne
      exact absurd (List.isEmpty_iff.1 hemp) hne
  · rw [Outcome.bind_eq_ok] at h
    obtain ⟨m2, hm2, h⟩ := h
    rw [Outcome.bind_eq_ok] at h
    obtain ⟨d, hd, h⟩ := h
    split at h
    · cases h
    · rename_i hd0
      rw [Outcome.bind_eq_ok] at h
      obtain ⟨sc2, h2, h⟩ := h
      have w2 := transform_ok rep _ _ _ wf1.1 wf1.2 h2
      have wf2 := wf_image rep M3.one V3.zero (100 / d) wf1.1 wf1.2
      rw [← w2.2] at wf2
      have w3 := transform_ok rep _ _ _ wf2.1 wf2.2 h
      have hdpos : 0 < d := by
        have := (Normalize.isMedian_of_median hd).1
        obtain ⟨p, _, rfl⟩ := List.mem_map.1 this
        refine lt_of_le_of_ne ?_ (fun h => hd0 h.symm)
        unfold Normalize.norm1
        positivity
      have hspos : 0 < 100 / d := by positivity
      have hrot := hup (Normalize.correlation rep sc2)
      have back : ∀ l : List (V3 K), (l.map (similarity (upright (Normalize.correlation rep sc2)) V3.zero 1)).map
          (upright (Normalize.correlation rep sc2)).transpose.mulVec = l := by
        intro l
        rw [List.map_map]
        have : (upright (Normalize.correlation rep sc2)).transpose.mulVec ∘
            similarity (upright (Normalize.correlation rep sc2)) V3.zero 1 = id := by
          funext p
          simp only [Function.comp, similarity]
          have : ((((upright (Normalize.correlation rep sc2)).mulVec p).smul 1).add V3.zero) =
              (upright (Normalize.correlation rep sc2)).mulVec p := by
            apply V3.ext <;> simp [V3.smul, V3.add, V3.zero]
          rw [this, hrot.transpose_mulVec]
          rfl
        rw [this, List.map_id]
      refine ⟨_, hrot, ?_, ?_⟩
      · rw [w3.2, Normalize.positions_image, back, w2.2, Normalize.positions_image]
        have := Normalize.IsMedianPoint.affine med1 V3.zero (100 / d) hspos
        have e : (((V3.zero : V3 K).smul (100 / d)).add V3.zero) = V3.zero := by
          apply V3.ext <;> simp [V3.smul, V3.add, V3.zero]
        rw [e] at this
        rw [sim1]
        exact this
      · intro _
        refine ⟨(m2.smul (100 / d)).add V3.zero, ?_, ?_⟩
        · rw [w3.2, Normalize.points_image, back, w2.2, Normalize.points_image]
          have := Normalize.IsMedianPoint.affine (Normalize.isMedianPoint_of hm2) V3.zero (100 / d) hspos
          rw [sim1]
          exact this
        · have hmap : (Normalize.points sc').map (fun p => dist1 ((upright
                (Normalize.correlation rep sc2)).transpose.mulVec p) ((m2.smul (100 / d)).add V3.zero)) =
              ((Normalize.points sc1).map fun p => Normalize.norm1 (p.sub m2)).map (fun x => 100 / d * x) := by
            have e2 : Normalize.points sc2 = (Normalize.points sc1).map (similarity M3.one V3.zero (100 / d)) := by
              rw [w2.2, Normalize.points_image]
            rw [w3.2, Normalize.points_image, e2]
            have h3 := back ((Normalize.points sc1).map (similarity M3.one V3.zero (100 / d)))
            have h4 := congrArg (List.map fun p => dist1 p ((m2.smul (100 / d)).add V3.zero)) h3
            rw [List.map_map] at h4
            simp only [Function.comp_def] at h4
            rw [h4, List.map_map, List.map_map]
            refine List.map_congr_left fun p _ => ?_
            simp only [Function.comp, similarity, M3.one_mulVec, Normalize.norm1, dist1, V3.sub, V3.add, V3.smul,
              V3.zero, add_zero, ← mul_sub, abs_mul, abs_of_pos hspos]
            ring
          rw [hmap]
          have h5 := Normalize.IsMedian.map (Normalize.isMedian_of_median hd) (f := fun x => 100 / d * x)
            (fun a b hab => mul_lt_mul_of_pos_left hab hspos)
          have e : 100 / d * d = 100 := by field_simp
          simp only [e] at h5
          exact h5

/-- Rotations stored as matrices. -/
def matrixRep : Rep ℚ := ⟨{ m : M3 ℚ // m.transpose.mul m = M3.one ∧ m.mul m.transpose = M3.one ∧ m.det = 1 },
  fun a => a.1, fun m => if h : _ then ⟨m, h⟩ else ⟨M3.one, by decide +kernel⟩⟩

theorem matrixRep_faithful : matrixRep.Faithful := by
  constructor
  · intro a
    exact ⟨a.2.1, a.2.2.1, a.2.2.2⟩
  · intro m hm
    unfold matrixRep
    simp only
    rw [dif_pos ⟨hm.left, hm.right, hm.det⟩]

/-- A camera at the origin and three points in front of it. -/
def sceneExample : Scene matrixRep.A Unit ℚ :=
  ⟨⟨[(4, ⟨true, ⟨M3.one, by decide +kernel⟩, ⟨0, 0, 0⟩, ()⟩), (5, ⟨false, ⟨M3.one, by decide +kernel⟩, ⟨7, 0, 0⟩, ()⟩)]⟩,
   ⟨[(1, ⟨true, ⟨20, 0, 0⟩, 2⟩), (2, ⟨true, ⟨11, 0, 0⟩, 1⟩), (3, ⟨true, ⟨12, 0, 0⟩, 1⟩), (9, ⟨false, ⟨1, 1, 1⟩, 0⟩)]⟩⟩

/-- A quarter turn about the z-axis. -/
def quarterTurn : M3 ℚ := ⟨⟨0, -1, 0⟩, ⟨1, 0, 0⟩, ⟨0, 0, 1⟩⟩

/-- The points and positions after a call. -/
def sceneShow : Outcome (Scene matrixRep.A Unit ℚ) → Outcome (List (V3 ℚ) × List (V3 ℚ))
  | .abort => .abort
  | .ub => .ub
  | .ok sc => .ok (Normalize.positions sc, Normalize.points sc)

theorem quarterTurn_isRotation : quarterTurn.IsRotation :=
  ⟨by decide +kernel, by decide +kernel, by decide +kernel⟩

/-- The hypotheses hold of a scene with an estimated and an unestimated view and track, and it is transformed. -/
example : sceneExample.views.WF ∧ sceneExample.tracks.WF ∧
    sceneShow (transform matrixRep quarterTurn ⟨1, 2, 3⟩ 2 sceneExample) =
      .ok ([⟨1, 2, 3⟩], [⟨1, 22, 3⟩, ⟨1, 24, 3⟩, ⟨1, 26, 3⟩]) := by
  decide +kernel

/-- The hypotheses of the normalisation theorems are met by the same scene. -/
example : sceneShow (Normalize.normalize matrixRep (fun _ => quarterTurn) sceneExample) =
    .ok ([⟨0, 0, 0⟩], [⟨0, 1000, 0⟩, ⟨0, 1100, 0⟩, ⟨0, 1200, 0⟩]) := by
  decide +kernel

/-- C53 is not what the header promises: after normalising, the median distance of the points from the origin need
not be 100. Here it is 1100, in the sum of coordinates and in the Euclidean distance. -/
theorem C53_origin_counterexample :
    ∃ sc', Normalize.normalize matrixRep (fun _ => M3.one) sceneExample = .ok sc' ∧
      ¬ IsMedian ((Normalize.points sc').map fun p => dist1 p V3.zero) 100 ∧
      ∀ p ∈ Normalize.points sc', ¬ V3.dot p p ≤ 100 * 100 := by
  have h : sceneShow (Normalize.normalize matrixRep (fun _ => M3.one) sceneExample) =
      .ok ([⟨0, 0, 0⟩], [⟨1000, 0, 0⟩, ⟨1100, 0, 0⟩, ⟨1200, 0, 0⟩]) := by
    decide +kernel
  cases hn : Normalize.normalize matrixRep (fun _ => M3.one) sceneExample with
  | abort => rw [hn] at h; cases h
  | ub => rw [hn] at h; cases h
  | ok sc' =>
    rw [hn] at h
    simp only [sceneShow, Outcome.ok.injEq, Prod.mk.injEq] at h
    refine ⟨sc', rfl, ?_, ?_⟩
    · rw [h.2]
      unfold IsMedian
      decide +kernel
    · rw [h.2]
      decide +kernel

/-- C39, C53 need finite points and something to take the median of: an estimated point with last coordinate zero, a
reconstruction without estimated views, and points of which more than half coincide with their median, are divisions
by zero or reads past the end. -/
theorem C53_degenerate_counterexample :
    sceneShow (transform matrixRep M3.one V3.zero 1 ⟨⟨[]⟩, ⟨[(0, ⟨true, ⟨1, 0, 0⟩, 0⟩)]⟩⟩) = .ub ∧
    sceneShow (Normalize.normalize matrixRep (fun _ => M3.one) ⟨⟨[]⟩, ⟨[]⟩⟩) = .ub ∧
    sceneShow (Normalize.normalize matrixRep (fun _ => M3.one)
      ⟨sceneExample.views, ⟨[(0, ⟨true, ⟨1, 0, 0⟩, 1⟩)]⟩⟩) = .ub := by
  decide +kernel

/-- Rotations stored as angle-axis vectors, as Ceres does. -/
noncomputable def angleAxisRep (ofM : M3 ℝ → V3 ℝ) : Rep ℝ := ⟨V3 ℝ, AngleAxis.toM, ofM⟩

/-- The hypothesis on the representation is met by angle-axis vectors with any logarithm (and one exists). -/
theorem angleAxisRep_faithful (ofM : M3 ℝ → V3 ℝ) (h : AngleAxis.IsLog ofM) : (angleAxisRep ofM).Faithful :=
  ⟨fun a => AngleAxis.isRotation_toM a, fun m hm => (h m hm).1⟩

example : ∃ ofM, (angleAxisRep ofM).Faithful :=
  let ⟨ofM, h⟩ := AngleAxis.exists_isLog
  ⟨ofM, angleAxisRep_faithful ofM h⟩

end Theia
