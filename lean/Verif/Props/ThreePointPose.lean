import Verif.Proof.ThreePointPose
import Verif.Props.CompanionRoots

/-!
# C76: the pose of a camera from three points
-/

namespace Theia

open Spec ThreePointPose CompanionRoots Polynomial
open TwoPointPose (normalized normalized_smul)

private theorem homogeneous_ne (p : ℝ × ℝ) : homogeneous p ≠ V3.zero := by
  intro h
  have := congrArg V3.z h
  simp [homogeneous, V3.zero] at this

private theorem ray_eq (p : ℝ × ℝ) : ∃ k : ℝ, 0 < k ∧ normalized (homogeneous p) = (homogeneous p).smul k ∧
    (normalized (homogeneous p)).dot (normalized (homogeneous p)) = 1 := by
  obtain ⟨k, hk, he, h1⟩ := normalized_smul (homogeneous_ne p)
  refine ⟨k, hk, he, ?_⟩
  rw [he, ← h1]
  simp only [V3.dot, V3.smul]
  ring

private theorem frame_z {a b v : V3 ℝ} (ha : a.dot a = 1) (hab : a.cross b ≠ V3.zero) :
    ∃ σ : ℝ, 0 < σ ∧ σ * ((frame a b).mulVec v).z = v.dot (a.cross b) := by
  obtain ⟨σ, hσ, -, -, -, -, h⟩ := frame_spec ha hab
  exact ⟨σ, hσ, (h v).2.2⟩

private theorem volume_smul (a b c : V3 ℝ) (i j k : ℝ) :
    (c.smul k).dot ((a.smul i).cross (b.smul j)) = i * j * k * (a.cross b).dot c := by
  simp only [V3.dot, V3.cross, V3.smul]
  ring

private theorem cross_ne {a b c : V3 ℝ} (h : c.dot (a.cross b) ≠ 0) : a.cross b ≠ V3.zero := by
  intro h0
  rw [h0, V3.dot_zero] at h
  exact h rfl

private theorem points_swap {x0 x1 x2 : V3 ℝ} (h : (x1.sub x0).cross (x2.sub x0) ≠ V3.zero) :
    (x0.sub x1).cross (x2.sub x1) ≠ V3.zero := by
  intro h0
  apply h
  have hx := congrArg V3.x h0
  have hy := congrArg V3.y h0
  have hz := congrArg V3.z h0
  simp only [V3.cross, V3.sub, V3.zero] at hx hy hz
  apply V3.ext <;> simp only [V3.cross, V3.sub, V3.zero] <;> linarith

/-- Which of the first two points is taken first: the second one if the rays are positively oriented. -/
private theorem solve_eq {find : List ℝ → Option (List ℝ)} {f : Fin 3 → ℝ × ℝ} {x : Fin 3 → V3 ℝ}
    (hx : tolerance ≤ (((x 1).sub (x 0)).cross ((x 2).sub (x 0))).dot (((x 1).sub (x 0)).cross ((x 2).sub (x 0))))
    (hv : rayVolume f ≠ 0) : ∃ i j : Fin 3, i = firstRay f ∧ j = secondRay f ∧
      Setup (normalized (homogeneous (f i))) (normalized (homogeneous (f j))) (normalized (homogeneous (f 2))) (x i) (x j) (x 2) ∧
      solve find f x = match find (polynomial (normalized (homogeneous (f i))) (normalized (homogeneous (f j)))
          (normalized (homogeneous (f 2))) (x i) (x j) (x 2)) with
        | none => .ok (false, some [])
        | some cs => .ok (!cs.isEmpty, some (cs.map (poseFor (normalized (homogeneous (f i))) (normalized (homogeneous (f j)))
          (normalized (homogeneous (f 2))) (x i) (x j) (x 2)))) := by
  have hw : ((x 1).sub (x 0)).cross ((x 2).sub (x 0)) ≠ V3.zero := by
    intro h0
    rw [h0, V3.dot_zero] at hx
    unfold tolerance at hx
    norm_num at hx
  obtain ⟨k0, hk0, e0, u0⟩ := ray_eq (f 0)
  obtain ⟨k1, hk1, e1, u1⟩ := ray_eq (f 1)
  obtain ⟨k2, hk2, e2, -⟩ := ray_eq (f 2)
  have hvol : (normalized (homogeneous (f 2))).dot ((normalized (homogeneous (f 0))).cross (normalized (homogeneous (f 1)))) =
      k0 * k1 * k2 * rayVolume f := by
    rw [e0, e1, e2, volume_smul]
    rfl
  have hvol' : (normalized (homogeneous (f 2))).dot ((normalized (homogeneous (f 1))).cross (normalized (homogeneous (f 0)))) =
      -(k0 * k1 * k2 * rayVolume f) := by
    rw [← hvol]
    simp only [V3.dot, V3.cross]
    ring
  have hpos : 0 < k0 * k1 * k2 := by positivity
  have hc : (normalized (homogeneous (f 0))).cross (normalized (homogeneous (f 1))) ≠ V3.zero :=
    cross_ne (c := normalized (homogeneous (f 2))) (by rw [hvol]; exact mul_ne_zero hpos.ne' hv)
  have hc' : (normalized (homogeneous (f 1))).cross (normalized (homogeneous (f 0))) ≠ V3.zero :=
    cross_ne (c := normalized (homogeneous (f 2))) (by rw [hvol']; exact neg_ne_zero.2 (mul_ne_zero hpos.ne' hv))
  obtain ⟨σ, hσ, hz⟩ := frame_z (v := normalized (homogeneous (f 2))) u0 hc
  obtain ⟨σ', hσ', hz'⟩ := frame_z (v := normalized (homogeneous (f 2))) u1 hc'
  rw [hvol] at hz
  rw [hvol'] at hz'
  unfold solve
  simp only
  rw [if_neg (not_lt.2 hx)]
  by_cases h : 0 < rayVolume f
  · have hp : ((frame (normalized (homogeneous (f 0))) (normalized (homogeneous (f 1)))).mulVec (normalized (homogeneous (f 2)))).z > 0 := by
      apply (mul_pos_iff_of_pos_left hσ).1
      rw [hz]
      positivity
    have hn : ((frame (normalized (homogeneous (f 1))) (normalized (homogeneous (f 0)))).mulVec (normalized (homogeneous (f 2)))).z < 0 := by
      have : 0 < σ' * -((frame (normalized (homogeneous (f 1))) (normalized (homogeneous (f 0)))).mulVec
          (normalized (homogeneous (f 2)))).z := by
        rw [mul_neg, hz', neg_neg]
        positivity
      linarith [(mul_pos_iff_of_pos_left hσ').1 this]
    rw [if_pos hp, core_eq hn.ne]
    refine ⟨1, 0, by rw [firstRay, if_pos h], by rw [secondRay, if_pos h], ⟨u1, u0, hc', points_swap hw, hn⟩, ?_⟩
    generalize find _ = o
    cases o with
    | none => rfl
    | some cs => cases cs <;> rfl
  · have hneg : rayVolume f < 0 := lt_of_le_of_ne (not_lt.1 h) hv
    have hn : ((frame (normalized (homogeneous (f 0))) (normalized (homogeneous (f 1)))).mulVec (normalized (homogeneous (f 2)))).z < 0 := by
      have : 0 < σ * -((frame (normalized (homogeneous (f 0))) (normalized (homogeneous (f 1)))).mulVec
          (normalized (homogeneous (f 2)))).z := by
        rw [mul_neg, hz, ← mul_neg]
        exact mul_pos hpos (neg_pos.2 hneg)
      linarith [(mul_pos_iff_of_pos_left hσ).1 this]
    rw [if_neg (not_lt.2 hn.le), core_eq hn.ne]
    refine ⟨0, 1, by rw [firstRay, if_neg h], by rw [secondRay, if_neg h], ⟨u0, u1, hc, hw, hn⟩, ?_⟩
    generalize find _ = o
    cases o with
    | none => rfl
    | some cs => cases cs <;> rfl

private theorem natDegree_polynomial {r0 r1 r2 x0 x1 x2 : V3 ℝ} (hs : Setup r0 r1 r2 x0 x1 x2) :
    (poly (polynomial r0 r1 r2 x0 x1 x2)).natDegree = 4 := by
  obtain ⟨-, -, -, p1, p2, hp2, hN2⟩ := world_spec hs.points
  unfold polynomial
  simp only [hN2]
  generalize ((frame r0 r1).mulVec r2).x / ((frame r0 r1).mulVec r2).z = f1
  generalize ((frame r0 r1).mulVec r2).y / ((frame r0 r1).mulVec r2).z = f2
  generalize Real.sqrt ((x1.sub x0).dot (x1.sub x0)) = d
  generalize cotBeta (r0.dot r1) = b
  have hlead : -f2 ^ 2 * p2 ^ 4 - p2 ^ 4 * f1 ^ 2 - p2 ^ 4 ≠ 0 := by
    have : 0 < p2 ^ 4 * (f2 ^ 2 + f1 ^ 2 + 1) := by positivity
    intro h
    linarith
  simp only [coefficients, poly, List.length]
  generalize -f2 ^ 2 * p2 ^ 4 - p2 ^ 4 * f1 ^ 2 - p2 ^ 4 = a at *
  compute_degree!

private theorem length_of_allRoots {p : ℝ[X]} (hp : p ≠ 0) {re im : List ℝ} (h : AllRoots p re im) : re.length = p.natDegree := by
  obtain ⟨hl, h⟩ := h
  have h1 := congrArg natDegree h
  have hc : (p.leadingCoeff : ℂ) ≠ 0 := by exact_mod_cast leadingCoeff_ne_zero.2 hp
  have hz : ∀ zs : List ℂ, (productOfRoots zs).Monic ∧ (productOfRoots zs).natDegree = zs.length := by
    intro zs
    unfold productOfRoots
    induction zs with
    | nil => simp
    | cons z zs ih =>
      rw [List.map_cons, List.prod_cons]
      refine ⟨(monic_X_sub_C z).mul ih.1, ?_⟩
      rw [Monic.natDegree_mul (monic_X_sub_C z) ih.1, ih.2, natDegree_X_sub_C, List.length_cons]
      omega
  rw [natDegree_C_mul hc, (hz _).2, List.length_zipWith, ← hl, Nat.min_self,
    natDegree_map_eq_of_injective (algebraMap ℝ ℂ).injective] at h1
  exact h1.symm

private theorem rightAngle_smul {a b c : V3 ℝ} {i j k : ℝ} (hi : i ≠ 0) (hj : j ≠ 0) (hk : k ≠ 0) :
    RightAngleAt (a.smul i) (b.smul j) (c.smul k) ↔ RightAngleAt a b c := by
  unfold RightAngleAt
  have : ((a.smul i).cross (b.smul j)).dot ((a.smul i).cross (c.smul k)) = i * i * j * k * (a.cross b).dot (a.cross c) := by
    simp only [V3.dot, V3.cross, V3.smul]
    ring
  rw [this]
  exact ⟨fun h => (mul_eq_zero.1 h).resolve_left (by simp [hi, hj, hk]), fun h => by rw [h, mul_zero]⟩

private theorem footOnCircle_swap {a b c : V3 ℝ} (h : FootOnCircle a b c) : FootOnCircle b a c := by
  obtain ⟨s, t, u, v, h1, h2, h3, h4, h5⟩ := h
  have hc : ∀ s t : ℝ, (b.smul t).add (a.smul s) = (a.smul s).add (b.smul t) := by
    intro s t
    apply V3.ext <;> simp only [V3.add] <;> ring
  refine ⟨t, s, v, u, ?_⟩
  simp only
  rw [hc, hc]
  exact ⟨h2, h1, h3, h5, h4⟩

private theorem foot_order {f : Fin 3 → ℝ × ℝ} {y : Fin 3 → V3 ℝ} (h : ¬ FootOnCircle (y 0) (y 1) (y 2)) :
    ¬ FootOnCircle (y (firstRay f)) (y (secondRay f)) (y 2) := by
  unfold firstRay secondRay
  split
  · exact fun h' => h (footOnCircle_swap h')
  · exact h

private theorem all_roots {infExp : ℤ} (hinf : infExp.tdiv 2 = 0) {eig : (n : Nat) → Matrix (Fin n) (Fin n) ℝ → Option (List ℂ)}
    (heig : EigenvalueSolver eig) (hok : ∀ n A, (eig n A).isSome) {f : Fin 3 → ℝ × ℝ} {x : Fin 3 → V3 ℝ} (hv : rayVolume f ≠ 0)
    (hx : tolerance ≤ (((x 1).sub (x 0)).cross ((x 2).sub (x 0))).dot (((x 1).sub (x 0)).cross ((x 2).sub (x 0)))) :
    ∃ N sols, (∀ fuel ≥ N, solve (realParts infExp eig fuel) f x = .ok (true, some sols)) ∧ sols.length = 4 ∧
      ∀ c, (poly (polynomial (normalized (homogeneous (f (firstRay f)))) (normalized (homogeneous (f (secondRay f))))
          (normalized (homogeneous (f 2))) (x (firstRay f)) (x (secondRay f)) (x 2))).eval c = 0 →
        poseFor (normalized (homogeneous (f (firstRay f)))) (normalized (homogeneous (f (secondRay f))))
          (normalized (homogeneous (f 2))) (x (firstRay f)) (x (secondRay f)) (x 2) c ∈ sols := by
  obtain ⟨i, j, rfl, rfl, hs, -⟩ := solve_eq (find := fun _ => none) hx hv
  have hdeg := natDegree_polynomial hs
  have hne : poly (polynomial (normalized (homogeneous (f (firstRay f)))) (normalized (homogeneous (f (secondRay f))))
      (normalized (homogeneous (f 2))) (x (firstRay f)) (x (secondRay f)) (x 2)) ≠ 0 := by
    intro h
    rw [h] at hdeg
    simp at hdeg
  obtain ⟨N, out, hN, hout⟩ := C65_roots hinf heig (p := polynomial (normalized (homogeneous (f (firstRay f))))
    (normalized (homogeneous (f (secondRay f)))) (normalized (homogeneous (f 2))) (x (firstRay f)) (x (secondRay f)) (x 2))
    (by rw [hdeg]; norm_num) (by
      intro a h
      have := natDegree_C_mul_X_pow_le a 2
      rw [← h, hdeg] at this
      norm_num at this)
  rcases hout with ⟨re, im, rfl, hall⟩ | ⟨-, n, A, -, hA⟩
  · have hlen : re.length = 4 := (length_of_allRoots hne hall).trans hdeg
    refine ⟨N, re.map (poseFor (normalized (homogeneous (f (firstRay f)))) (normalized (homogeneous (f (secondRay f))))
      (normalized (homogeneous (f 2))) (x (firstRay f)) (x (secondRay f)) (x 2)), fun fuel hf => ?_, by rw [List.length_map, hlen], ?_⟩
    · obtain ⟨i, j, rfl, rfl, -, e⟩ := solve_eq (find := realParts infExp eig fuel) hx hv
      rw [e]
      have : realParts infExp eig fuel (polynomial (normalized (homogeneous (f (firstRay f))))
          (normalized (homogeneous (f (secondRay f)))) (normalized (homogeneous (f 2))) (x (firstRay f)) (x (secondRay f)) (x 2)) =
          some re := by
        unfold realParts
        rw [hN fuel hf]
      rw [this]
      cases re with
      | nil => cases hlen
      | cons => rfl
    · exact fun c hc => List.mem_map.2 ⟨c, real_root_mem hne hall hc, rfl⟩
  · have := hok n A
    rw [hA] at this
    cases this

/-- C76: if the rays are not in a plane and the points not nearly on a line, four candidates are written, each a pose or `NaN`s.
Every pose from which the three points are seen at the three features is one of them, unless the rays form a right angle at the first ray
or the foot of the third point on the plane of the camera and the other points is on their circle. -/
theorem C76_complete {infExp : ℤ} (hinf : infExp.tdiv 2 = 0) {eig : (n : Nat) → Matrix (Fin n) (Fin n) ℝ → Option (List ℂ)}
    (heig : EigenvalueSolver eig) (hok : ∀ n A, (eig n A).isSome) (f : Fin 3 → ℝ × ℝ) (x : Fin 3 → V3 ℝ) (hv : rayVolume f ≠ 0)
    (hx : tolerance ≤ (((x 1).sub (x 0)).cross ((x 2).sub (x 0))).dot (((x 1).sub (x 0)).cross ((x 2).sub (x 0)))) :
    ∃ N sols, (∀ fuel ≥ N, solve (realParts infExp eig fuel) f x = .ok (true, some sols)) ∧ sols.length = 4 ∧
      ∀ R t, ThreePose f x R t → ¬ RightAngleAt (rayOf (f (firstRay f))) (rayOf (f (secondRay f))) (rayOf (f 2)) →
        ¬ FootOnCircle ((R.mulVec (x 0)).add t) ((R.mulVec (x 1)).add t) ((R.mulVec (x 2)).add t) → some (R, t) ∈ sols := by
  obtain ⟨N, sols, hN, hlen, hroots⟩ := all_roots hinf heig hok hv hx
  obtain ⟨i, j, rfl, rfl, hs, -⟩ := solve_eq (find := fun _ => none) hx hv
  refine ⟨N, sols, hN, hlen, ?_⟩
  intro R t hpose hang hfoot
  obtain ⟨k0, hk0, e0, -⟩ := ray_eq (f (firstRay f))
  obtain ⟨k1, hk1, e1, -⟩ := ray_eq (f (secondRay f))
  obtain ⟨k2, hk2, e2, -⟩ := ray_eq (f 2)
  obtain ⟨l0, hl0, h0⟩ := hpose.sees (firstRay f)
  obtain ⟨l1, hl1, h1⟩ := hpose.sees (secondRay f)
  obtain ⟨l2, hl2, h2⟩ := hpose.sees 2
  have hsm : ∀ {v : V3 ℝ} {k l : ℝ}, 0 < k → v.smul l = (v.smul k).smul (l / k) := by
    intro v k l hk
    rw [V3.smul_smul, div_mul_cancel₀ _ hk.ne']
  have hang' : ¬ RightAngleAt (normalized (homogeneous (f (firstRay f)))) (normalized (homogeneous (f (secondRay f))))
      (normalized (homogeneous (f 2))) := by
    rw [e0, e1, e2, rightAngle_smul hk0.ne' hk1.ne' hk2.ne']
    exact hang
  have hf := foot_order (f := f) (y := fun i => (R.mulVec (x i)).add t) hfoot
  have h0' : (R.mulVec (x (firstRay f))).add t = (normalized (homogeneous (f (firstRay f)))).smul (l0 / k0) := by
    rw [e0, ← hsm hk0]; exact h0
  have h1' : (R.mulVec (x (secondRay f))).add t = (normalized (homogeneous (f (secondRay f)))).smul (l1 / k1) := by
    rw [e1, ← hsm hk1]; exact h1
  have h2' : (R.mulVec (x 2)).add t = (normalized (homogeneous (f 2))).smul (l2 / k2) := by
    rw [e2, ← hsm hk2]; exact h2
  rw [h0', h1', h2'] at hf
  obtain ⟨c, hc, hp⟩ := poseFor_complete hs hang' hpose.isRotation (div_pos hl0 hk0) (div_pos hl1 hk1) (div_pos hl2 hk2)
    h0' h1' h2' hf
  rw [← hp]
  exact hroots c hc

private theorem mem_sols {find : List ℝ → Option (List ℝ)} {f : Fin 3 → ℝ × ℝ} {x : Fin 3 → V3 ℝ} (hv : rayVolume f ≠ 0) {b : Bool}
    {sols : List (Option (M3 ℝ × V3 ℝ))} (h : solve find f x = .ok (b, some sols)) {s : Option (M3 ℝ × V3 ℝ)} (hm : s ∈ sols) :
    ∃ c cs, find (polynomial (normalized (homogeneous (f (firstRay f)))) (normalized (homogeneous (f (secondRay f))))
        (normalized (homogeneous (f 2))) (x (firstRay f)) (x (secondRay f)) (x 2)) = some cs ∧ c ∈ cs ∧
      poseFor (normalized (homogeneous (f (firstRay f)))) (normalized (homogeneous (f (secondRay f))))
        (normalized (homogeneous (f 2))) (x (firstRay f)) (x (secondRay f)) (x 2) c = s ∧
      Setup (normalized (homogeneous (f (firstRay f)))) (normalized (homogeneous (f (secondRay f))))
        (normalized (homogeneous (f 2))) (x (firstRay f)) (x (secondRay f)) (x 2) := by
  have hx : tolerance ≤ (((x 1).sub (x 0)).cross ((x 2).sub (x 0))).dot (((x 1).sub (x 0)).cross ((x 2).sub (x 0))) := by
    by_contra hlt
    unfold solve at h
    simp only at h
    rw [if_pos (not_le.1 hlt)] at h
    cases h
  obtain ⟨i, j, rfl, rfl, hs, e⟩ := solve_eq (find := find) hx hv
  rw [e] at h
  split at h
  · cases h
    cases hm
  · next cs hcs =>
    simp only [Outcome.ok.injEq, Prod.mk.injEq, Option.some.injEq] at h
    rw [← h.2] at hm
    obtain ⟨c, hc, hp⟩ := List.mem_map.1 hm
    exact ⟨c, cs, hcs, hc, hp, hs⟩

private theorem mirror_smul {n v : V3 ℝ} {a b : ℝ} (ha : a ≠ 0) : mirror (n.smul a) (v.smul b) = (mirror n v).smul b := by
  have e : (n.smul a).smul (2 * (v.smul b).dot (n.smul a) / (n.smul a).dot (n.smul a)) = n.smul (b * (2 * v.dot n / n.dot n)) := by
    have h1 : (v.smul b).dot (n.smul a) = a * b * v.dot n := by simp only [V3.dot, V3.smul]; ring
    have h2 : (n.smul a).dot (n.smul a) = a * a * n.dot n := by simp only [V3.dot, V3.smul]; ring
    rw [h1, h2, V3.smul_smul]
    congr 1
    by_cases hn : n.dot n = 0
    · rw [hn]
      simp
    · field_simp
  unfold mirror
  rw [e]
  apply V3.ext <;> simp only [V3.sub, V3.smul] <;> ring

private theorem plane_eq (f : Fin 3 → ℝ × ℝ) : ∃ a : ℝ, a ≠ 0 ∧
    (normalized (homogeneous (f (firstRay f)))).cross (normalized (homogeneous (f (secondRay f)))) =
      ((rayOf (f 0)).cross (rayOf (f 1))).smul a := by
  obtain ⟨k0, hk0, e0, -⟩ := ray_eq (f 0)
  obtain ⟨k1, hk1, e1, -⟩ := ray_eq (f 1)
  unfold firstRay secondRay
  split
  · refine ⟨-(k0 * k1), neg_ne_zero.2 (mul_pos hk0 hk1).ne', ?_⟩
    rw [e0, e1]
    apply V3.ext <;> simp only [V3.cross, V3.smul, homogeneous, rayOf] <;> ring
  · refine ⟨k0 * k1, (mul_pos hk0 hk1).ne', ?_⟩
    rw [e0, e1]
    apply V3.ext <;> simp only [V3.cross, V3.smul, homogeneous, rayOf] <;> ring

/-- C76: every pose that is written (that is, without `NaN`) is a rotation with a translation that takes the first two points to the
lines of their rays, at least one of them not behind the camera. -/
theorem C76_first_two (find : List ℝ → Option (List ℝ)) (f : Fin 3 → ℝ × ℝ) (x : Fin 3 → V3 ℝ) (hv : rayVolume f ≠ 0) (b : Bool)
    (sols : List (Option (M3 ℝ × V3 ℝ))) (h : solve find f x = .ok (b, some sols)) (R : M3 ℝ) (t : V3 ℝ) (hm : some (R, t) ∈ sols) :
    R.IsRotation ∧ ∃ l0 l1 : ℝ, (0 ≤ l0 ∨ 0 ≤ l1) ∧ (R.mulVec (x 0)).add t = (rayOf (f 0)).smul l0 ∧
      (R.mulVec (x 1)).add t = (rayOf (f 1)).smul l1 := by
  obtain ⟨c, cs, -, -, hp, hs⟩ := mem_sols hv h hm
  obtain ⟨hR, ⟨l0, h0⟩, ⟨l1, hl1, h1⟩, -⟩ := poseFor_sound hs hp
  obtain ⟨k0, hk0, e0, -⟩ := ray_eq (f (firstRay f))
  obtain ⟨k1, hk1, e1, -⟩ := ray_eq (f (secondRay f))
  rw [e0, V3.smul_smul] at h0
  rw [e1, V3.smul_smul] at h1
  have hl1' : 0 ≤ l1 * k1 := mul_nonneg hl1 hk1.le
  refine ⟨hR, ?_⟩
  clear hp hs e0 e1
  unfold firstRay at h0
  unfold secondRay at h1
  split at h0
  · next hpos =>
    rw [if_pos hpos] at h1
    exact ⟨l1 * k1, l0 * k0, Or.inl hl1', h1, h0⟩
  · next hpos =>
    rw [if_neg hpos] at h1
    exact ⟨l0 * k0, l1 * k1, Or.inr hl1', h0, h1⟩

/-- C76, partial: with a root finder that returns only real roots, every pose that is written takes the third point in front of the
camera to its ray, or behind the camera to the mirror image of the ray at the plane of the other two, or to that plane. Missing: the root
finder that is used returns the real parts of all complex roots, and the poses from them are arbitrary; the second case occurs
(`C76_mirror_counterexample`). -/
theorem C76_third_partial (find : List ℝ → Option (List ℝ)) (hfind : ∀ p cs, find p = some cs → ∀ c ∈ cs, (poly p).eval c = 0)
    (f : Fin 3 → ℝ × ℝ) (x : Fin 3 → V3 ℝ) (hv : rayVolume f ≠ 0) (b : Bool)
    (sols : List (Option (M3 ℝ × V3 ℝ))) (h : solve find f x = .ok (b, some sols)) (R : M3 ℝ) (t : V3 ℝ) (hm : some (R, t) ∈ sols) :
    (∃ l : ℝ, 0 < l ∧ (R.mulVec (x 2)).add t = (rayOf (f 2)).smul l) ∨
      (∃ l : ℝ, l < 0 ∧ (R.mulVec (x 2)).add t = (mirror ((rayOf (f 0)).cross (rayOf (f 1))) (rayOf (f 2))).smul l) ∨
      ((R.mulVec (x 2)).add t).dot ((rayOf (f 0)).cross (rayOf (f 1))) = 0 := by
  obtain ⟨c, cs, hcs, hc, hp, hs⟩ := mem_sols hv h hm
  obtain ⟨-, -, -, h3⟩ := poseFor_sound hs hp
  obtain ⟨k2, hk2, e2, -⟩ := ray_eq (f 2)
  obtain ⟨a, ha, ea⟩ := plane_eq f
  rcases h3 (hfind _ _ hcs c hc) with ⟨l, hl, h3⟩ | ⟨l, hl, h3⟩ | h3
  · left
    rw [e2, V3.smul_smul] at h3
    exact ⟨l * k2, mul_pos hl hk2, h3⟩
  · right; left
    rw [e2, ea, mirror_smul ha, V3.smul_smul] at h3
    exact ⟨l * k2, mul_neg_of_neg_of_pos hl hk2, h3⟩
  · right; right
    rw [ea] at h3
    have : ((R.mulVec (x 2)).add t).dot (((rayOf (f 0)).cross (rayOf (f 1))).smul a) =
        a * ((R.mulVec (x 2)).add t).dot ((rayOf (f 0)).cross (rayOf (f 1))) := by
      simp only [V3.dot, V3.smul]
      ring
    rw [this] at h3
    exact (mul_eq_zero.1 h3).resolve_left ha

/-- C76: if the points are nearly on a line, nothing is written. -/
theorem C76_collinear (find : List ℝ → Option (List ℝ)) (f : Fin 3 → ℝ × ℝ) (x : Fin 3 → V3 ℝ)
    (h : (((x 1).sub (x 0)).cross ((x 2).sub (x 0))).dot (((x 1).sub (x 0)).cross ((x 2).sub (x 0))) < tolerance) :
    solve find f x = .ok (false, none) := by
  unfold solve
  simp only
  rw [if_pos h]

/-- Three points on a line. -/
example : ∃ x : Fin 3 → V3 ℝ,
    (((x 1).sub (x 0)).cross ((x 2).sub (x 0))).dot (((x 1).sub (x 0)).cross ((x 2).sub (x 0))) < tolerance :=
  ⟨fun i => ⟨i.val, 0, 0⟩, by simp [V3.sub, V3.cross, V3.dot, tolerance]; norm_num⟩

/-- A camera at the origin that sees three points: the hypotheses of `C76_complete` hold, and its pose satisfies those for the poses
found. -/
example : ∃ (f : Fin 3 → ℝ × ℝ) (x : Fin 3 → V3 ℝ), rayVolume f ≠ 0 ∧
    tolerance ≤ (((x 1).sub (x 0)).cross ((x 2).sub (x 0))).dot (((x 1).sub (x 0)).cross ((x 2).sub (x 0))) ∧
    ThreePose f x M3.one V3.zero ∧ ¬ RightAngleAt (rayOf (f (firstRay f))) (rayOf (f (secondRay f))) (rayOf (f 2)) ∧
    ¬ FootOnCircle ((M3.one.mulVec (x 0)).add V3.zero) ((M3.one.mulVec (x 1)).add V3.zero) ((M3.one.mulVec (x 2)).add V3.zero) := by
  have hv : rayVolume ![(0, 0), (1, 0), (1, -1)] = -1 := by
    simp [rayVolume, rayOf, V3.cross, V3.dot]
  refine ⟨![(0, 0), (1, 0), (1, -1)], ![⟨0, 0, 1⟩, ⟨1, 0, 1⟩, ⟨2, -2, 2⟩], by rw [hv]; norm_num, ?_, ⟨M3.IsRotation.one, ?_⟩, ?_, ?_⟩
  · simp [V3.sub, V3.cross, V3.dot, tolerance]
    norm_num
  · intro i
    rw [SeesPoint, M3.one_mulVec]
    fin_cases i
    · exact ⟨1, one_pos, by apply V3.ext <;> simp [V3.add, V3.zero, V3.smul]⟩
    · exact ⟨1, one_pos, by apply V3.ext <;> simp [V3.add, V3.zero, V3.smul]⟩
    · exact ⟨2, two_pos, by apply V3.ext <;> simp [V3.add, V3.zero, V3.smul]⟩
  · rw [firstRay, secondRay, hv, if_neg (by norm_num), if_neg (by norm_num)]
    simp [RightAngleAt, rayOf, V3.cross, V3.dot]
  · rw [M3.one_mulVec, M3.one_mulVec, M3.one_mulVec]
    rintro ⟨s, t, u, v, h1, h2, h3, h4, h5⟩
    simp [V3.add, V3.zero, V3.smul, V3.sub, V3.dot] at h1 h2 h3 h4 h5
    have hv : v = 2 := by linarith
    have hu : u = 0 := by linarith
    subst hv hu
    nlinarith

/-- C76: a small triangle is taken for three points on a line: the poses of a camera that sees it are not found. -/
theorem C76_small_triangle_counterexample : ∃ (f : Fin 3 → ℝ × ℝ) (x : Fin 3 → V3 ℝ), rayVolume f ≠ 0 ∧
    ((x 1).sub (x 0)).cross ((x 2).sub (x 0)) ≠ V3.zero ∧ ThreePose f x M3.one V3.zero ∧
    ∀ find, solve find f x = .ok (false, none) := by
  refine ⟨![(0, 0), (1 / 100, 0), (0, 1 / 100)], ![⟨0, 0, 1⟩, ⟨1 / 100, 0, 1⟩, ⟨0, 1 / 100, 1⟩], ?_, ?_, ⟨M3.IsRotation.one, ?_⟩, ?_⟩
  · simp [rayVolume, rayOf, V3.cross, V3.dot]
  · intro h
    have := congrArg V3.z h
    simp [V3.cross, V3.sub, V3.zero] at this
  · intro i
    rw [SeesPoint, M3.one_mulVec]
    fin_cases i <;> exact ⟨1, one_pos, by apply V3.ext <;> simp [V3.add, V3.zero, V3.smul]⟩
  · intro find
    apply C76_collinear
    simp [V3.sub, V3.cross, V3.dot, tolerance]
    norm_num

/-- C76: if the rays form a right angle at the first ray, nothing but `NaN`s is written, whatever the points. -/
theorem C76_right_angle (find : List ℝ → Option (List ℝ)) (f : Fin 3 → ℝ × ℝ) (x : Fin 3 → V3 ℝ) (hv : rayVolume f ≠ 0)
    (hang : RightAngleAt (rayOf (f (firstRay f))) (rayOf (f (secondRay f))) (rayOf (f 2))) (b : Bool)
    (sols : List (Option (M3 ℝ × V3 ℝ))) (h : solve find f x = .ok (b, some sols)) : ∀ s ∈ sols, s = none := by
  intro s hs
  obtain ⟨c, cs, -, -, hp, hset⟩ := mem_sols hv h hs
  obtain ⟨σ, hσ, -, -, -, -, hF⟩ := frame_spec hset.unit0 hset.rays
  obtain ⟨k0, hk0, e0, -⟩ := ray_eq (f (firstRay f))
  obtain ⟨k1, hk1, e1, -⟩ := ray_eq (f (secondRay f))
  obtain ⟨k2, hk2, e2, -⟩ := ray_eq (f 2)
  have hang' : RightAngleAt (normalized (homogeneous (f (firstRay f)))) (normalized (homogeneous (f (secondRay f))))
      (normalized (homogeneous (f 2))) := by
    rw [e0, e1, e2, rightAngle_smul hk0.ne' hk1.ne' hk2.ne']
    exact hang
  unfold RightAngleAt at hang'
  have hu := hset.unit0
  have h2 := (hF (normalized (homogeneous (f 2)))).2.1
  rw [← hp]
  unfold poseFor
  generalize normalized (homogeneous (f (firstRay f))) = r0 at *
  generalize normalized (homogeneous (f (secondRay f))) = r1 at *
  generalize normalized (homogeneous (f 2)) = r2 at *
  have : (r0.cross r1).dot (r0.cross r2) = r0.dot r0 * r2.dot r1 - r0.dot r1 * r2.dot r0 := by
    simp only [V3.dot, V3.cross]
    ring
  rw [this, hu, one_mul] at hang'
  rw [hang'] at h2
  have hy := (mul_eq_zero.1 h2).resolve_left hσ.ne'
  simp only
  rw [hy, zero_div]
  simp only [backsubstitute, alpha, if_true]
  split <;> rfl

/-- C76: with features at the principal point, to the right of it and below it, nothing but `NaN`s is written. -/
theorem C76_right_angle_counterexample : ∃ (f : Fin 3 → ℝ × ℝ) (x : Fin 3 → V3 ℝ), rayVolume f ≠ 0 ∧
    ThreePose f x M3.one V3.zero ∧
    ¬ FootOnCircle ((M3.one.mulVec (x 0)).add V3.zero) ((M3.one.mulVec (x 1)).add V3.zero) ((M3.one.mulVec (x 2)).add V3.zero) ∧
    ∀ find b sols, solve find f x = .ok (b, some sols) → ∀ s ∈ sols, s = none := by
  have hv : rayVolume ![(0, 0), (1, 0), (0, -1)] = -1 := by
    simp [rayVolume, rayOf, V3.cross, V3.dot]
  refine ⟨![(0, 0), (1, 0), (0, -1)], ![⟨0, 0, 1⟩, ⟨1, 0, 1⟩, ⟨0, -2, 2⟩], by rw [hv]; norm_num, ⟨M3.IsRotation.one, ?_⟩, ?_, ?_⟩
  · intro i
    rw [SeesPoint, M3.one_mulVec]
    fin_cases i
    · exact ⟨1, one_pos, by apply V3.ext <;> simp [V3.add, V3.zero, V3.smul]⟩
    · exact ⟨1, one_pos, by apply V3.ext <;> simp [V3.add, V3.zero, V3.smul]⟩
    · exact ⟨2, two_pos, by apply V3.ext <;> simp [V3.add, V3.zero, V3.smul]⟩
  · rw [M3.one_mulVec, M3.one_mulVec, M3.one_mulVec]
    rintro ⟨s, t, u, v, h1, h2, h3, h4, h5⟩
    simp [V3.add, V3.zero, V3.smul, V3.sub, V3.dot] at h1 h2 h3 h4 h5
    have hv : v = 0 := by linarith
    have hu : u = 2 := by linarith
    subst hv hu
    nlinarith
  · intro find b sols h s hs
    refine C76_right_angle find _ _ (by rw [hv]; norm_num) ?_ b sols h s hs
    rw [firstRay, secondRay, hv, if_neg (by norm_num), if_neg (by norm_num)]
    simp [RightAngleAt, rayOf, V3.cross, V3.dot]

private theorem normalized_of {u v : V3 ℝ} {k : ℝ} (hk : 0 < k) (hu : u.dot u = 1) (hv : v = u.smul k) : normalized v = u := by
  have hd : v.dot v = k ^ 2 := by
    have : (u.smul k).dot (u.smul k) = k * k * u.dot u := by simp only [V3.dot, V3.smul]; ring
    rw [hv, this, hu]
    ring
  unfold normalized
  rw [hd, if_neg (by positivity), Real.sqrt_sq hk.le, hv, V3.smul_smul, inv_mul_cancel₀ hk.ne', V3.one_smul']

/-- C76: a wrong pose is written: three features and points, not in a special position, for which one of the poses takes the third
point off the line of its ray. -/
theorem C76_mirror_counterexample {infExp : ℤ} (hinf : infExp.tdiv 2 = 0)
    {eig : (n : Nat) → Matrix (Fin n) (Fin n) ℝ → Option (List ℂ)} (heig : EigenvalueSolver eig) (hok : ∀ n A, (eig n A).isSome) :
    ∃ (f : Fin 3 → ℝ × ℝ) (x : Fin 3 → V3 ℝ), rayVolume f ≠ 0 ∧
    ¬ RightAngleAt (rayOf (f (firstRay f))) (rayOf (f (secondRay f))) (rayOf (f 2)) ∧
    ∃ N sols, (∀ fuel ≥ N, solve (realParts infExp eig fuel) f x = .ok (true, some sols)) ∧
      ∃ R t, some (R, t) ∈ sols ∧ ∀ l : ℝ, (R.mulVec (x 2)).add t ≠ (rayOf (f 2)).smul l := by
  have hv : rayVolume ![(0, 0), (4 / 3, 0), (-11 / 3, -20 / 3)] = -80 / 9 := by
    simp [rayVolume, rayOf, V3.cross, V3.dot]
    norm_num
  obtain ⟨N, sols, hN, -, hroots⟩ := all_roots (f := ![(0, 0), (4 / 3, 0), (-11 / 3, -20 / 3)])
    (x := ![⟨0, 0, 0⟩, ⟨4, 0, 0⟩, ⟨5, 5, 0⟩]) hinf heig hok (by rw [hv]; norm_num) (by
      simp [V3.sub, V3.cross, V3.dot, tolerance]
      norm_num)
  have hfirst : firstRay ![(0, 0), (4 / 3, 0), (-11 / 3, -20 / 3)] = 0 := by rw [firstRay, hv, if_neg (by norm_num)]
  have hsecond : secondRay ![(0, 0), (4 / 3, 0), (-11 / 3, -20 / 3)] = 1 := by rw [secondRay, hv, if_neg (by norm_num)]
  refine ⟨_, _, by rw [hv]; norm_num, ?_, N, sols, hN, ?_⟩
  · rw [hfirst, hsecond]
    simp [RightAngleAt, rayOf, V3.cross, V3.dot]
  specialize hroots (3 / 5)
  rw [hfirst, hsecond] at hroots
  simp only [Matrix.cons_val_zero, Matrix.cons_val_one, Matrix.cons_val] at hroots ⊢
  have h0 : normalized (homogeneous (0, 0)) = ⟨0, 0, 1⟩ :=
    normalized_of one_pos (by simp [V3.dot]) (by apply V3.ext <;> simp [homogeneous, V3.smul])
  have h1 : normalized (homogeneous (4 / 3, 0)) = ⟨4 / 5, 0, 3 / 5⟩ :=
    normalized_of (k := 5 / 3) (by norm_num) (by simp [V3.dot]; norm_num)
      (by apply V3.ext <;> simp [homogeneous, V3.smul] <;> norm_num)
  obtain ⟨k, hk, h2, -⟩ := ray_eq (-11 / 3, -20 / 3)
  rw [h0, h1, h2] at hroots
  have hn1 : normalized (V3.cross ⟨0, 0, 1⟩ ⟨4 / 5, 0, 3 / 5⟩) = (⟨0, 1, 0⟩ : V3 ℝ) :=
    normalized_of (k := 4 / 5) (by norm_num) (by simp [V3.dot]) (by apply V3.ext <;> simp [V3.cross, V3.smul])
  have hF : frame ⟨0, 0, 1⟩ ⟨4 / 5, 0, 3 / 5⟩ = (⟨⟨0, 0, 1⟩, ⟨1, 0, 0⟩, ⟨0, 1, 0⟩⟩ : M3 ℝ) := by
    unfold frame
    simp only [hn1]
    simp [V3.cross]
  have hd : V3.sub ⟨4, 0, 0⟩ ⟨0, 0, 0⟩ = (⟨4, 0, 0⟩ : V3 ℝ) := by simp [V3.sub]
  have hd2 : V3.sub ⟨5, 5, 0⟩ ⟨0, 0, 0⟩ = (⟨5, 5, 0⟩ : V3 ℝ) := by simp [V3.sub]
  have hn2 : normalized ⟨4, 0, 0⟩ = (⟨1, 0, 0⟩ : V3 ℝ) :=
    normalized_of (k := 4) (by norm_num) (by simp [V3.dot]) (by apply V3.ext <;> simp [V3.smul])
  have hn3 : normalized (V3.cross ⟨1, 0, 0⟩ ⟨5, 5, 0⟩) = (⟨0, 0, 1⟩ : V3 ℝ) :=
    normalized_of (k := 5) (by norm_num) (by simp [V3.dot]) (by apply V3.ext <;> simp [V3.cross, V3.smul])
  have hW : frame ⟨1, 0, 0⟩ ⟨5, 5, 0⟩ = (M3.one : M3 ℝ) := by
    unfold frame
    simp only [hn3]
    simp [V3.cross, M3.one]
  have hb : cotBeta ((⟨0, 0, 1⟩ : V3 ℝ).dot ⟨4 / 5, 0, 3 / 5⟩) = 3 / 4 := by
    rw [cotBeta_eq (σ := 4 / 5) (by norm_num) (by simp [V3.dot]; norm_num)]
    simp [V3.dot]
    norm_num
  have hs : Real.sqrt ((⟨4, 0, 0⟩ : V3 ℝ).dot ⟨4, 0, 0⟩) = 4 := by
    rw [show (⟨4, 0, 0⟩ : V3 ℝ).dot ⟨4, 0, 0⟩ = 4 ^ 2 by simp [V3.dot]; norm_num, Real.sqrt_sq (by norm_num)]
  have hi : (⟨⟨0, 0, 1⟩, ⟨1, 0, 0⟩, ⟨0, 1, 0⟩⟩ : M3 ℝ).mulVec ((homogeneous (-11 / 3, -20 / 3)).smul k) =
      ⟨k, k * (-11 / 3), k * (-20 / 3)⟩ := by
    simp [M3.mulVec, V3.dot, homogeneous, V3.smul]
  have e1 : k / (k * (-20 / 3)) = -3 / 20 := by field_simp
  have e2 : k * (-11 / 3) / (k * (-20 / 3)) = 11 / 20 := by field_simp
  unfold polynomial poseFor at hroots
  simp only [hd, hd2, hn2, hW, hF, hb, hs, hi, M3.one_mulVec, e1, e2] at hroots
  have hal : alpha (-3 / 20) (11 / 20) 5 5 4 (3 / 4) (3 / 5) = some (4 / 5, 3 / 5) :=
    alpha_of_equations (s := -4 / 5) (by norm_num) (by norm_num) (by norm_num) (by norm_num) (by norm_num) (by norm_num) (by norm_num)
      (by norm_num)
  have hsT : Real.sqrt (1 - 3 / 5 * (3 / 5)) = 4 / 5 := by
    rw [show (1 - 3 / 5 * (3 / 5) : ℝ) = (4 / 5) ^ 2 by norm_num, Real.sqrt_sq (by norm_num)]
  have hm := hroots (by rw [eval_coefficients]; norm_num)
  unfold backsubstitute at hm
  rw [if_neg (by norm_num), hal] at hm
  simp only [hsT] at hm
  refine ⟨_, _, hm, fun l hl => ?_⟩
  have hrot : (⟨⟨0, 0, 1⟩, ⟨1, 0, 0⟩, ⟨0, 1, 0⟩⟩ : M3 ℝ).IsRotation := by
    refine ⟨?_, ?_, ?_⟩
    · apply M3.ext <;> apply V3.ext <;> simp [M3.mul, M3.mulVec, M3.transpose, M3.one, V3.dot]
    · apply M3.ext <;> apply V3.ext <;> simp [M3.mul, M3.mulVec, M3.transpose, M3.one, V3.dot]
    · simp [M3.det, V3.dot, V3.cross]
  have himg := pose_image (Q := turn (3 / 5) (4 / 5) (3 / 5) (4 / 5)) hrot M3.IsRotation.one ⟨0, 0, 0⟩
    (center 4 (3 / 4) (3 / 5) (4 / 5) (3 / 5) (4 / 5)) ⟨5, 5, 0⟩
  rw [hl, hd2, M3.one_mulVec] at himg
  have hx := congrArg V3.x himg
  have hz := congrArg V3.z himg
  simp [M3.mulVec, V3.dot, V3.smul, V3.sub, rayOf, turn, center] at hx hz
  norm_num at hx hz
  linarith

/-- A root finder that returns only real roots, as `C76_third_partial` wants it. -/
example : ∃ find : List ℝ → Option (List ℝ), (∀ p cs, find p = some cs → ∀ c ∈ cs, (poly p).eval c = 0) ∧
    ∃ p cs, find p = some cs ∧ cs ≠ [] := by
  refine ⟨fun p => some (poly p).roots.toList, ?_, [1, 0], [0], ?_, by simp⟩
  · intro p cs h c hc
    cases h
    exact (mem_roots'.1 (Multiset.mem_toList.1 hc)).2
  · simp [poly, roots_X]

/-- C76: three rays in a plane, for example equal features, lead to a division by zero, whatever the points (unless they are nearly on a
line). -/
theorem C76_coplanar_counterexample (find : List ℝ → Option (List ℝ)) (f : Fin 3 → ℝ × ℝ) (x : Fin 3 → V3 ℝ)
    (hx : tolerance ≤ (((x 1).sub (x 0)).cross ((x 2).sub (x 0))).dot (((x 1).sub (x 0)).cross ((x 2).sub (x 0))))
    (hv : rayVolume f = 0) : solve find f x = .ub := by
  obtain ⟨k0, hk0, e0, u0⟩ := ray_eq (f 0)
  obtain ⟨k1, hk1, e1, u1⟩ := ray_eq (f 1)
  obtain ⟨k2, hk2, e2, -⟩ := ray_eq (f 2)
  have hvol : (normalized (homogeneous (f 2))).dot ((normalized (homogeneous (f 0))).cross (normalized (homogeneous (f 1)))) = 0 := by
    rw [e0, e1, e2, volume_smul]
    have : ((homogeneous (f 0)).cross (homogeneous (f 1))).dot (homogeneous (f 2)) = 0 := hv
    rw [this, mul_zero]
  have hz : ((frame (normalized (homogeneous (f 0))) (normalized (homogeneous (f 1)))).mulVec (normalized (homogeneous (f 2)))).z = 0 := by
    show (normalized ((normalized (homogeneous (f 0))).cross (normalized (homogeneous (f 1))))).dot (normalized (homogeneous (f 2))) = 0
    rw [V3.dot_comm]
    generalize (normalized (homogeneous (f 0))).cross (normalized (homogeneous (f 1))) = w at *
    generalize normalized (homogeneous (f 2)) = r at *
    unfold normalized
    split
    · exact hvol
    · have : ∀ (a b : V3 ℝ) (k : ℝ), a.dot (b.smul k) = k * a.dot b := by
        intro a b k
        simp only [V3.dot, V3.smul]
        ring
      rw [this, hvol, mul_zero]
  unfold solve
  simp only
  rw [if_neg (not_lt.2 hx), if_neg (by rw [hz]; exact lt_irrefl 0)]
  unfold core
  simp only
  rw [if_pos hz]

/-- Three equal features. -/
example : ∃ f : Fin 3 → ℝ × ℝ, rayVolume f = 0 := ⟨fun _ => (0, 0), by simp [rayVolume, rayOf, V3.cross, V3.dot]⟩

end Theia
