import Verif.Base.RealVectors
import Verif.Model.LinearPosition
import Verif.Props.Triangulation
import Verif.Spec.LinearPosition

/-!
# Baseline ratios of exact triplets
-/

namespace Theia
namespace BaselineRatios

open Triangulation AngleAxis Spec

theorem dist3_pos {a b : V3 ℝ} (h : a ≠ b) : 0 < dist3 a b :=
  Real.sqrt_pos.2 (V3.self_pos (fun e => h (V3.sub_eq_zero e).symm))

theorem dist3_sq (a b : V3 ℝ) : dist3 a b * dist3 a b = (b.sub a).dot (b.sub a) := Real.mul_self_sqrt (V3.self_nonneg _)

theorem dot_smul (a b : V3 ℝ) (s t : ℝ) : (a.smul s).dot (b.smul t) = s * t * a.dot b := by
  simp only [V3.dot, V3.smul]; ring

theorem cross_smul2 (a b : V3 ℝ) (s t : ℝ) : (a.smul s).cross (b.smul t) = (a.cross b).smul (s * t) := by
  apply V3.ext <;> simp only [V3.cross, V3.smul] <;> ring

theorem sqrt_dot_smul (a : V3 ℝ) {s : ℝ} (hs : 0 ≤ s) : Real.sqrt ((a.smul s).dot (a.smul s)) = s * Real.sqrt (a.dot a) := by
  rw [dot_smul, Real.sqrt_mul (mul_nonneg hs hs), Real.sqrt_mul_self hs]

theorem smul_add' (a b : V3 ℝ) (s : ℝ) : (a.add b).smul s = (a.smul s).add (b.smul s) := by
  apply V3.ext <;> simp only [V3.add, V3.smul] <;> ring

theorem smul_sub' (a b : V3 ℝ) (s : ℝ) : (a.sub b).smul s = (a.smul s).sub (b.smul s) := by
  apply V3.ext <;> simp only [V3.sub, V3.smul] <;> ring

/-- The normalized image point is the direction of the point. -/
theorem normalize_feature {G : Nat → M3 ℝ} {c : Nat → V3 ℝ} (hG : ∀ v, (G v).IsRotation) {v : Nat} {X : V3 ℝ} {p : ℝ × ℝ}
    (h : ExactFeature G c v X p) :
    c v ≠ X ∧ normalize (homog p) = ((G v).mulVec (X.sub (c v))).smul (1 / dist3 (c v) X) := by
  obtain ⟨z, hz, e⟩ := h
  have hh : 0 < (homog p).dot (homog p) := by
    simp only [V3.dot, homog]
    nlinarith [mul_self_nonneg p.1, mul_self_nonneg p.2]
  have e' : (G v).mulVec (X.sub (c v)) = (homog p).smul z := e
  have hd : dist3 (c v) X = z * Real.sqrt ((homog p).dot (homog p)) := by
    rw [dist3, ← (hG v).dot, e', sqrt_dot_smul _ hz.le]
  have hs := Real.sqrt_pos.2 hh
  have hpos : 0 < dist3 (c v) X := by rw [hd]; exact mul_pos hz hs
  refine ⟨?_, ?_⟩
  · rintro rfl
    have : dist3 (c v) (c v) = 0 := by
      have h0 : (c v).sub (c v) = V3.zero := by apply V3.ext <;> simp [V3.sub, V3.zero]
      rw [dist3, h0, V3.dot_zero, Real.sqrt_zero]
    rw [this] at hpos
    exact lt_irrefl _ hpos
  · rw [Triangulation.normalize.eq_def, if_pos hh, e', V3.smul_smul, hd]
    congr 1
    field_simp

theorem mulVec_one_div (m : M3 ℝ) (v : V3 ℝ) (s : ℝ) : m.mulVec (v.smul s) = (m.mulVec v).smul s := M3.mulVec_smul m s v

section

variable {G : Nat → M3 ℝ} {c : Nat → V3 ℝ} {i j : Nat} {info : Info} {X : V3 ℝ} {p q : ℝ × ℝ}

theorem second_direction (hG : ∀ v, (G v).IsRotation) (hpose : ExactPose G c i j info.rotation info.position)
    (hq : ExactFeature G c j X q) :
    (toM info.rotation).transpose.mulVec (normalize (homog q)) = ((G i).mulVec (X.sub (c j))).smul (1 / dist3 (c j) X) := by
  rw [(normalize_feature hG hq).2, hpose.2.1, M3.transpose_mul, M3.transpose_transpose, M3.mulVec_mul, M3.mulVec_smul,
    (hG j).transpose_mulVec, M3.mulVec_smul]

theorem unit_direction (hG : ∀ v, (G v).IsRotation) {a b : V3 ℝ} (v : Nat) (h : a ≠ b) :
    (((G v).mulVec (b.sub a)).smul (1 / dist3 a b)).dot (((G v).mulVec (b.sub a)).smul (1 / dist3 a b)) = 1 := by
  have hp := dist3_pos h
  rw [dot_smul, (hG v).dot, ← dist3_sq]
  field_simp

theorem sufficient_iff (hG : ∀ v, (G v).IsRotation) (hpose : ExactPose G c i j info.rotation info.position)
    (hp : ExactFeature G c i X p) (hq : ExactFeature G c j X q) :
    sufficientAngle (directions info (normalize (homog p)) (normalize (homog q))) 2 = true ↔ 2 < viewingAngle c i j X := by
  have hne1 := (normalize_feature hG hp).1
  have hne2 := (normalize_feature hG hq).1
  have hu1 := unit_direction hG i hne1
  have hu2 := unit_direction hG i hne2
  rw [directions, second_direction hG hpose hq, (normalize_feature hG hp).2]
  have key : angleDegrees (((G i).mulVec (X.sub (c i))).smul (1 / dist3 (c i) X))
      (((G i).mulVec (X.sub (c j))).smul (1 / dist3 (c j) X)) = viewingAngle c i j X := by
    rw [angleDegrees, viewingAngle, dot_smul, (hG i).dot]
    congr 3
    rw [div_mul_div_comm]
    ring
  rw [C49_sufficient_angle (by
    intro d hd
    simp only [List.mem_cons, List.not_mem_nil, or_false] at hd
    rcases hd with rfl | rfl
    · exact hu1
    · exact hu2) (by norm_num) (by norm_num)]
  constructor
  · rintro ⟨a, b, d, e, hab, hd, he, hlt⟩
    have hb : b < 2 := by
      have := (List.getElem?_eq_some_iff.1 he).1
      simpa using this
    have ha0 : a = 0 := by omega
    have hb1 : b = 1 := by omega
    subst ha0; subst hb1
    simp only [List.getElem?_cons_zero, List.getElem?_cons_succ, Option.some.injEq] at hd he
    rw [← hd, ← he, key] at hlt
    exact hlt
  · intro h
    exact ⟨0, 1, _, _, by norm_num, rfl, rfl, by rw [key]; exact h⟩

/-- Depths of an exact point. -/
theorem depths_exact {llt : (V4 → V4) → V4 → Option V4} (hl : Cholesky llt) (hG : ∀ v, (G v).IsRotation)
    (hpose : ExactPose G c i j info.rotation info.position) (hp : ExactFeature G c i X p) (hq : ExactFeature G c j X q) :
    (WellSeen c i j X → depths llt info (normalize (homog p)) (normalize (homog q)) =
      .ok (some (dist3 (c i) X / dist3 (c i) (c j), dist3 (c j) X / dist3 (c i) (c j)))) ∧
    (¬ WellSeen c i j X → depths llt info (normalize (homog p)) (normalize (homog q)) = .ok none) := by
  have hne1 := (normalize_feature hG hp).1
  have hne2 := (normalize_feature hG hq).1
  have hu1 := unit_direction hG i hne1
  have hu2 := unit_direction hG i hne2
  have hb := dist3_pos hpose.1
  have hd1 := dist3_pos hne1
  have hd2 := dist3_pos hne2
  have hpos : info.position = ((G i).mulVec ((c j).sub (c i))).smul (1 / dist3 (c i) (c j)) := by
    rw [← hpose.2.2, V3.smul_smul, one_div, inv_mul_cancel₀ hb.ne', V3.one_smul']
  have hdir : directions info (normalize (homog p)) (normalize (homog q)) =
      [((G i).mulVec (X.sub (c i))).smul (1 / dist3 (c i) X), ((G i).mulVec (X.sub (c j))).smul (1 / dist3 (c j) X)] := by
    rw [directions, second_direction hG hpose hq, (normalize_feature hG hp).2]
  have hunit : ∀ d ∈ directions info (normalize (homog p)) (normalize (homog q)), d.dot d = 1 := by
    rw [hdir]
    intro d hd
    simp only [List.mem_cons, List.not_mem_nil, or_false] at hd
    rcases hd with rfl | rfl
    · exact hu1
    · exact hu2
  have hcross : ∀ s t : ℝ, (((G i).mulVec (X.sub (c i))).smul s).cross (((G i).mulVec (X.sub (c j))).smul t) =
      ((G i).mulVec ((X.sub (c i)).cross (X.sub (c j)))).smul (s * t) := by
    intro s t
    rw [cross_smul2, mulVec_cross (hG i)]
  constructor
  · rintro ⟨hang, hcr⟩
    have hpar : ∃ d ∈ directions info (normalize (homog p)) (normalize (homog q)),
        ∃ e ∈ directions info (normalize (homog p)) (normalize (homog q)), ¬ Parallel d e := by
      rw [hdir]
      refine ⟨_, List.mem_cons_self, _, List.mem_cons_of_mem _ List.mem_cons_self, ?_⟩
      rw [Parallel, hcross]
      intro h0
      have h1 := V3.eq_zero_of_smul (by positivity) h0
      apply hcr
      have h2 := congrArg ((G i).transpose.mulVec) h1
      rw [(hG i).transpose_mulVec] at h2
      rw [h2]
      apply V3.ext <;> simp [M3.mulVec, V3.dot, V3.zero]
    have hmid := C49_midpoint_exact hl (origins := [V3.zero, info.position])
      (directions := directions info (normalize (homog p)) (normalize (homog q))) (by simp) (by simp [directions]) hunit hpar
      (P := ((G i).mulVec (X.sub (c i))).smul (1 / dist3 (c i) (c j))) (by
        rw [hdir]
        intro r hr
        simp only [List.zip_cons_cons, List.zip_nil_right, List.mem_cons, List.not_mem_nil, or_false] at hr
        rcases hr with rfl | rfl
        · refine ⟨dist3 (c i) X / dist3 (c i) (c j), ?_⟩
          rw [onLine, V3.smul_smul]
          have : dist3 (c i) X / dist3 (c i) (c j) * (1 / dist3 (c i) X) = 1 / dist3 (c i) (c j) := by field_simp
          rw [this]
          apply V3.ext <;> simp [V3.add, V3.zero]
        · refine ⟨dist3 (c j) X / dist3 (c i) (c j), ?_⟩
          rw [onLine, V3.smul_smul]
          have : dist3 (c j) X / dist3 (c i) (c j) * (1 / dist3 (c j) X) = 1 / dist3 (c i) (c j) := by field_simp
          rw [this, hpos, ← smul_add', ← M3.mulVec_add]
          congr 2
          apply V3.ext <;> simp only [V3.add, V3.sub] <;> ring)
    have hsuf := (sufficient_iff hG hpose hp hq).2 hang
    have hr1 : Real.sqrt ((((G i).mulVec (X.sub (c i))).smul (1 / dist3 (c i) (c j))).dot
        (((G i).mulVec (X.sub (c i))).smul (1 / dist3 (c i) (c j)))) = dist3 (c i) X / dist3 (c i) (c j) := by
      rw [sqrt_dot_smul _ (by positivity), (hG i).dot, ← dist3]
      ring
    have hr2 : Real.sqrt (((((G i).mulVec (X.sub (c i))).smul (1 / dist3 (c i) (c j))).sub info.position).dot
        ((((G i).mulVec (X.sub (c i))).smul (1 / dist3 (c i) (c j))).sub info.position)) =
        dist3 (c j) X / dist3 (c i) (c j) := by
      rw [hpos, ← smul_sub', ← M3.mulVec_sub, sqrt_dot_smul _ (by positivity), (hG i).dot]
      have : (X.sub (c i)).sub ((c j).sub (c i)) = X.sub (c j) := by
        apply V3.ext <;> simp only [V3.sub] <;> ring
      rw [this, ← dist3]
      ring
    rw [depths, if_pos hsuf, hmid]
    simp only [depthsOf]
    rw [if_neg one_ne_zero, inv_one, V3.one_smul', hr1, hr2]
  · intro hno
    by_cases hang : 2 < viewingAngle c i j X
    · have hcr : (X.sub (c i)).cross (X.sub (c j)) = V3.zero := by
        by_contra h
        exact hno ⟨hang, h⟩
      have hsuf := (sufficient_iff hG hpose hp hq).2 hang
      have hz : ∀ s : ℝ, ((G i).mulVec (V3.zero : V3 ℝ)).smul s = V3.zero := by
        intro s
        apply V3.ext <;> simp [M3.mulVec, V3.dot, V3.zero, V3.smul]
      have hpar : ∀ d ∈ directions info (normalize (homog p)) (normalize (homog q)),
          ∀ e ∈ directions info (normalize (homog p)) (normalize (homog q)), Parallel d e := by
        rw [hdir]
        intro d hd e he
        simp only [List.mem_cons, List.not_mem_nil, or_false] at hd he
        have h12 := hcross (1 / dist3 (c i) X) (1 / dist3 (c j) X)
        rw [hcr, hz] at h12
        rcases hd with rfl | rfl <;> rcases he with rfl | rfl
        · exact cross_smul_smul _ _ _
        · exact h12
        · exact cross_anti _ _ h12
        · exact cross_smul_smul _ _ _
      rw [depths, if_pos hsuf, C49_midpoint_parallel hl (by simp) (by simp [directions]) hunit hpar]
    · rw [depths, if_neg]
      rw [sufficient_iff hG hpose hp hq]
      exact hang

end

variable {G : Nat → M3 ℝ} {c : Nat → V3 ℝ} {t : Nat × Nat × Nat} {i12 i13 i23 : Info}
  {llt : (V4 → V4) → V4 → Option V4}

theorem ratio_exact (hl : Cholesky llt) (hG : ∀ v, (G v).IsRotation)
    (h12 : ExactPose G c t.1 t.2.1 i12.rotation i12.position) (h13 : ExactPose G c t.1 t.2.2 i13.rotation i13.position)
    (h23 : ExactPose G c t.2.1 t.2.2 i23.rotation i23.position) {X : V3 ℝ} {f : V2 × V2 × V2}
    (h1 : ExactFeature G c t.1 X f.1) (h2 : ExactFeature G c t.2.1 X f.2.1) (h3 : ExactFeature G c t.2.2 X f.2.2) :
    (Useful c t X → ratio llt i12 i13 i23 f =
      .ok (some (dist3 (c t.1) (c t.2.2) / dist3 (c t.1) (c t.2.1), dist3 (c t.2.1) (c t.2.2) / dist3 (c t.1) (c t.2.1)))) ∧
    (¬ Useful c t X → ratio llt i12 i13 i23 f = .ok none) := by
  have d12 := depths_exact hl hG h12 h1 h2
  have d13 := depths_exact hl hG h13 h1 h3
  have d23 := depths_exact hl hG h23 h2 h3
  have hd1 := dist3_pos (normalize_feature hG h1).1
  have hd2 := dist3_pos (normalize_feature hG h2).1
  have b12 := dist3_pos h12.1
  have b13 := dist3_pos h13.1
  have b23 := dist3_pos h23.1
  constructor
  · rintro ⟨w12, w13, w23⟩
    simp only [ratio]
    rw [d12.1 w12, d13.1 w13, d23.1 w23]
    have n1 : dist3 (c t.1) X / dist3 (c t.1) (c t.2.2) ≠ 0 := (div_pos hd1 b13).ne'
    have n2 : dist3 (c t.2.1) X / dist3 (c t.2.1) (c t.2.2) ≠ 0 := (div_pos hd2 b23).ne'
    simp only [n1, n2, or_self, if_false]
    congr 3
    · field_simp
    · field_simp
  · intro hno
    simp only [ratio]
    by_cases w12 : WellSeen c t.1 t.2.1 X
    · rw [d12.1 w12]
      by_cases w13 : WellSeen c t.1 t.2.2 X
      · rw [d13.1 w13]
        by_cases w23 : WellSeen c t.2.1 t.2.2 X
        · exact absurd ⟨w12, w13, w23⟩ hno
        · rw [d23.2 w23]
      · rw [d13.2 w13]
    · rw [d12.2 w12]

theorem ratios_exact (hl : Cholesky llt) (hG : ∀ v, (G v).IsRotation)
    (h12 : ExactPose G c t.1 t.2.1 i12.rotation i12.position) (h13 : ExactPose G c t.1 t.2.2 i13.rotation i13.position)
    (h23 : ExactPose G c t.2.1 t.2.2 i23.rotation i23.position) {X : Nat → V3 ℝ} {p1 p2 p3 : Nat → V2} :
    ∀ (tracks : List Nat), (∀ k ∈ tracks, ExactFeature G c t.1 (X k) (p1 k) ∧ ExactFeature G c t.2.1 (X k) (p2 k) ∧
      ExactFeature G c t.2.2 (X k) (p3 k)) →
    ∃ n, ratios llt i12 i13 i23 ((tracks.map p1).zip ((tracks.map p2).zip (tracks.map p3))) =
      .ok (List.replicate n
        (dist3 (c t.1) (c t.2.2) / dist3 (c t.1) (c t.2.1), dist3 (c t.2.1) (c t.2.2) / dist3 (c t.1) (c t.2.1))) ∧
      (n = 0 ↔ ∀ k ∈ tracks, ¬ Useful c t (X k))
  | [], _ => ⟨0, rfl, by simp⟩
  | k :: ks, h => by
    obtain ⟨n, hn, hz⟩ := ratios_exact hl hG h12 h13 h23 ks (fun k' hk' => h k' (List.mem_cons_of_mem _ hk'))
    obtain ⟨e1, e2, e3⟩ := h k List.mem_cons_self
    have hr := ratio_exact hl hG h12 h13 h23 (f := (p1 k, p2 k, p3 k)) e1 e2 e3
    simp only [List.map_cons, List.zip_cons_cons, ratios]
    by_cases hu : Useful c t (X k)
    · refine ⟨n + 1, ?_, ?_⟩
      · rw [hr.1 hu, hn]
        rfl
      · constructor
        · intro h0
          exact absurd h0 (Nat.succ_ne_zero n)
        · intro hall
          exact absurd hu (hall k List.mem_cons_self)
    · refine ⟨n, ?_, ?_⟩
      · rw [hr.2 hu, hn]
        rfl
      · rw [hz]
        constructor
        · intro hall k' hk'
          rcases List.mem_cons.1 hk' with rfl | hk'
          · exact hu
          · exact hall k' hk'
        · intro hall k' hk'
          exact hall k' (List.mem_cons_of_mem _ hk')

theorem median_replicate (x : ℝ) {n : Nat} (hn : n ≠ 0) : median (List.replicate n x) = .ok x := by
  have h : ((List.replicate n x).insertionSort (· ≤ ·)) = List.replicate n x :=
    List.eq_replicate_of_mem (fun b hb => List.eq_of_mem_replicate ((List.mem_insertionSort _).1 hb)) |>.trans (by
      rw [List.length_insertionSort, List.length_replicate])
  rw [median, h, List.length_replicate, List.getElem?_replicate, if_pos (by omega)]

theorem fromRatios_replicate (x : ℝ × ℝ) (n : Nat) :
    fromRatios (List.replicate n x) = if n = 0 then .ok none else .ok (some ⟨1, x.1, x.2⟩) := by
  unfold fromRatios
  rw [List.length_replicate]
  by_cases hn : n = 0
  · rw [if_pos hn, if_pos hn]
  · rw [if_neg hn, if_neg hn, List.map_replicate, List.map_replicate, median_replicate _ hn, median_replicate _ hn]

end BaselineRatios
end Theia
