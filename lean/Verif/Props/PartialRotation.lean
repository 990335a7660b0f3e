import Verif.Proof.PartialRotation
import Verif.Proof.LastSingular

/-!
# C99: what the solvers for poses with a known axis guarantee
-/

namespace Theia
namespace PartialRotation

open Spec LinearSolvers

/-- The solvers abort exactly when the square of the length of the axis is more than 1e-15 away from one. -/
theorem C99_abort (eigen3 : EigenPairs 3) (eigen4 : EigenPairs 4) (eigen5 : EigenPairs 5) (last3 : List (Fin 3 → ℝ) → Fin 3 → ℝ)
    (last4 : List (Fin 4 → ℝ) → Fin 4 → ℝ) (kernel : Kernel 5) (axis : V3 ℝ) :
    (∀ q1 q2, ((∃ l, threePoint eigen3 last3 axis q1 q2 = .ok l) ↔ |axis.dot axis - 1| ≤ 1 / 10 ^ 15) ∧
      (threePoint eigen3 last3 axis q1 q2 = .abort ↔ 1 / 10 ^ 15 < |axis.dot axis - 1|)) ∧
    (∀ r1 r2, ((∃ l, fourPoint eigen4 last4 axis r1 r2 = .ok l) ↔ |axis.dot axis - 1| ≤ 1 / 10 ^ 15) ∧
      (fourPoint eigen4 last4 axis r1 r2 = .abort ↔ 1 / 10 ^ 15 < |axis.dot axis - 1|)) ∧
    (∀ r1 r2 scales, ((∃ l, simTransform eigen5 kernel axis r1 r2 scales = .ok l) ↔ |axis.dot axis - 1| ≤ 1 / 10 ^ 15) ∧
      (simTransform eigen5 kernel axis r1 r2 scales = .abort ↔ 1 / 10 ^ 15 < |axis.dot axis - 1|)) := by
  have gen : ∀ {α : Type} (o : Outcome α), (AxisOk axis → ∃ l, o = .ok l) → (¬ AxisOk axis → o = .abort) →
      ((∃ l, o = .ok l) ↔ |axis.dot axis - 1| ≤ 1 / 10 ^ 15) ∧ (o = .abort ↔ 1 / 10 ^ 15 < |axis.dot axis - 1|) := by
    intro α o h1 h2
    rw [← not_le]
    change ((∃ l, o = .ok l) ↔ AxisOk axis) ∧ (o = .abort ↔ ¬ AxisOk axis)
    by_cases h : AxisOk axis
    · obtain ⟨l, rfl⟩ := h1 h
      simp [h]
    · rw [h2 h]; simp [h]
  refine ⟨fun q1 q2 => gen _ (fun h => ?_) fun h => ?_, fun r1 r2 => gen _ (fun h => ?_) fun h => ?_,
    fun r1 r2 scales => gen _ (fun h => ?_) fun h => ?_⟩
  · rw [threePoint, if_neg (not_not.2 h)]
    split <;> exact ⟨_, rfl⟩
  · rw [threePoint, if_pos h]
  · rw [fourPoint, if_neg (not_not.2 h)]
    dsimp only
    split
    · exact ⟨_, rfl⟩
    · split <;> exact ⟨_, rfl⟩
  · rw [fourPoint, if_pos h]
  · rw [simTransform, if_neg (not_not.2 h)]
    dsimp only
    split
    · exact ⟨_, rfl⟩
    · split
      · split <;> exact ⟨_, rfl⟩
      · exact ⟨_, rfl⟩
  · rw [simTransform, if_pos h]

/-- All rotations are about the axis. -/
theorem C99_about_axis {eigen3 : EigenPairs 3} {eigen4 : EigenPairs 4} {eigen5 : EigenPairs 5} {last3 : List (Fin 3 → ℝ) → Fin 3 → ℝ}
    {last4 : List (Fin 4 → ℝ) → Fin 4 → ℝ} {kernel : Kernel 5} {axis : V3 ℝ} :
    (∀ q1 q2 l, threePoint eigen3 last3 axis q1 q2 = .ok l → ∀ x ∈ l, TurnsAbout axis x.1) ∧
    (∀ r1 r2 l, fourPoint eigen4 last4 axis r1 r2 = .ok l → ∀ x ∈ l, TurnsAbout axis x.1) ∧
    (∀ r1 r2 scales l, simTransform eigen5 kernel axis r1 r2 scales = .ok l → ∀ x ∈ l.1, TurnsAbout axis x.1) := by
  refine ⟨fun q1 q2 l h x hx => ?_, fun r1 r2 l h x hx => ?_, fun r1 r2 scales l h x hx => ?_⟩
  · rw [threePoint] at h
    by_cases ha : AxisOk axis
    · rw [if_neg (not_not.2 ha)] at h
      split at h
      · cases h
        obtain ⟨p, -, hx⟩ := List.mem_flatMap.1 hx
        simp only [List.mem_cons, List.not_mem_nil, or_false] at hx
        rcases hx with rfl | rfl <;> exact turnsAbout_normalized ha _
      · cases h
        simp only [List.mem_cons, List.not_mem_nil, or_false] at hx
        rcases hx with rfl | rfl <;> exact turnsAbout_none _
    · rw [if_pos ha] at h; cases h
  · rw [fourPoint] at h
    by_cases ha : AxisOk axis
    · rw [if_neg (not_not.2 ha)] at h
      split at h
      · cases h
        obtain ⟨p, -, rfl⟩ := List.mem_map.1 hx
        exact turnsAbout_normalized ha _
      · dsimp only at h
        split at h <;> cases h
        · simp only [List.mem_cons, List.not_mem_nil, or_false] at hx
          subst hx; exact turnsAbout_none _
        · simp at hx
    · rw [if_pos ha] at h; cases h
  · rw [simTransform] at h
    by_cases ha : AxisOk axis
    · rw [if_neg (not_not.2 ha)] at h
      split at h
      · cases h
        obtain ⟨p, -, rfl⟩ := List.mem_map.1 hx
        exact turnsAbout_normalized ha _
      · split at h
        · split at h <;> cases h
          · simp only [List.mem_cons, List.not_mem_nil, or_false] at hx
            subst hx; exact turnsAbout_none _
          · simp at hx
        · cases h; simp at hx
    · rw [if_pos ha] at h; cases h

/-! ### Three points -/

theorem vec3_head (t : V3 ℝ) : vec3 (n := 0) (head t) = t := rfl

theorem kept3_real {n : Nat} {p : EigenPair n} (h : p.im = 0) : kept3 p := by
  rw [kept3, h]; norm_num

theorem dot_vec3 (x : Fin 3 → ℝ) : (vec3 (n := 0) x).dot (vec3 (n := 0) x) = ∑ i, x i ^ 2 := by
  rw [Fin.sum_univ_three]
  simp only [vec3, V3.dot]
  simp only [Nat.reduceAdd, Fin.zero_eta, Fin.mk_one, Fin.reduceFinMk]
  ring

/-- Three points: if a turn about the axis and a translation explain the rays, and no translation in another direction does so with this
turn, then the turn is found, with the translation in both directions. The length of the translation is the sine of half the angle. -/
theorem C99_three_finds {eigen : EigenPairs 3} (he : EigenPairsOf eigen) (last : List (Fin 3 → ℝ) → Fin 3 → ℝ) {axis : V3 ℝ}
    (ha : axis.dot axis = 1) {q1 q2 : Fin 3 → V3 ℝ} {q : Quaternion} {t : V3 ℝ} (hq : TurnsAbout axis q) (h0 : q.v ≠ ⟨0, 0, 0⟩)
    (ht : t ≠ ⟨0, 0, 0⟩) (hfit : ∀ i, DirectionsInPlane q t (q1 i) (q2 i))
    (hunique : ∀ t', (∀ i, DirectionsInPlane q t' (q1 i) (q2 i)) → ∃ c, t' = t.smul c) (hdet : 1 / 10 ^ 12 < |(m3 q1 q2).det|) :
    ∃ l q' c, threePoint eigen last axis q1 q2 = .ok l ∧ SameTurn q' q ∧ 0 < c ∧ (t.smul c).dot (t.smul c) = q.v.dot q.v ∧
      (q', t.smul c) ∈ l ∧ (q', t.smul (-c)) ∈ l := by
  obtain ⟨s, hs, hsame⟩ := parameter_of ha hq h0
  have hd : (m3 q1 q2).det ≠ 0 := by
    intro e; rw [e, abs_zero] at hdet; norm_num at hdet
  have tr : ∀ t', (∀ i, DirectionsInPlane (normalized s axis) t' (q1 i) (q2 i)) ↔ ∀ i, DirectionsInPlane q t' (q1 i) (q2 i) := by
    intro t'; simp only [DirectionsInPlane, hsame _]
  have hx : head t ≠ 0 := by
    intro e
    apply ht
    rw [← vec3_head t, e]; rfl
  obtain ⟨p, hp, hre, him⟩ := found he hd hx ((quad3_iff ha q1 q2 s (head t)).2 (by rw [vec3_head, tr]; exact hfit))
  obtain ⟨hk, hn⟩ := real_pair he hd hp him
  rw [hre] at hk hn
  obtain ⟨c, hc⟩ := hunique _ ((tr _).1 ((quad3_iff ha q1 q2 s p.tail).1 hk))
  have hlen : (t.smul c).dot (t.smul c) = q.v.dot q.v := by
    rw [← hc, dot_vec3]
    have h1 : (s ^ 2 + 1) ≠ 0 := by positivity
    exact mul_left_cancel₀ h1 (hn.trans hs.symm)
  have hc0 : c ≠ 0 := by
    rintro rfl
    have : q.v.dot q.v = 0 := by rw [← hlen]; simp [V3.smul, V3.dot]
    rw [this] at hs; simp at hs
  have hmem : ∀ x, x = (normalized s axis, t.smul c) ∨ x = (normalized s axis, t.smul (-c)) →
      ∃ l, threePoint eigen last axis q1 q2 = .ok l ∧ x ∈ l := by
    intro x hx
    refine ⟨_, by rw [threePoint, if_neg (not_not.2 (axisOk_of_unit ha)), if_pos hdet], ?_⟩
    refine List.mem_flatMap.2 ⟨p, List.mem_filter.2 ⟨hp, by simpa using kept3_real him⟩, ?_⟩
    have hneg : (t.smul c).neg = t.smul (-c) := by ext <;> simp [V3.smul, V3.neg]
    rw [hre, hc, hneg]
    simpa using hx
  obtain ⟨l, hl, m1⟩ := hmem _ (Or.inl rfl)
  obtain ⟨l', hl', m2⟩ := hmem _ (Or.inr rfl)
  rw [hl] at hl'
  cases hl'
  rcases lt_or_gt_of_ne hc0 with hneg | hpos
  · refine ⟨l, _, -c, hl, hsame, by linarith, ?_, m2, by rwa [neg_neg]⟩
    rw [← hlen]; simp [V3.smul, V3.dot]
  · exact ⟨l, _, c, hl, hsame, hpos, hlen, m1, m2⟩

theorem m3_iff (q1 q2 : Fin 3 → V3 ℝ) (x : Fin 3 → ℝ) :
    (m3 q1 q2).mulVec x = 0 ↔ ∀ i, (q2 i).dot ((vec3 (n := 0) x).cross (q1 i)) = 0 := by
  rw [funext_iff]
  refine forall_congr' fun i => ?_
  rw [← neg_eq_zero]
  refine Eq.congr_left ?_
  simp only [Matrix.mulVec, dotProduct, Fin.sum_univ_three, m3, head, vec3, V3.dot, V3.cross, Matrix.cons_val_zero, Matrix.cons_val_one,
    Matrix.cons_val, Fin.zero_eta, Fin.mk_one, Fin.reduceFinMk]
  ring

/-- Three points without rotation: the translation is found with length one, in both directions. -/
theorem C99_three_no_rotation (eigen : EigenPairs 3) {last : List (Fin 3 → ℝ) → Fin 3 → ℝ} (hl : LastSingularVector last) {axis : V3 ℝ}
    (ha : axis.dot axis = 1) {q1 q2 : Fin 3 → V3 ℝ} {t : V3 ℝ} (ht : t.dot t = 1) (hfit : ∀ i, (q2 i).dot (t.cross (q1 i)) = 0)
    (hunique : ∀ t' : V3 ℝ, (∀ i, (q2 i).dot (t'.cross (q1 i)) = 0) → ∃ c, t' = t.smul c) :
    ∃ l, threePoint eigen last axis q1 q2 = .ok l ∧ (l = [(noRotation, t), (noRotation, t.neg)] ∨ l = [(noRotation, t.neg), (noRotation, t)]) := by
  have hd : (m3 q1 q2).det = 0 := by
    refine Matrix.exists_mulVec_eq_zero_iff.1 ⟨head t, ?_, (m3_iff _ _ _).2 hfit⟩
    intro e
    have : t = ⟨0, 0, 0⟩ := by rw [← vec3_head t, e]; rfl
    rw [this] at ht; norm_num [V3.dot] at ht
  obtain ⟨h1, h2⟩ := last_null hl hd
  obtain ⟨c, hc⟩ := hunique _ ((m3_iff _ _ _).1 h1)
  have hcc : c * c = 1 := by
    rw [← dot_vec3, hc] at h2
    have : (t.smul c).dot (t.smul c) = c * c * t.dot t := by simp only [V3.dot, V3.smul]; ring
    rw [this, ht, mul_one] at h2
    exact h2
  refine ⟨_, by rw [threePoint, if_neg (not_not.2 (axisOk_of_unit ha)), if_neg (by rw [hd]; norm_num)], ?_⟩
  rw [hc]
  rcases mul_self_eq_one_iff.1 hcc with rfl | rfl
  · left
    have : t.smul 1 = t := by ext <;> simp [V3.smul]
    rw [this]
  · right
    have : t.smul (-1) = t.neg := by ext <;> simp [V3.smul, V3.neg]
    rw [this]
    have : t.neg.neg = t := by ext <;> simp [V3.neg]
    rw [this]

/-- Three points, when all eigenvalues are real or have imaginary part one, and the matrix of the problem without rotation is singular or
well above the threshold: all solutions explain all rays and have a translation. -/
theorem C99_three_sound_partial {eigen : EigenPairs 3} (he : EigenPairsOf eigen) {last : List (Fin 3 → ℝ) → Fin 3 → ℝ}
    (hl : LastSingularVector last) {axis : V3 ℝ} (ha : axis.dot axis = 1) {q1 q2 : Fin 3 → V3 ℝ}
    (hdet : (m3 q1 q2).det = 0 ∨ 1 / 10 ^ 12 < |(m3 q1 q2).det|)
    (hreal : ∀ p ∈ eigen (constraint (m3 q1 q2) (c3 axis q1 q2) (k3 axis q1 q2)), p.im = 0 ∨ |p.im| = 1)
    {l : List (Quaternion × V3 ℝ)} (h : threePoint eigen last axis q1 q2 = .ok l) :
    ∀ x ∈ l, x.2 ≠ ⟨0, 0, 0⟩ ∧ ∀ i, DirectionsInPlane x.1 x.2 (q1 i) (q2 i) := by
  have hneg : ∀ (q : Quaternion) (t : V3 ℝ), (t ≠ ⟨0, 0, 0⟩ ∧ ∀ i, DirectionsInPlane q t (q1 i) (q2 i)) →
      t.neg ≠ ⟨0, 0, 0⟩ ∧ ∀ i, DirectionsInPlane q t.neg (q1 i) (q2 i) := by
    rintro q t ⟨h1, h2⟩
    refine ⟨fun e => h1 ?_, fun i => ?_⟩
    · rw [V3.ext_iff] at e ⊢
      simpa [V3.neg] using e
    · have := h2 i
      rw [DirectionsInPlane] at this ⊢
      rw [← neg_eq_zero, ← this]
      simp only [V3.dot, V3.cross, V3.neg]; ring
  have hne : ∀ x : Fin 3 → ℝ, ∑ i, x i ^ 2 ≠ 0 → vec3 (n := 0) x ≠ ⟨0, 0, 0⟩ := by
    intro x hx e
    rw [← dot_vec3, e] at hx
    simp [V3.dot] at hx
  rw [threePoint, if_neg (not_not.2 (axisOk_of_unit ha))] at h
  rcases hdet with hd | hd
  · rw [if_neg (by rw [hd]; norm_num)] at h
    cases h
    obtain ⟨h1, h2⟩ := last_null hl hd
    have h3 : vec3 (n := 0) (last (rows (m3 q1 q2))) ≠ ⟨0, 0, 0⟩ ∧
        ∀ i, DirectionsInPlane noRotation (vec3 (n := 0) (last (rows (m3 q1 q2)))) (q1 i) (q2 i) := by
      refine ⟨hne _ (by rw [h2]; norm_num), fun i => ?_⟩
      rw [DirectionsInPlane, turn_none]
      exact (m3_iff _ _ _).1 h1 i
    intro x hx
    simp only [List.mem_cons, List.not_mem_nil, or_false] at hx
    rcases hx with rfl | rfl
    · exact h3
    · exact hneg _ _ h3
  · rw [if_pos hd] at h
    have hd0 : (m3 q1 q2).det ≠ 0 := by
      intro e; rw [e, abs_zero] at hd; norm_num at hd
    cases h
    intro x hx
    obtain ⟨p, hp, hx⟩ := List.mem_flatMap.1 hx
    obtain ⟨hp, hk⟩ := List.mem_filter.1 hp
    have him : p.im = 0 := by
      refine (hreal p hp).resolve_right fun e => ?_
      have hk : kept3 p := by simpa using hk
      apply hk
      rcases (abs_eq zero_le_one).1 e with e | e
      · left; rw [e]; norm_num
      · right; rw [e]; norm_num
    obtain ⟨h1, h2⟩ := real_pair he hd0 hp him
    have h3 : vec3 (n := 0) p.tail ≠ ⟨0, 0, 0⟩ ∧ ∀ i, DirectionsInPlane (normalized p.re axis) (vec3 (n := 0) p.tail) (q1 i) (q2 i) :=
      ⟨hne _ fun e => by rw [e] at h2; simp at h2, (quad3_iff ha q1 q2 _ _).1 h1⟩
    simp only [List.mem_cons, List.not_mem_nil, or_false] at hx
    rcases hx with rfl | rfl
    · exact h3
    · exact hneg _ _ h3

/-! ### Four points -/

/-- Four points: if a turn about the axis and a translation bring the rays together, and no other translation does so with this turn,
then the turn is found with this translation. -/
theorem C99_four_finds {eigen : EigenPairs 4} (he : EigenPairsOf eigen) (last : List (Fin 4 → ℝ) → Fin 4 → ℝ) {axis : V3 ℝ}
    (ha : axis.dot axis = 1) {r1 r2 : Fin 4 → Ray} {q : Quaternion} {t : V3 ℝ} (hq : TurnsAbout axis q)
    (h0 : t.dot t + 1 < 10 ^ 14 * q.v.dot q.v) (hfit : ∀ i, RaysMeet q t 1 (r1 i) (r2 i))
    (hunique : ∀ t', (∀ i, RaysInPlane q t' 1 (r1 i) (r2 i)) → t' = t) (hdet : 1 / 10 ^ 7 < |(m4 r1 r2).det|) :
    ∃ l q', fourPoint eigen last axis r1 r2 = .ok l ∧ SameTurn q' q ∧ (q', t) ∈ l := by
  have htt : 0 ≤ t.dot t := by simp only [V3.dot]; nlinarith [mul_self_nonneg t.x, mul_self_nonneg t.y, mul_self_nonneg t.z]
  have hq0 : q.v ≠ ⟨0, 0, 0⟩ := by
    intro e; rw [e] at h0; simp only [V3.dot] at h0 htt; norm_num at h0; linarith
  obtain ⟨s, hs, hsame⟩ := parameter_of ha hq hq0
  have hd : (m4 r1 r2).det ≠ 0 := by
    intro e; rw [e, abs_zero] at hdet; norm_num at hdet
  have tr : ∀ t', (∀ i, RaysInPlane (normalized s axis) t' 1 (r1 i) (r2 i)) ↔ ∀ i, RaysInPlane q t' 1 (r1 i) (r2 i) := by
    intro t'; simp only [RaysInPlane, hsame _]
  have hfit' := (quad4_iff ha r1 r2 s t).2 ((tr t).2 fun i => rays_of_meet (hfit i))
  obtain ⟨p, hp, hre, him⟩ := found he hd (x := row4 t 1) (fun e => by simpa [row4] using congrFun e 3) hfit'
  obtain ⟨hk, hn⟩ := real_pair he hd hp him
  rw [hre] at hk hn
  have hline := line4 hfit' (fun t' ht' => hunique t' ((tr t').1 ((quad4_iff ha r1 r2 s t').1 ht'))) hk
  have hsum : ∑ i, p.tail i ^ 2 = p.tail 3 ^ 2 * (t.dot t + 1) := by
    rw [V3.ext_iff] at hline
    obtain ⟨e1, e2, e3⟩ := hline
    simp only [vec3, V3.smul, Fin.zero_eta, Fin.mk_one, Fin.reduceFinMk] at e1 e2 e3
    rw [Fin.sum_univ_four, e1, e2, e3]
    simp only [V3.dot]; ring
  have hw : 1 / 10 ^ 7 < |p.tail 3| := by
    rw [hsum] at hn
    have hv : q.v.dot q.v = p.tail 3 ^ 2 * (t.dot t + 1) := mul_left_cancel₀ (by positivity : s ^ 2 + 1 ≠ 0) (hs.trans hn.symm)
    rw [hv] at h0
    have hlt : 1 < 10 ^ 14 * p.tail 3 ^ 2 := by
      by_contra hh
      push Not at hh
      nlinarith
    refine lt_of_pow_lt_pow_left₀ 2 (abs_nonneg _) ?_
    rw [sq_abs]
    norm_num at hlt ⊢
    linarith
  refine ⟨_, normalized s axis, by rw [fourPoint, if_neg (not_not.2 (axisOk_of_unit ha)), if_pos hdet], hsame, ?_⟩
  refine List.mem_map.2 ⟨p, List.mem_filter.2 ⟨hp, ?_⟩, ?_⟩
  · simp only [decide_eq_true_eq]
    refine ⟨?_, hw⟩
    rw [kept4, him]; norm_num
  · have h3 : p.tail 3 ≠ 0 := by intro e; rw [e, abs_zero] at hw; norm_num at hw
    rw [hre, hline]
    refine congrArg (Prod.mk _) ?_
    ext <;> simp only [V3.smul] <;> field_simp

theorem m4_iff (r1 r2 : Fin 4 → Ray) (t : V3 ℝ) :
    (m4 r1 r2).mulVec (row4 t 1) = 0 ↔ ∀ i, RaysInPlane noRotation t 1 (r1 i) (r2 i) := by
  rw [funext_iff]
  refine forall_congr' fun i => ?_
  rw [RaysInPlane, turn_none, turn_none, ← neg_eq_zero]
  refine Eq.congr_left ?_
  simp only [Matrix.mulVec, dotProduct, Fin.sum_univ_four, m4, row4, Ray.moment, V3.dot, V3.cross, V3.neg, V3.smul, V3.add, V3.sub,
    Matrix.cons_val_zero, Matrix.cons_val_one, Matrix.cons_val]
  ring

/-- Four points without rotation: the translation is found, and nothing else. -/
theorem C99_four_no_rotation (eigen : EigenPairs 4) {last : List (Fin 4 → ℝ) → Fin 4 → ℝ} (hl : LastSingularVector last) {axis : V3 ℝ}
    (ha : axis.dot axis = 1) {r1 r2 : Fin 4 → Ray} {t : V3 ℝ} (h0 : t.dot t + 1 < 10 ^ 14)
    (hfit : ∀ i, RaysMeet noRotation t 1 (r1 i) (r2 i))
    (hunique : ∀ t', (∀ i, RaysInPlane noRotation t' 1 (r1 i) (r2 i)) → t' = t) :
    fourPoint eigen last axis r1 r2 = .ok [(noRotation, t)] := by
  have hfit' := (m4_iff r1 r2 t).2 fun i => rays_of_meet (hfit i)
  have hd : (m4 r1 r2).det = 0 :=
    Matrix.exists_mulVec_eq_zero_iff.1 ⟨_, (fun e => by simpa [row4] using congrFun e 3), hfit'⟩
  obtain ⟨h1, h2⟩ := last_null hl hd
  rw [fourPoint, if_neg (not_not.2 (axisOk_of_unit ha)), if_neg (by rw [hd]; norm_num)]
  have hline := line4 hfit' (fun t' ht' => hunique t' ((m4_iff r1 r2 t').1 ht')) h1
  generalize last (rows (m4 r1 r2)) = x at h2 hline
  have hsum : ∑ i, x i ^ 2 = x 3 ^ 2 * (t.dot t + 1) := by
    rw [V3.ext_iff] at hline
    obtain ⟨e1, e2, e3⟩ := hline
    simp only [vec3, V3.smul, Fin.zero_eta, Fin.mk_one, Fin.reduceFinMk] at e1 e2 e3
    rw [Fin.sum_univ_four, e1, e2, e3]
    simp only [V3.dot]; ring
  have hw : 1 / 10 ^ 7 < |x 3| := by
    rw [hsum] at h2
    have htt : 0 ≤ t.dot t := by simp only [V3.dot]; nlinarith [mul_self_nonneg t.x, mul_self_nonneg t.y, mul_self_nonneg t.z]
    have hlt : 1 < 10 ^ 14 * x 3 ^ 2 := by
      by_contra hh
      push Not at hh
      nlinarith [sq_nonneg (x 3)]
    refine lt_of_pow_lt_pow_left₀ 2 (abs_nonneg _) ?_
    rw [sq_abs]
    norm_num at hlt ⊢
    linarith
  have h3 : x 3 ≠ 0 := by intro e; rw [e, abs_zero] at hw; norm_num at hw
  dsimp only
  rw [if_pos hw, hline]
  refine congrArg (fun y => Outcome.ok [(noRotation, y)]) ?_
  ext <;> simp only [V3.smul] <;> field_simp

/-- Four points, when no eigenvalue that is not real is within the tolerance, and the matrix of the problem without rotation is singular
or well above the threshold: with all solutions each pair of rays is in a plane. -/
theorem C99_four_sound_partial {eigen : EigenPairs 4} (he : EigenPairsOf eigen) {last : List (Fin 4 → ℝ) → Fin 4 → ℝ}
    (hl : LastSingularVector last) {axis : V3 ℝ} (ha : axis.dot axis = 1) {r1 r2 : Fin 4 → Ray}
    (hdet : (m4 r1 r2).det = 0 ∨ 1 / 10 ^ 7 < |(m4 r1 r2).det|)
    (hreal : ∀ p ∈ eigen (constraint (m4 r1 r2) (c4 axis r1 r2) (k4 axis r1 r2)), p.im = 0 ∨ 1 / 10 ^ 9 ≤ |p.im|)
    {l : List (Quaternion × V3 ℝ)} (h : fourPoint eigen last axis r1 r2 = .ok l) :
    ∀ x ∈ l, ∀ i, RaysInPlane x.1 x.2 1 (r1 i) (r2 i) := by
  have scale : ∀ (A : Matrix (Fin 4) (Fin 4) ℝ) (x : Fin 4 → ℝ), 1 / 10 ^ 7 < |x 3| → A.mulVec x = 0 →
      A.mulVec (row4 ((vec3 (n := 1) x).smul (x 3)⁻¹) 1) = 0 := by
    intro A x hx hA
    have h3 : x 3 ≠ 0 := by intro e; rw [e, abs_zero] at hx; norm_num at hx
    have e : row4 ((vec3 (n := 1) x).smul (x 3)⁻¹) 1 = (x 3)⁻¹ • x := by
      funext i
      fin_cases i
      · rfl
      · rfl
      · rfl
      · exact (inv_mul_cancel₀ h3).symm
    rw [e, Matrix.mulVec_smul, hA, smul_zero]
  rw [fourPoint, if_neg (not_not.2 (axisOk_of_unit ha))] at h
  rcases hdet with hd | hd
  · rw [if_neg (by rw [hd]; norm_num)] at h
    obtain ⟨h1, -⟩ := last_null hl hd
    dsimp only at h
    split at h
    · rename_i hw
      cases h
      intro x hx
      simp only [List.mem_cons, List.not_mem_nil, or_false] at hx
      subst hx
      exact (m4_iff r1 r2 _).1 (scale _ _ hw h1)
    · cases h; simp
  · rw [if_pos hd] at h
    have hd0 : (m4 r1 r2).det ≠ 0 := by
      intro e; rw [e, abs_zero] at hd; norm_num at hd
    cases h
    intro x hx
    obtain ⟨p, hp, rfl⟩ := List.mem_map.1 hx
    obtain ⟨hp, hk⟩ := List.mem_filter.1 hp
    have hk : kept4 p ∧ 1 / 10 ^ 7 < |p.tail 3| := by simpa using hk
    have him : p.im = 0 := (hreal p hp).resolve_right fun e => absurd hk.1 (not_lt.2 e)
    obtain ⟨h1, -⟩ := real_pair he hd0 hp him
    exact (quad4_iff ha r1 r2 _ _).1 (scale _ _ hk.2 h1)

/-! ### Five points, with a scale -/

/-- Five points: if a turn about the axis, a translation and a scale that is not negative bring the rays together, and no other translation
and scale do so with this turn, then the turn is found with this translation and scale, unless an eigenvalue that is not real but has the
same real part comes first. -/
theorem C99_sim_finds {eigen : EigenPairs 5} (he : EigenPairsOf eigen) (kernel : Kernel 5) {axis : V3 ℝ}
    (ha : axis.dot axis = 1) {r1 r2 : Fin 5 → Ray} {s : ℝ} {t : V3 ℝ} {k : ℝ} (hk0 : 0 ≤ k)
    (h0 : (s ^ 2 + 1) * (t.dot t + k ^ 2 + 1) ≤ 10 ^ 24) (hfit : ∀ i, RaysMeet (normalized s axis) t k (r2 i) (r1 i))
    (hunique : ∀ t' k', (∀ i, RaysInPlane (normalized s axis) t' k' (r2 i) (r1 i)) → t' = t ∧ k' = k) (hdet : (m5 r1 r2).det ≠ 0)
    (hfirst : FirstReal s (eigen (constraint (m5 r1 r2) (c5 axis r1 r2) (k5 axis r1 r2)))) :
    ∃ ps ks, simTransform eigen kernel axis r1 r2 [] = .ok (ps, ks) ∧ ((normalized s axis, t), k) ∈ ps.zip ks := by
  have hfit' := (quad5_iff ha r1 r2 s t k).2 fun i => rays_of_meet (hfit i)
  obtain ⟨before, p, after, hl, hre, him, hb⟩ := hfirst
  have hp : p ∈ eigen (constraint (m5 r1 r2) (c5 axis r1 r2) (k5 axis r1 r2)) := by rw [hl]; simp
  obtain ⟨hk, hn⟩ := real_pair he hdet hp him
  rw [hre] at hk hn
  obtain ⟨hline, hscale⟩ := line5 hfit' (fun t' k' h' => hunique t' k' ((quad5_iff ha r1 r2 s t' k').1 h')) hk
  have hsum : ∑ i, p.tail i ^ 2 = p.tail 4 ^ 2 * (t.dot t + k ^ 2 + 1) := by
    rw [V3.ext_iff] at hline
    obtain ⟨e1, e2, e3⟩ := hline
    simp only [vec3, V3.smul, Fin.zero_eta, Fin.mk_one, Fin.reduceFinMk] at e1 e2 e3
    rw [Fin.sum_univ_five, e1, e2, e3, hscale]
    simp only [V3.dot]; ring
  have hw : 1 / 10 ^ 12 ≤ |p.tail 4| := by
    rw [hsum] at hn
    have hlt : 1 ≤ 10 ^ 24 * p.tail 4 ^ 2 := by
      have := mul_le_mul_of_nonneg_left h0 (sq_nonneg (p.tail 4))
      nlinarith
    refine le_of_sq_le_sq ?_ (abs_nonneg _)
    rw [sq_abs]
    norm_num at hlt ⊢
    linarith
  have h4 : p.tail 4 ≠ 0 := by intro e; rw [e, abs_zero] at hw; norm_num at hw
  have hquot : p.tail 3 / p.tail 4 = k := by rw [hscale]; field_simp
  refine ⟨_, _, by rw [simTransform, if_neg (not_not.2 (axisOk_of_unit ha)), if_pos hdet], ?_⟩
  rw [List.nil_append, List.zip_map']
  refine List.mem_map.2 ⟨p, List.mem_filter.2 ⟨?_, ?_⟩, ?_⟩
  · rw [hl]; exact kept5_first before hre him hb none (by simp)
  · simp only [decide_eq_true_eq, not_or, not_lt]
    exact ⟨hw, by rw [hquot]; exact hk0⟩
  · rw [hquot, hre, hline]
    refine congrArg (fun y => ((normalized s axis, y), k)) ?_
    ext <;> simp only [V3.smul] <;> field_simp

theorem m5_iff (r1 r2 : Fin 5 → Ray) (t : V3 ℝ) (k : ℝ) :
    (m5 r1 r2).mulVec (row5 t k 1) = 0 ↔ ∀ i, RaysInPlane noRotation t k (r2 i) (r1 i) := by
  rw [funext_iff]
  refine forall_congr' fun i => ?_
  rw [RaysInPlane, turn_none, turn_none]
  refine Eq.congr_left ?_
  simp only [Matrix.mulVec, dotProduct, Fin.sum_univ_five, m5, simRow, row5, V3.dot, V3.cross, V3.smul, V3.add, V3.sub,
    Matrix.cons_val_zero, Matrix.cons_val_one, Matrix.cons_val]
  ring

/-- Five points without rotation: the translation and the scale are found, and nothing else. Here the scale may be negative. -/
theorem C99_sim_no_rotation (eigen : EigenPairs 5) {kernel : Kernel 5} (hker : KernelSolver kernel) {axis : V3 ℝ}
    (ha : axis.dot axis = 1) {r1 r2 : Fin 5 → Ray} {t : V3 ℝ} {k : ℝ} (hfit : ∀ i, RaysMeet noRotation t k (r2 i) (r1 i))
    (hunique : ∀ t' k', (∀ i, RaysInPlane noRotation t' k' (r2 i) (r1 i)) → t' = t ∧ k' = k)
    (hsize : ∀ i, 1 / 10 ^ 12 < |(kernel (rows (m5 r1 r2))).2 i 4|) (scales : List ℝ) :
    simTransform eigen kernel axis r1 r2 scales = .ok ([(noRotation, t)], scales ++ [k]) := by
  have hfit' := (m5_iff r1 r2 t k).2 fun i => rays_of_meet (hfit i)
  have hd : (m5 r1 r2).det = 0 :=
    Matrix.exists_mulVec_eq_zero_iff.1 ⟨_, (fun e => by simpa [row5] using congrFun e 4), hfit'⟩
  have hlines : ∀ x, (m5 r1 r2).mulVec x = 0 → vec3 (n := 2) x = t.smul (x 4) ∧ x 3 = k * x 4 := fun x hx =>
    line5 hfit' (fun t' k' h' => hunique t' k' ((m5_iff r1 r2 t' k').1 h')) hx
  have hrows : ∀ v : Fin 5 → ℝ, (∀ r ∈ rows (m5 r1 r2), ∑ i, r i * v i = 0) ↔ (m5 r1 r2).mulVec v = 0 := by
    intro v
    rw [funext_iff]
    constructor
    · exact fun h i => h _ (mem_rows.2 ⟨i, rfl⟩)
    · intro h r hr
      obtain ⟨i, rfl⟩ := mem_rows.1 hr
      exact h i
  obtain ⟨hind, hspan⟩ := hker (rows (m5 r1 r2))
  rw [simTransform, if_neg (not_not.2 (axisOk_of_unit ha)), if_neg (not_not.2 hd)]
  generalize kernel (rows (m5 r1 r2)) = K at hind hspan hsize
  obtain ⟨n, N⟩ := K
  have hcol : ∀ i, (m5 r1 r2).mulVec (N i) = 0 := by
    intro i
    refine (hrows _).1 ((hspan _).2 ⟨Pi.single i 1, ?_⟩)
    rw [Finset.sum_eq_single i] <;> simp +contextual [Pi.single_apply]
  have hmult : ∀ i, N i = N i 4 • row5 t k 1 := by
    intro i
    obtain ⟨e1, e2⟩ := hlines _ (hcol i)
    rw [← row5_vec (N i), e1, e2]
    funext j; fin_cases j <;> simp [row5, V3.smul, mul_comm]
  have h1 : n = 1 := by
    rcases n with _ | _ | n
    · obtain ⟨c, hc⟩ := (hspan (row5 t k 1)).1 ((hrows _).2 hfit')
      have := congrFun hc 4
      simp [row5] at this
    · rfl
    · exfalso
      have h4 : N 1 4 ≠ 0 := by
        have := hsize 1
        intro e; simp only [e, abs_zero] at this; norm_num at this
      have := hind.eq_of_smul_apply_eq_smul_apply (N 1 4) (N 0 4) 0 1 h4 (by
        change N 1 4 • N 0 = N 0 4 • N 1
        rw [hmult 0, hmult 1, smul_smul, smul_smul]
        simp [row5, mul_comm])
      simp at this
  subst h1
  have hw := hsize 0
  have h4 : N 0 4 ≠ 0 := by
    intro e; simp only [e, abs_zero] at hw; norm_num at hw
  obtain ⟨e1, e2⟩ := hlines _ (hcol 0)
  change (if 1 / 10 ^ 12 < |N 0 4| then Outcome.ok ([(noRotation, (vec3 (n := 2) (N 0)).smul (N 0 4)⁻¹)], scales ++ [N 0 3 / N 0 4])
    else .ok ([], scales)) = _
  rw [if_pos hw, e1, e2]
  have k1 : k * N 0 4 / N 0 4 = k := by field_simp
  have k2 : (t.smul (N 0 4)).smul (N 0 4)⁻¹ = t := by ext <;> simp only [V3.smul] <;> field_simp
  rw [k1, k2]

/-- The similarity: the scales are appended to what was there, one for each rotation, and those from the eigenvalues are not negative. -/
theorem C99_sim_scales {eigen : EigenPairs 5} {kernel : Kernel 5} {axis : V3 ℝ} {r1 r2 : Fin 5 → Ray} {scales : List ℝ}
    {ps : List (Quaternion × V3 ℝ)} {ks : List ℝ} (h : simTransform eigen kernel axis r1 r2 scales = .ok (ps, ks)) :
    ∃ new, ks = scales ++ new ∧ new.length = ps.length ∧ ((m5 r1 r2).det ≠ 0 → ∀ k ∈ new, 0 ≤ k) := by
  rw [simTransform] at h
  split at h
  · cases h
  split at h
  · dsimp only at h
    cases h
    refine ⟨_, rfl, by simp, fun _ k hk => ?_⟩
    obtain ⟨p, hp, rfl⟩ := List.mem_map.1 hk
    have := (List.mem_filter.1 hp).2
    simp only [decide_eq_true_eq, not_or, not_lt] at this
    exact this.2
  · rename_i hd
    split at h
    · split at h
      · cases h
        exact ⟨_, rfl, rfl, fun h => absurd h hd⟩
      · cases h
        exact ⟨[], by simp, rfl, by simp⟩
    · cases h
      exact ⟨[], by simp, rfl, by simp⟩

/-- The similarity, when all eigenvalues are real or have imaginary part one: with all solutions each pair of rays is in a plane. -/
theorem C99_sim_sound_partial {eigen : EigenPairs 5} (he : EigenPairsOf eigen) {kernel : Kernel 5} (hker : KernelSolver kernel)
    {axis : V3 ℝ} (ha : axis.dot axis = 1) {r1 r2 : Fin 5 → Ray}
    (hreal : ∀ p ∈ eigen (constraint (m5 r1 r2) (c5 axis r1 r2) (k5 axis r1 r2)), p.im = 0 ∨ |p.im| = 1)
    {ps : List (Quaternion × V3 ℝ)} {ks : List ℝ} (h : simTransform eigen kernel axis r1 r2 [] = .ok (ps, ks)) :
    ps.length = ks.length ∧ ∀ x ∈ ps.zip ks, ∀ i, RaysInPlane x.1.1 x.1.2 x.2 (r2 i) (r1 i) := by
  have scale : ∀ (A : Matrix (Fin 5) (Fin 5) ℝ) (x : Fin 5 → ℝ), x 4 ≠ 0 → A.mulVec x = 0 →
      A.mulVec (row5 ((vec3 (n := 2) x).smul (x 4)⁻¹) (x 3 / x 4) 1) = 0 := by
    intro A x h4 hA
    have e : row5 ((vec3 (n := 2) x).smul (x 4)⁻¹) (x 3 / x 4) 1 = (x 4)⁻¹ • x := by
      funext i
      fin_cases i
      · rfl
      · rfl
      · rfl
      · exact div_eq_inv_mul _ _
      · exact (inv_mul_cancel₀ h4).symm
    rw [e, Matrix.mulVec_smul, hA, smul_zero]
  rw [simTransform, if_neg (not_not.2 (axisOk_of_unit ha))] at h
  by_cases hd : (m5 r1 r2).det = 0
  · rw [if_neg (not_not.2 hd)] at h
    obtain ⟨-, hspan⟩ := hker (rows (m5 r1 r2))
    generalize kernel (rows (m5 r1 r2)) = K at h hspan
    split at h
    · rename_i N
      split at h
      · rename_i hw
        cases h
        refine ⟨rfl, fun x hx => ?_⟩
        simp only [List.nil_append, List.zip_cons_cons, List.zip_nil_right, List.mem_cons, List.not_mem_nil, or_false] at hx
        subst hx
        have h4 : N 0 4 ≠ 0 := by
          intro e; rw [e, abs_zero] at hw; norm_num at hw
        refine (m5_iff r1 r2 _ _).1 (scale _ _ h4 ?_)
        have := (hspan (N 0)).2 ⟨fun _ => 1, by simp⟩
        funext i
        exact this _ (mem_rows.2 ⟨i, rfl⟩)
      · cases h; simp
    · cases h; simp
  · rw [if_pos hd] at h
    dsimp only at h
    cases h
    refine ⟨by simp, fun x hx => ?_⟩
    rw [List.nil_append, List.zip_map'] at hx
    obtain ⟨p, hp, rfl⟩ := List.mem_map.1 hx
    obtain ⟨hp, hk⟩ := List.mem_filter.1 hp
    simp only [decide_eq_true_eq, not_or, not_lt] at hk
    obtain ⟨hp, h1⟩ := kept5_sub _ _ p hp
    have him : p.im = 0 := (hreal p hp).resolve_right h1
    have h4 : p.tail 4 ≠ 0 := by
      intro e; rw [e, abs_zero] at hk; norm_num at hk
    obtain ⟨h2, -⟩ := real_pair he hd hp him
    exact (quad5_iff ha r1 r2 _ _ _).1 (scale _ _ h4 h2)

/-! ### Cases that meet the hypotheses, and cases that fail -/

/-- The vertical axis. -/
noncomputable def zAxis : V3 ℝ := ⟨0, 0, 1⟩

theorem zAxis_unit : zAxis.dot zAxis = 1 := by norm_num [zAxis, V3.dot]

/-- A quarter turn about the vertical axis. -/
noncomputable def quarter : Quaternion := normalized 1 zAxis

theorem turn_quarter (p : V3 ℝ) : turn quarter p = ⟨-p.y, p.x, p.z⟩ := by
  rw [quarter, turn_normalized zAxis_unit, homog, zAxis_unit]
  ext <;> simp only [V3.smul, V3.add, V3.cross, V3.dot, zAxis] <;> ring

theorem quarter_about : TurnsAbout zAxis quarter := turnsAbout_normalized (axisOk_of_unit zAxis_unit) 1

theorem quarter_sq : quarter.v.dot quarter.v = 1 / 2 := by
  have h : Real.sqrt 2 * Real.sqrt 2 = 2 := Real.mul_self_sqrt (by norm_num)
  have e : quarter.v = zAxis.smul (Real.sqrt 2)⁻¹ := by
    rw [quarter, normalized, zAxis_unit]; norm_num
  rw [e]
  have : (zAxis.smul (Real.sqrt 2)⁻¹).dot (zAxis.smul (Real.sqrt 2)⁻¹) = (Real.sqrt 2 * Real.sqrt 2)⁻¹ * zAxis.dot zAxis := by
    rw [mul_inv]; simp only [V3.dot, V3.smul]; ring
  rw [this, h, zAxis_unit]; norm_num

theorem quarter_ne : quarter.v ≠ ⟨0, 0, 0⟩ := by
  intro e
  have := quarter_sq
  rw [e] at this; norm_num [V3.dot] at this

/-- The hypotheses of `C99_three_finds` are met. -/
example : ∃ (eigen : EigenPairs 3) (axis : V3 ℝ) (q1 q2 : Fin 3 → V3 ℝ) (q : Quaternion) (t : V3 ℝ), EigenPairsOf eigen ∧
    axis.dot axis = 1 ∧ TurnsAbout axis q ∧ q.v ≠ ⟨0, 0, 0⟩ ∧ t ≠ ⟨0, 0, 0⟩ ∧ (∀ i, DirectionsInPlane q t (q1 i) (q2 i)) ∧
    (∀ t', (∀ i, DirectionsInPlane q t' (q1 i) (q2 i)) → ∃ c, t' = t.smul c) ∧ 1 / 10 ^ 12 < |(m3 q1 q2).det| := by
  obtain ⟨eigen, he⟩ := exists_pairs 3
  refine ⟨eigen, zAxis, ![⟨-1, 0, 1⟩, ⟨0, 0, 1⟩, ⟨0, 1, 1⟩], ![⟨1, -1, 1⟩, ⟨1, 0, 1⟩, ⟨0, 0, 1⟩], quarter, ⟨1, 0, 0⟩, he, zAxis_unit,
    quarter_about, quarter_ne, by simp, ?_, ?_, ?_⟩
  · intro i
    rw [DirectionsInPlane, turn_quarter]
    fin_cases i <;> norm_num [V3.dot, V3.cross]
  · intro t' h
    have h0 := h 0
    have h1 := h 1
    rw [DirectionsInPlane, turn_quarter] at h0 h1
    simp [V3.dot, V3.cross] at h0 h1
    refine ⟨t'.x, ?_⟩
    ext <;> simp only [V3.smul] <;> linarith
  · rw [Matrix.det_fin_three]
    simp [m3, head, V3.cross]; norm_num

/-- The hypotheses of `C99_three_no_rotation` are met. -/
example : ∃ (last : List (Fin 3 → ℝ) → Fin 3 → ℝ) (axis : V3 ℝ) (q1 q2 : Fin 3 → V3 ℝ) (t : V3 ℝ), LastSingularVector last ∧
    axis.dot axis = 1 ∧ t.dot t = 1 ∧ (∀ i, (q2 i).dot (t.cross (q1 i)) = 0) ∧
    ∀ t' : V3 ℝ, (∀ i, (q2 i).dot (t'.cross (q1 i)) = 0) → ∃ c, t' = t.smul c := by
  obtain ⟨last, hl⟩ := exists_last (n := 3) (by norm_num)
  refine ⟨last, zAxis, ![⟨0, 0, 1⟩, ⟨0, 1, 1⟩, ⟨1, 1, 2⟩], ![⟨1, 0, 1⟩, ⟨1, 1, 1⟩, ⟨2, 1, 2⟩], ⟨1, 0, 0⟩, hl, zAxis_unit,
    by norm_num [V3.dot], ?_, ?_⟩
  · intro i
    fin_cases i <;> norm_num [V3.dot, V3.cross]
  · intro t' h
    have h0 := h 0
    have h1 := h 1
    simp [V3.dot, V3.cross] at h0 h1
    refine ⟨t'.x, ?_⟩
    ext <;> simp only [V3.smul] <;> linarith

/-- The code says that the matrix is singular only when there is no rotation. With one ray along the axis, and a motion along the axis, it is
always singular: whatever the turn, the solver gives no rotation, and the true turn is lost. -/
theorem C99_three_loses_rotation_counterexample : ∃ (axis : V3 ℝ) (q1 q2 : Fin 3 → V3 ℝ) (q : Quaternion) (t : V3 ℝ),
    axis.dot axis = 1 ∧ TurnsAbout axis q ∧ t ≠ ⟨0, 0, 0⟩ ∧ (∀ i, DirectionsInPlane q t (q1 i) (q2 i)) ∧
    (∀ t', (∀ i, DirectionsInPlane q t' (q1 i) (q2 i)) → ∃ c, t' = t.smul c) ∧
    ∀ eigen last, ∃ l, threePoint eigen last axis q1 q2 = .ok l ∧ ∀ x ∈ l, ¬ SameTurn x.1 q := by
  refine ⟨zAxis, ![⟨0, 0, 1⟩, ⟨1, 0, 1⟩, ⟨0, 1, 1⟩], ![⟨0, 0, 1⟩, ⟨0, 1, 2⟩, ⟨-1, 0, 2⟩], quarter, ⟨0, 0, 1⟩, zAxis_unit,
    quarter_about, by simp, ?_, ?_, ?_⟩
  · intro i
    rw [DirectionsInPlane, turn_quarter]
    fin_cases i <;> norm_num [V3.dot, V3.cross]
  · intro t' h
    have h1 := h 1
    have h2 := h 2
    rw [DirectionsInPlane, turn_quarter] at h1 h2
    simp [V3.dot, V3.cross] at h1 h2
    refine ⟨t'.z, ?_⟩
    ext <;> simp only [V3.smul] <;> linarith
  · intro eigen last
    refine ⟨_, by
      rw [threePoint, if_neg (not_not.2 (axisOk_of_unit zAxis_unit)), if_neg]
      rw [Matrix.det_fin_three]
      simp [m3, head, V3.cross], ?_⟩
    have hno : ¬ SameTurn noRotation quarter := by
      intro h
      have := congrArg V3.x (h ⟨1, 0, 0⟩)
      rw [turn_none, turn_quarter] at this
      norm_num at this
    intro x hx
    simp only [List.mem_cons, List.not_mem_nil, or_false] at hx
    rcases hx with rfl | rfl <;> exact hno

/-- Three points: eigenvalues that are not real are used as if they were, with their real part. Whatever the eigenvectors, the solver gives a
solution that has no translation or does not explain the rays. -/
theorem C99_three_complex_counterexample : ∃ (axis : V3 ℝ) (q1 q2 : Fin 3 → V3 ℝ), axis.dot axis = 1 ∧
    1 / 10 ^ 12 < |(m3 q1 q2).det| ∧ ∀ (eigen : EigenPairs 3), EigenPairsOf eigen → ∀ last,
      ∃ l, threePoint eigen last axis q1 q2 = .ok l ∧
        ∃ x ∈ l, ¬ (x.2 ≠ ⟨0, 0, 0⟩ ∧ ∀ i, DirectionsInPlane x.1 x.2 (q1 i) (q2 i)) := by
  refine ⟨zAxis, ![⟨-1, 0, 2⟩, ⟨0, -1, 1⟩, ⟨1, -1, 1⟩], ![⟨-2, -1, 0⟩, ⟨1, -2, 0⟩, ⟨1, -1, -1⟩], zAxis_unit, ?_, ?_⟩
  · rw [Matrix.det_fin_three]
    simp [m3, head, V3.cross]; norm_num
  intro eigen he last
  generalize hq1 : (![⟨-1, 0, 2⟩, ⟨0, -1, 1⟩, ⟨1, -1, 1⟩] : Fin 3 → V3 ℝ) = q1
  generalize hq2 : (![⟨-2, -1, 0⟩, ⟨1, -2, 0⟩, ⟨1, -1, -1⟩] : Fin 3 → V3 ℝ) = q2
  have hdet : 1 / 10 ^ 12 < |(m3 q1 q2).det| := by
    subst hq1 hq2
    rw [Matrix.det_fin_three]
    simp [m3, head, V3.cross]; norm_num
  have hd : (m3 q1 q2).det ≠ 0 := by
    intro e; rw [e, abs_zero] at hdet; norm_num at hdet
  obtain ⟨p, hp, hre, him⟩ := found_complex he hd (C := c3 zAxis q1 q2) (K := k3 zAxis q1 q2) (a := 1) (b := 2) (x := ![1, 0, 0])
    (y := ![0, 0, 1]) (Or.inl fun e => by simpa using congrFun e 0)
    (by
      subst hq1 hq2
      funext i
      fin_cases i <;> simp [Matrix.mulVec, dotProduct, Fin.sum_univ_three, m3, c3, k3, head, V3.cross, V3.dot, V3.smul, V3.sub, zAxis] <;> norm_num)
    (by
      subst hq1 hq2
      funext i
      fin_cases i <;> simp [Matrix.mulVec, dotProduct, Fin.sum_univ_three, m3, c3, k3, head, V3.cross, V3.dot, V3.smul, V3.sub, zAxis] <;> norm_num)
  refine ⟨_, by rw [threePoint, if_neg (not_not.2 (axisOk_of_unit zAxis_unit)), if_pos hdet], (quarter, vec3 (n := 0) p.tail), ?_, ?_⟩
  · refine List.mem_flatMap.2 ⟨p, List.mem_filter.2 ⟨hp, ?_⟩, ?_⟩
    · simp only [decide_eq_true_eq]
      rw [kept3, him]; norm_num
    · rw [hre]; exact List.mem_cons_self
  · rintro ⟨h1, h2⟩
    apply h1
    have e0 := h2 0
    have e1 := h2 1
    have e2 := h2 2
    simp only [DirectionsInPlane, turn_quarter] at e0 e1 e2
    subst hq1 hq2
    generalize vec3 (n := 0) p.tail = t at e0 e1 e2
    simp [V3.dot, V3.cross] at e0 e1 e2
    ext <;> linarith

/-- The rays of an example for four points. -/
noncomputable def four1 : Fin 4 → Ray := ![⟨⟨1, 1, 1⟩, ⟨1, 0, 0⟩⟩, ⟨⟨0, 0, 1⟩, ⟨0, 0, 1⟩⟩, ⟨⟨0, 0, 1⟩, ⟨0, 1, 0⟩⟩, ⟨⟨-1, 0, 1⟩, ⟨0, 0, 0⟩⟩]
noncomputable def four2 : Fin 4 → Ray := ![⟨⟨0, 1, 1⟩, ⟨0, 1, 0⟩⟩, ⟨⟨1, 0, 1⟩, ⟨0, 0, 1⟩⟩, ⟨⟨0, -1, 1⟩, ⟨0, 1, 0⟩⟩, ⟨⟨0, -1, 1⟩, ⟨1, 0, 0⟩⟩]

/-- The hypotheses of `C99_four_finds` are met. -/
example : ∃ (eigen : EigenPairs 4) (axis : V3 ℝ) (r1 r2 : Fin 4 → Ray) (q : Quaternion) (t : V3 ℝ), EigenPairsOf eigen ∧
    axis.dot axis = 1 ∧ TurnsAbout axis q ∧ t.dot t + 1 < 10 ^ 14 * q.v.dot q.v ∧ (∀ i, RaysMeet q t 1 (r1 i) (r2 i)) ∧
    (∀ t', (∀ i, RaysInPlane q t' 1 (r1 i) (r2 i)) → t' = t) ∧ 1 / 10 ^ 7 < |(m4 r1 r2).det| := by
  obtain ⟨eigen, he⟩ := exists_pairs 4
  refine ⟨eigen, zAxis, four1, four2, quarter, ⟨1, 0, 0⟩, he, zAxis_unit, quarter_about, ?_, ?_, ?_, ?_⟩
  · rw [quarter_sq]; norm_num [V3.dot]
  · intro i
    refine ⟨1, 1, ?_⟩
    rw [turn_quarter]
    fin_cases i <;> norm_num [four1, four2, V3.add, V3.smul]
  · intro t' h
    have h0 := h 0
    have h1 := h 1
    have h2 := h 2
    rw [RaysInPlane, turn_quarter, turn_quarter] at h0 h1 h2
    simp [V3.dot, V3.cross, V3.add, V3.sub, V3.smul, four1, four2] at h0 h1 h2
    ext <;> linarith
  · have e : m4 four1 four2 = (!![0, -1, 1, 1; 0, 1, 0, 0; 1, 0, 0, 0; 1, 1, 1, -1] : Matrix (Fin 4) (Fin 4) ℤ).map fun x => (x : ℝ) := by
      funext i j
      fin_cases i <;> fin_cases j <;> simp [m4, row4, four1, four2, Ray.moment, V3.cross, V3.dot, V3.neg]
    have hd : (!![0, -1, 1, 1; 0, 1, 0, 0; 1, 0, 0, 0; 1, 1, 1, -1] : Matrix (Fin 4) (Fin 4) ℤ).det = 2 := by decide +kernel
    rw [e, ← Int.cast_det, hd]
    norm_num

/-- The rays of an example for four points without rotation. -/
noncomputable def still1 : Fin 4 → Ray := ![⟨⟨-1, 0, 1⟩, ⟨0, 0, 0⟩⟩, ⟨⟨0, -1, 1⟩, ⟨0, 0, 1⟩⟩, ⟨⟨0, 0, 1⟩, ⟨0, 0, 0⟩⟩, ⟨⟨0, -1, 2⟩, ⟨0, 0, 1⟩⟩]
noncomputable def still2 : Fin 4 → Ray := ![⟨⟨0, 0, 1⟩, ⟨0, 0, 0⟩⟩, ⟨⟨1, -1, 1⟩, ⟨0, 0, 1⟩⟩, ⟨⟨0, 0, 1⟩, ⟨1, 0, 0⟩⟩, ⟨⟨0, -1, 3⟩, ⟨1, 0, 0⟩⟩]

/-- The hypotheses of `C99_four_no_rotation` are met. -/
example : ∃ (last : List (Fin 4 → ℝ) → Fin 4 → ℝ) (axis : V3 ℝ) (r1 r2 : Fin 4 → Ray) (t : V3 ℝ), LastSingularVector last ∧
    axis.dot axis = 1 ∧ t.dot t + 1 < 10 ^ 14 ∧ (∀ i, RaysMeet noRotation t 1 (r1 i) (r2 i)) ∧
    ∀ t', (∀ i, RaysInPlane noRotation t' 1 (r1 i) (r2 i)) → t' = t := by
  obtain ⟨last, hl⟩ := exists_last (n := 4) (by norm_num)
  refine ⟨last, zAxis, still1, still2, ⟨1, 0, 0⟩, hl, zAxis_unit, by norm_num [V3.dot], ?_, ?_⟩
  · intro i
    refine ⟨1, 1, ?_⟩
    rw [turn_none]
    fin_cases i <;> norm_num [still1, still2, V3.add, V3.smul]
  · intro t' h
    have h0 := h 0
    have h1 := h 1
    have h3 := h 3
    rw [RaysInPlane, turn_none, turn_none] at h0 h1 h3
    simp [V3.dot, V3.cross, V3.add, V3.sub, V3.smul, still1, still2] at h0 h1 h3
    ext <;> linarith

/-- The rays of an example for five points. -/
noncomputable def five1 : Fin 5 → Ray :=
  ![⟨⟨-1, 0, 1⟩, ⟨0, 0, 1⟩⟩, ⟨⟨1, 1, 2⟩, ⟨0, 1, 0⟩⟩, ⟨⟨-1, -2, 3⟩, ⟨0, 0, 1⟩⟩, ⟨⟨1, 0, 4⟩, ⟨0, 0, 0⟩⟩, ⟨⟨1, -1, 4⟩, ⟨0, 1, 0⟩⟩]
noncomputable def five2 : Fin 5 → Ray :=
  ![⟨⟨0, 0, 1⟩, ⟨0, 1, 0⟩⟩, ⟨⟨0, 0, 1⟩, ⟨1, 0, 0⟩⟩, ⟨⟨-1, 1, 1⟩, ⟨0, 0, 1⟩⟩, ⟨⟨0, 0, 1⟩, ⟨0, 0, 1⟩⟩, ⟨⟨0, 0, 1⟩, ⟨0, 0, 1⟩⟩]

/-- The hypotheses of `C99_sim_finds` are met. -/
example : ∃ (eigen : EigenPairs 5) (axis : V3 ℝ) (r1 r2 : Fin 5 → Ray) (s : ℝ) (t : V3 ℝ) (k : ℝ), EigenPairsOf eigen ∧
    axis.dot axis = 1 ∧ 0 ≤ k ∧ (s ^ 2 + 1) * (t.dot t + k ^ 2 + 1) ≤ 10 ^ 24 ∧
    (∀ i, RaysMeet (normalized s axis) t k (r2 i) (r1 i)) ∧
    (∀ t' k', (∀ i, RaysInPlane (normalized s axis) t' k' (r2 i) (r1 i)) → t' = t ∧ k' = k) ∧ (m5 r1 r2).det ≠ 0 ∧
    FirstReal s (eigen (constraint (m5 r1 r2) (c5 axis r1 r2) (k5 axis r1 r2))) := by
  obtain ⟨eigen, he, hfirst⟩ := exists_pairs_real_first 5
  have hmeet : ∀ i, RaysMeet (normalized 1 zAxis) ⟨1, 0, 0⟩ 2 (five2 i) (five1 i) := by
    intro i
    refine ⟨1, 1, ?_⟩
    rw [← quarter, turn_quarter]
    fin_cases i <;> norm_num [five1, five2, V3.add, V3.smul]
  have hd : (m5 five1 five2).det ≠ 0 := by
    intro h
    obtain ⟨v, hv, h⟩ := Matrix.exists_mulVec_eq_zero_iff.2 h
    apply hv
    have h0 := congrFun h 0
    have h1 := congrFun h 1
    have h2 := congrFun h 2
    have h3 := congrFun h 3
    have h4 := congrFun h 4
    simp [Matrix.mulVec, dotProduct, Fin.sum_univ_five, m5, simRow, row5, five1, five2, V3.cross, V3.dot] at h0 h1 h2 h3 h4
    funext i
    fin_cases i <;> simp <;> linarith
  refine ⟨eigen, zAxis, five1, five2, 1, ⟨1, 0, 0⟩, 2, he, zAxis_unit, by norm_num, by norm_num [V3.dot], hmeet, ?_, hd, ?_⟩
  · intro t' k' h
    have h0 := h 0
    have h1 := h 1
    have h2 := h 2
    have h4 := h 4
    rw [← quarter, RaysInPlane, turn_quarter, turn_quarter] at h0 h1 h2 h4
    simp [V3.dot, V3.cross, V3.add, V3.sub, V3.smul, five1, five2] at h0 h1 h2 h4
    constructor
    · ext <;> linarith
    · linarith
  · refine hfirst _ _ (found he hd (x := row5 ⟨1, 0, 0⟩ 2 1) (fun e => by simpa [row5] using congrFun e 4) ?_)
    exact (quad5_iff zAxis_unit _ _ _ _ _).2 fun i => rays_of_meet (hmeet i)

/-- The rays of an example for five points without rotation. -/
noncomputable def neg1 : Fin 5 → Ray :=
  ![⟨⟨1, 0, -2⟩, ⟨0, 0, 0⟩⟩, ⟨⟨1, -2, -1⟩, ⟨0, 1, 0⟩⟩, ⟨⟨-2, 0, -3⟩, ⟨0, 0, 1⟩⟩, ⟨⟨0, -1, -2⟩, ⟨0, 1, 0⟩⟩, ⟨⟨-2, -1, -2⟩, ⟨1, 0, 0⟩⟩]
noncomputable def neg2 : Fin 5 → Ray :=
  ![⟨⟨-1, 0, 2⟩, ⟨0, 0, 0⟩⟩, ⟨⟨-1, 1, 1⟩, ⟨0, 0, 0⟩⟩, ⟨⟨1, 0, 2⟩, ⟨1, 0, 0⟩⟩, ⟨⟨0, 0, 1⟩, ⟨0, 0, 1⟩⟩, ⟨⟨1, 1, 1⟩, ⟨0, 0, 1⟩⟩]

/-- A negative scale is never given for an eigenvalue (`C99_sim_scales`), but it is given when there is no rotation: the result is a
reflection through a point. -/
theorem C99_sim_negative_scale_counterexample : ∃ (kernel : Kernel 5) (axis : V3 ℝ) (r1 r2 : Fin 5 → Ray), KernelSolver kernel ∧
    axis.dot axis = 1 ∧ ∀ eigen, simTransform eigen kernel axis r1 r2 [] = .ok ([(noRotation, ⟨0, 0, 0⟩)], [-1]) := by
  have hunique : ∀ t' k', (∀ i, RaysInPlane noRotation t' k' (neg2 i) (neg1 i)) → t' = ⟨0, 0, 0⟩ ∧ k' = -1 := by
    intro t' k' h
    have h1 := h 1
    have h2 := h 2
    have h3 := h 3
    have h4 := h 4
    rw [RaysInPlane, turn_none, turn_none] at h1 h2 h3 h4
    simp [V3.dot, V3.cross, V3.add, V3.sub, V3.smul, neg1, neg2] at h1 h2 h3 h4
    constructor
    · ext <;> linarith
    · linarith
  have hmeet : ∀ i, RaysMeet noRotation ⟨0, 0, 0⟩ (-1) (neg2 i) (neg1 i) := by
    intro i
    refine ⟨1, 1, ?_⟩
    rw [turn_none]
    fin_cases i <;> norm_num [neg1, neg2, V3.add, V3.smul]
  have hfit := (m5_iff neg1 neg2 ⟨0, 0, 0⟩ (-1)).2 fun i => rays_of_meet (hmeet i)
  obtain ⟨kernel, hker, hval⟩ := exists_kernelSolver_with (rows (m5 neg1 neg2)) ⟨1, fun _ => row5 ⟨0, 0, 0⟩ (-1) 1⟩
    (by
      refine LinearIndependent.of_subsingleton 0 fun e => ?_
      simpa [row5] using congrFun e 4)
    (by
      intro v
      have hv : (∀ r ∈ rows (m5 neg1 neg2), ∑ i, r i * v i = 0) ↔ (m5 neg1 neg2).mulVec v = 0 := by
        rw [funext_iff]
        constructor
        · exact fun h i => h _ (mem_rows.2 ⟨i, rfl⟩)
        · intro h r hr
          obtain ⟨i, rfl⟩ := mem_rows.1 hr
          exact h i
      rw [hv]
      constructor
      · intro h
        obtain ⟨e1, e2⟩ := line5 hfit (fun t' k' h' => hunique t' k' ((m5_iff _ _ t' k').1 h')) h
        refine ⟨fun _ => v 4, ?_⟩
        rw [← row5_vec v, e1, e2]
        funext j; fin_cases j <;> simp [row5, V3.smul]
      · rintro ⟨c, rfl⟩
        simp only [Finset.univ_unique, Finset.sum_singleton]
        rw [Matrix.mulVec_smul, hfit, smul_zero])
  refine ⟨kernel, zAxis, neg1, neg2, hker, zAxis_unit, fun eigen => ?_⟩
  refine C99_sim_no_rotation eigen hker zAxis_unit hmeet hunique ?_ []
  rw [hval]
  intro i
  change 1 / 10 ^ 12 < |(1 : ℝ)|
  norm_num

/-- The scales of an earlier call stay, so that scales and rotations no longer belong together. -/
theorem C99_sim_old_scales_counterexample : ∃ (kernel : Kernel 5) (axis : V3 ℝ) (r1 r2 : Fin 5 → Ray), KernelSolver kernel ∧
    axis.dot axis = 1 ∧ ∀ eigen, ∃ ps ks, simTransform eigen kernel axis r1 r2 [7] = .ok (ps, ks) ∧ ps.length ≠ ks.length := by
  obtain ⟨kernel, axis, r1, r2, hker, ha, h⟩ := C99_sim_negative_scale_counterexample
  refine ⟨kernel, axis, r1, r2, hker, ha, fun eigen => ?_⟩
  obtain ⟨⟨ps, ks⟩, e⟩ := ((C99_abort (fun _ => []) (fun _ => []) eigen (fun _ => 0) (fun _ => 0) kernel axis).2.2 r1 r2 [7]).1.2
    (axisOk_of_unit ha)
  obtain ⟨new, h1, h2, -⟩ := C99_sim_scales e
  refine ⟨ps, ks, e, ?_⟩
  rw [h1, List.length_append, h2]
  simp

end PartialRotation
end Theia
