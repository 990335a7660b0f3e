import Verif.Proof.PairwiseErrors

/-!
# C84: what the residuals of pairs of views measure
-/

namespace Theia

open Spec PairwiseErrors AngleAxis

/-- C84: the residual of a pair of orientations has the length of the weight times the angle between `R_2 R_1^T` and the relative
rotation, at most half a turn. It vanishes exactly if the relative rotation holds, and it does not change if the world is
rotated. -/
theorem C84_rotation (ofM : M3 ℝ → V3 ℝ) (hlog : IsLog ofM) (relative : V3 ℝ) (w : ℝ) (r1 r2 : V3 ℝ) :
    vectorLength (rotation ofM relative w r1 r2) =
      |w| * angle (((toM r2).mul (toM r1).transpose).mul (toM relative).transpose) ∧
    vectorLength (rotation ofM relative w r1 r2) ≤ |w| * Real.pi ∧
    (w ≠ 0 → (rotation ofM relative w r1 r2 = V3.zero ↔ RelativeRotationHolds relative r1 r2)) ∧
    ∀ q r1' r2', toM r1' = (toM r1).mul (toM q) → toM r2' = (toM r2).mul (toM q) →
      rotation ofM relative w r1' r2' = rotation ofM relative w r1 r2 := by
  have hrot := error_isRotation r1 r2 relative
  have hlen : vectorLength (rotation ofM relative w r1 r2) =
      |w| * angle (((toM r2).mul (toM r1).transpose).mul (toM relative).transpose) := by
    rw [rotation, vectorLength_smul, ← hlog.angle hrot]
    rfl
  refine ⟨hlen, ?_, fun hw => ?_, fun q r1' r2' h1 h2 => ?_⟩
  · rw [hlen]
    exact mul_le_mul_of_nonneg_left (Real.arccos_le_pi _) (abs_nonneg _)
  · rw [← vectorLength_eq_zero, hlen, mul_eq_zero, or_iff_right (abs_ne_zero.2 hw), angle_eq_zero hrot,
      error_eq_one (isRotation_toM _) (isRotation_toM _)]
    rfl
  · unfold rotation
    simp only
    rw [h1, h2, M3.transpose_mul, M3.mul_assoc (toM r2), ← M3.mul_assoc (toM q), mul_transpose_self (isRotation_toM q),
      M3.one_mul]

/-- C84: for a unit direction, and positions that are not too close, the squared residual of a pair of positions is
`2 w^2 (1 - cos)` of the angle between the direction and that from the first position to the second. It vanishes exactly if the
second position is ahead of the first in this direction, is at most twice the weight, and does not change if the world is moved
or scaled. If the positions are closer than 1e-12, it is the negative of the weighted direction up to that distance: coincident
positions count as an error of sixty degrees. -/
theorem C84_translation (d : V3 ℝ) (hd : vectorLength d = 1) (w : ℝ) (hw : 0 < w) (c1 c2 : V3 ℝ) :
    (1e-12 ≤ vectorLength (c2.sub c1) →
      vectorLength (translation d w c1 c2) ^ 2 = 2 * w ^ 2 * (1 - cosBetween (c2.sub c1) d) ∧
      (translation d w c1 c2 = V3.zero ↔ ∃ s, 0 < s ∧ c2.sub c1 = d.smul s) ∧
      ∀ s o, 1e-12 ≤ s * vectorLength (c2.sub c1) → 0 < s →
        translation d w ((c1.smul s).add o) ((c2.smul s).add o) = translation d w c1 c2) ∧
    (vectorLength (c2.sub c1) < 1e-12 →
      vectorLength ((translation d w c1 c2).sub (d.smul (-w))) = w * vectorLength (c2.sub c1)) ∧
    vectorLength (translation d w c1 c2) ≤ 2 * w := by
  have hd2 : d.dot d = 1 := by rw [← vectorLength_sq, hd, one_pow]
  have hfar : 1e-12 ≤ vectorLength (c2.sub c1) →
      translation d w c1 c2 = (((c2.sub c1).smul (vectorLength (c2.sub c1))⁻¹).sub d).smul w := fun h => by
    rw [translation_eq, if_neg (not_lt.2 h)]
  have hsq : 1e-12 ≤ vectorLength (c2.sub c1) →
      vectorLength (translation d w c1 c2) ^ 2 = 2 * w ^ 2 * (1 - cosBetween (c2.sub c1) d) := fun h => by
    have hpos : 0 < vectorLength (c2.sub c1) := lt_of_lt_of_le (by norm_num) h
    rw [hfar h, vectorLength_smul, mul_pow, sq_abs, vectorLength_sq,
      unit_sub_sq hpos.ne' (vectorLength_sq _) hd2, cosBetween, hd, mul_one]
    ring
  have hcs : ∀ t : V3 ℝ, 0 < vectorLength t → -1 ≤ cosBetween t d := by
    intro t ht
    have h0 : 0 ≤ ((t.smul (vectorLength t)⁻¹).sub d.neg).dot ((t.smul (vectorLength t)⁻¹).sub d.neg) := dot_self_nonneg _
    rw [unit_sub_sq ht.ne' (vectorLength_sq _) (by simp only [V3.dot, V3.neg] at *; linarith)] at h0
    rw [cosBetween, hd, mul_one]
    have h1 : t.dot d.neg / vectorLength t = -(t.dot d / vectorLength t) := by
      rw [← neg_div]; congr 1; simp only [V3.dot, V3.neg]; ring
    rw [h1] at h0
    linarith
  have hnear : vectorLength (c2.sub c1) < 1e-12 →
      vectorLength ((translation d w c1 c2).sub (d.smul (-w))) = w * vectorLength (c2.sub c1) := fun h => by
    rw [translation_eq, if_pos h]
    have : ((((c2.sub c1).smul (1 : ℝ)⁻¹).sub d).smul w).sub (d.smul (-w)) = (c2.sub c1).smul w := by
      apply V3.ext <;> simp only [V3.sub, V3.smul] <;> ring
    rw [this, vectorLength_smul, abs_of_pos hw]
  refine ⟨fun h => ⟨hsq h, ?_, ?_⟩, hnear, ?_⟩
  · have hpos : 0 < vectorLength (c2.sub c1) := lt_of_lt_of_le (by norm_num) h
    rw [hfar h]
    constructor
    · intro h0
      refine ⟨vectorLength (c2.sub c1), hpos, ?_⟩
      generalize vectorLength (c2.sub c1) = n at h0 hpos ⊢
      generalize c2.sub c1 = t at h0 ⊢
      have hn := hpos.ne'
      have hx := congrArg V3.x h0
      have hy := congrArg V3.y h0
      have hz := congrArg V3.z h0
      simp only [V3.smul, V3.sub, V3.zero, mul_eq_zero, or_iff_right hw.ne', sub_eq_zero] at hx hy hz
      apply V3.ext <;> simp only [V3.smul] <;> [rw [← hx]; rw [← hy]; rw [← hz]] <;> field_simp
    · rintro ⟨s, hs, h1⟩
      have h2 : vectorLength (c2.sub c1) = s := by rw [h1, vectorLength_smul, hd, abs_of_pos hs, mul_one]
      rw [h2, h1]
      apply V3.ext <;> simp only [V3.sub, V3.smul, V3.zero] <;> field_simp <;> ring
  · intro s o hs hs0
    have hsub : (((c2.smul s).add o).sub ((c1.smul s).add o)) = (c2.sub c1).smul s := by
      apply V3.ext <;> simp only [V3.sub, V3.smul, V3.add] <;> ring
    have hpos : 0 < vectorLength (c2.sub c1) := lt_of_lt_of_le (by norm_num) h
    rw [hfar h, translation_eq, hsub, vectorLength_smul, abs_of_pos hs0, if_neg (not_lt.2 hs)]
    congr 2
    apply V3.ext <;> simp only [V3.smul] <;> field_simp
  · by_cases h : 1e-12 ≤ vectorLength (c2.sub c1)
    · have hpos : 0 < vectorLength (c2.sub c1) := lt_of_lt_of_le (by norm_num) h
      refine le_of_sq_le_sq ?_ (by positivity)
      rw [hsq h]
      nlinarith [hcs _ hpos, sq_nonneg w]
    · have h' := not_le.1 h
      rw [translation_eq, if_pos h', vectorLength_smul, abs_of_pos hw, mul_comm 2 w]
      refine mul_le_mul_of_nonneg_left ?_ hw.le
      refine le_of_sq_le_sq ?_ (by norm_num)
      rw [vectorLength_sq]
      generalize hT : c2.sub c1 = t at *
      have h1 : ((t.smul (1 : ℝ)⁻¹).sub d).dot ((t.smul (1 : ℝ)⁻¹).sub d) = t.dot t - 2 * t.dot d + d.dot d := by
        simp only [V3.dot, V3.sub, V3.smul]; ring
      have h2 : 0 ≤ (t.add d).dot (t.add d) := dot_self_nonneg _
      have h3 : (t.add d).dot (t.add d) = t.dot t + 2 * t.dot d + d.dot d := by
        simp only [V3.dot, V3.add]; ring
      have h4 : t.dot t ≤ 1 := by
        rw [← vectorLength_sq]
        have := vectorLength_nonneg t
        nlinarith
      rw [h1]
      linarith

/-- C84: the residual with a scale vanishes exactly if the second position is the first plus the relative position rotated into
the world and scaled; it does not change if the world is moved and grows with it if it is scaled. The rotation is the inverse of
the one that takes the world to the first camera. -/
theorem C84_scale (eps : ℝ) (heps : 0 ≤ eps) (q t c1 c2 : V3 ℝ) (s : ℝ) (hq : eps < q.dot q ∨ q = V3.zero) :
    (translationAndScale eps q t c1 c2 s = V3.zero ↔ c2 = c1.add (((toM q).transpose.mulVec t).smul s)) ∧
    (∀ o, translationAndScale eps q t (c1.add o) (c2.add o) s = translationAndScale eps q t c1 c2 s) ∧
    ∀ k, translationAndScale eps q t (c1.smul k) (c2.smul k) (k * s) = (translationAndScale eps q t c1 c2 s).smul k := by
  have hr : rotate eps q.neg t = (toM q).transpose.mulVec t := by
    rcases hq with hq | rfl
    · rw [← toM_neg, rotate_eq_toM]
      have : q.neg.dot q.neg = q.dot q := by simp only [V3.dot, V3.neg]; ring
      rw [this]
      exact hq
    · rw [← toM_neg]
      have hz : (V3.zero : V3 ℝ).neg = V3.zero := by apply V3.ext <;> simp [V3.neg, V3.zero]
      rw [hz, toM_zero, M3.one_mulVec, rotate, if_neg (by simp [V3.dot, V3.zero]; exact heps)]
      apply V3.ext <;> simp [V3.add, V3.cross, V3.zero]
  refine ⟨?_, fun o => ?_, fun k => ?_⟩
  · unfold translationAndScale
    simp only
    rw [hr]
    generalize (toM q).transpose.mulVec t = u
    constructor
    · intro h
      have hx := congrArg V3.x h
      have hy := congrArg V3.y h
      have hz := congrArg V3.z h
      simp only [V3.zero] at hx hy hz
      apply V3.ext <;> simp only [V3.add, V3.smul] <;> linarith
    · rintro rfl
      apply V3.ext <;> simp only [V3.add, V3.smul, V3.zero] <;> ring
  · unfold translationAndScale
    apply V3.ext <;> simp only [V3.add] <;> ring
  · unfold translationAndScale
    apply V3.ext <;> simp only [V3.smul] <;> ring

/-- C84: non-linear estimation of rotations needs pairs and orientations to start from, and otherwise returns false and changes
nothing. The solver is given exactly the pairs of two views with orientations. No orientation is added or removed, and those of
views that are in no such pair are kept. -/
theorem C84_rotations (solve : RotationSolver) (pairs : List Term) (orientations : AMap Nat (V3 ℝ))
    (hd : ∀ p ∈ pairs, p.1.1 ≠ p.1.2) :
    ∃ b after, estimateRotations solve pairs orientations = .ok (b, after) ∧
      ((pairs = [] ∨ orientations.entries = []) → b = false ∧ after = orientations) ∧
      (pairs ≠ [] → orientations.entries ≠ [] → after.keys = orientations.keys ∧
        ∃ terms, (∀ p, p ∈ terms ↔ p ∈ pairs ∧ p.1.1 ∈ orientations.keys ∧ p.1.2 ∈ orientations.keys) ∧ terms.Sublist pairs ∧
          ∀ v r, orientations.get v = some r →
            ((∃ p ∈ terms, v = p.1.1 ∨ v = p.1.2) → after.get v = some ((solve terms orientations).2 v)) ∧
            ((∀ p ∈ terms, v ≠ p.1.1 ∧ v ≠ p.1.2) → after.get v = some r)) := by
  unfold estimateRotations
  by_cases ho : orientations.size = 0
  · have he : orientations.entries = [] := List.length_eq_zero_iff.1 ho
    rw [if_pos ho]
    exact ⟨_, _, rfl, fun _ => ⟨rfl, rfl⟩, fun _ h => absurd he h⟩
  · by_cases hp : pairs.length = 0
    · rw [if_neg ho, if_pos hp]
      exact ⟨_, _, rfl, fun _ => ⟨rfl, rfl⟩, fun h => absurd (List.length_eq_zero_iff.1 hp) h⟩
    · rw [if_neg ho, if_neg hp]
      obtain ⟨terms, ht⟩ := rotationTerms_ok (orientations := orientations) pairs hd
      rw [ht, Outcome.ok_bind]
      refine ⟨_, _, rfl, fun h => ?_, fun _ _ => ⟨AMap.keys_mapVals _ _, terms, ?_, ?_, ?_⟩⟩
      · rcases h with h | h
        · exact absurd (by rw [h]; rfl) hp
        · exact absurd (by unfold AMap.size; rw [h]; rfl) ho
      · intro p
        rw [rotationTerms_eq pairs ht, List.mem_filter, Bool.and_eq_true, AMap.contains_iff, AMap.contains_iff]
      · rw [rotationTerms_eq pairs ht]
        exact List.filter_sublist
      · intro v r hr
        rw [AMap.get_mapVals, hr]
        constructor
        · rintro ⟨p, hp, hv⟩
          rw [Option.map_some, if_pos]
          rw [List.any_eq_true]
          exact ⟨p, hp, by simpa using hv⟩
        · intro h
          rw [Option.map_some, if_neg]
          rw [List.any_eq_true]
          rintro ⟨p, hp, hv⟩
          rw [decide_eq_true_eq] at hv
          have := h p hp
          tauto

/-- C84: what is minimised is the loss of the angles between the rotations and the relative rotations. It is never negative,
vanishes exactly if all relative rotations hold, and does not change if the world is rotated. -/
theorem C84_rotation_cost (ofM : M3 ℝ → V3 ℝ) (hlog : IsLog ofM) (width : ℝ) (hw : width ≠ 0) (terms : List Term)
    (G : Nat → V3 ℝ) :
    softRotationCost width terms (fun v => toM (G v)) =
      (terms.map fun p => 1 / 2 * softLoss width (vectorLength (rotation ofM p.2 1 (G p.1.1) (G p.1.2)) ^ 2)).sum ∧
    0 ≤ softRotationCost width terms (fun v => toM (G v)) ∧
    (softRotationCost width terms (fun v => toM (G v)) = 0 ↔ ∀ p ∈ terms, RelativeRotationHolds p.2 (G p.1.1) (G p.1.2)) ∧
    ∀ q, softRotationCost width terms (fun v => (toM (G v)).mul (toM q)) = softRotationCost width terms (fun v => toM (G v)) := by
  have hnn : ∀ x ∈ terms.map (fun p => 1 / 2 * softLoss width
      (angle (((toM (G p.1.2)).mul (toM (G p.1.1)).transpose).mul (toM p.2).transpose) ^ 2)), 0 ≤ x := by
    intro x hx
    obtain ⟨p, _, rfl⟩ := List.mem_map.1 hx
    exact mul_nonneg (by norm_num) (softLoss_nonneg width (sq_nonneg _))
  refine ⟨?_, List.sum_nonneg hnn, ?_, fun q => ?_⟩
  · unfold softRotationCost
    congr 1
    refine List.map_congr_left fun p _ => ?_
    rw [(C84_rotation ofM hlog p.2 1 (G p.1.1) (G p.1.2)).1, abs_one, one_mul]
  · unfold softRotationCost
    rw [sum_eq_zero_iff hnn]
    simp only [List.mem_map, forall_exists_index, and_imp, forall_apply_eq_imp_iff₂]
    refine forall₂_congr fun p _ => ?_
    rw [mul_eq_zero, or_iff_right (by norm_num), softLoss_eq_zero hw (sq_nonneg _), sq_eq_zero_iff,
      angle_eq_zero (error_isRotation _ _ _), error_eq_one (isRotation_toM _) (isRotation_toM _)]
    rfl
  · unfold softRotationCost
    congr 1
    refine List.map_congr_left fun p _ => ?_
    rw [M3.transpose_mul, M3.mul_assoc (toM (G p.1.2)), ← M3.mul_assoc (toM q), mul_transpose_self (isRotation_toM q),
      M3.one_mul]

/-- C84: if the solver finds a minimum and there are rotations for which all relative rotations hold, then they hold for the
orientations after the estimation. -/
theorem C84_exact_partial (width : ℝ) (hw : width ≠ 0) (solve : RotationSolver)
    (hmin : ∀ terms o (G : Nat → V3 ℝ), (∀ p ∈ terms, RelativeRotationHolds p.2 (G p.1.1) (G p.1.2)) → ∀ H : Nat → V3 ℝ,
      softRotationCost width terms (fun v => toM ((solve terms o).2 v)) ≤ softRotationCost width terms (fun v => toM (H v)))
    (pairs : List Term) (orientations : AMap Nat (V3 ℝ)) (hd : ∀ p ∈ pairs, p.1.1 ≠ p.1.2) (G : Nat → V3 ℝ)
    (hG : ∀ p ∈ pairs, RelativeRotationHolds p.2 (G p.1.1) (G p.1.2)) (after : AMap Nat (V3 ℝ))
    (h : estimateRotations solve pairs orientations = .ok (true, after)) (p : Term) (hp : p ∈ pairs) (r1 r2 : V3 ℝ)
    (h1 : after.get p.1.1 = some r1) (h2 : after.get p.1.2 = some r2) : RelativeRotationHolds p.2 r1 r2 := by
  obtain ⟨b, after', he, hf, ht⟩ := C84_rotations solve pairs orientations hd
  rw [he] at h
  simp only [Outcome.ok.injEq, Prod.mk.injEq] at h
  obtain ⟨rfl, rfl⟩ := h
  obtain ⟨ofM, hlog⟩ := exists_isLog
  by_cases hne : pairs = [] ∨ orientations.entries = []
  · cases (hf hne).1
  · rw [not_or] at hne
    obtain ⟨hk, terms, hterms, hsub, hval⟩ := ht hne.1 hne.2
    have hpt : p ∈ terms := (hterms p).2 ⟨hp, hk ▸ AMap.mem_keys_iff.2 ⟨r1, h1⟩, hk ▸ AMap.mem_keys_iff.2 ⟨r2, h2⟩⟩
    obtain ⟨o1, ho1⟩ := AMap.mem_keys_iff.1 ((hterms p).1 hpt).2.1
    obtain ⟨o2, ho2⟩ := AMap.mem_keys_iff.1 ((hterms p).1 hpt).2.2
    have e1 := (hval _ _ ho1).1 ⟨p, hpt, .inl rfl⟩
    have e2 := (hval _ _ ho2).1 ⟨p, hpt, .inr rfl⟩
    rw [h1, Option.some.injEq] at e1
    rw [h2, Option.some.injEq] at e2
    obtain ⟨_, _, hz, _⟩ := C84_rotation_cost ofM hlog width hw terms G
    obtain ⟨_, hn, hz', _⟩ := C84_rotation_cost ofM hlog width hw terms (solve terms orientations).2
    have h0 := hz.2 fun q hq => hG q ((hterms q).1 hq).1
    have := hmin terms orientations G (fun q hq => hG q ((hterms q).1 hq).1) G
    rw [e1, e2]
    exact hz'.1 (le_antisymm (h0 ▸ this) hn) p hpt

/-! ### Findings -/

/-- C84: the result of the solver is ignored. Whenever there are pairs and orientations, success is reported, even if the solver
fails and even if no pair has two orientations. -/
theorem C84_failure_counterexample (pairs : List Term) (orientations : AMap Nat (V3 ℝ)) (hd : ∀ p ∈ pairs, p.1.1 ≠ p.1.2)
    (hp : pairs ≠ []) (ho : orientations.entries ≠ []) (solve : RotationSolver) (_hfail : ∀ ts o, (solve ts o).1 = false) :
    ∃ after, estimateRotations solve pairs orientations = .ok (true, after) := by
  obtain ⟨terms, ht⟩ := rotationTerms_ok (orientations := orientations) pairs hd
  unfold estimateRotations
  have h1 : orientations.size ≠ 0 := fun h => ho (List.length_eq_zero_iff.1 h)
  rw [if_neg h1, if_neg (fun h => hp (List.length_eq_zero_iff.1 h)), ht, Outcome.ok_bind]
  exact ⟨_, rfl⟩

/-! ### Examples -/

/-- There is a logarithm, and a relative rotation that holds and one that does not. -/
example : (∃ ofM, IsLog ofM) ∧ RelativeRotationHolds ⟨0, 0, 0⟩ ⟨0, 0, 1⟩ ⟨0, 0, 1⟩ ∧
    ¬ RelativeRotationHolds ⟨0, 0, 1⟩ ⟨0, 0, 0⟩ ⟨0, 0, 0⟩ := by
  refine ⟨exists_isLog, ?_, ?_⟩
  · unfold RelativeRotationHolds
    rw [show (⟨0, 0, 0⟩ : V3 ℝ) = V3.zero from rfl, toM_zero, M3.one_mul]
  · unfold RelativeRotationHolds
    rw [show (⟨0, 0, 0⟩ : V3 ℝ) = V3.zero from rfl, toM_zero, M3.mul_one]
    intro h
    have h1 := angle_toM (w := ⟨0, 0, 1⟩) (by simp [V3.dot]; nlinarith [Real.two_le_pi])
    rw [← h, (angle_eq_zero M3.IsRotation.one).2 rfl] at h1
    simp [V3.dot] at h1

/-- Positions two apart in the given direction. -/
example : vectorLength ⟨0, 0, 1⟩ = 1 ∧ 1e-12 ≤ vectorLength ((⟨1, 1, 3⟩ : V3 ℝ).sub ⟨1, 1, 1⟩) ∧
    translation ⟨0, 0, 1⟩ 1 ⟨1, 1, 1⟩ ⟨1, 1, 3⟩ = V3.zero := by
  have h1 : vectorLength ⟨0, 0, 1⟩ = 1 := by simp [vectorLength, V3.dot]
  have hs : Real.sqrt 4 = 2 := by rw [show (4 : ℝ) = 2 ^ 2 by norm_num]; exact Real.sqrt_sq (by norm_num)
  have h2 : vectorLength ((⟨1, 1, 3⟩ : V3 ℝ).sub ⟨1, 1, 1⟩) = 2 := by
    simp only [vectorLength, V3.dot, V3.sub]
    rw [← hs]; congr 1; norm_num
  have h3 : (1e-12 : ℝ) ≤ vectorLength ((⟨1, 1, 3⟩ : V3 ℝ).sub ⟨1, 1, 1⟩) := by rw [h2]; norm_num
  refine ⟨h1, h3, ?_⟩
  exact (((C84_translation _ h1 1 one_pos _ _).1 h3).2.1).2 ⟨2, by norm_num, by
    apply V3.ext <;> simp only [V3.sub, V3.smul] <;> norm_num⟩

/-- The hypotheses of `C84_scale` hold for a rotation by one radian. -/
example : (1e-16 : ℝ) < (⟨0, 0, 1⟩ : V3 ℝ).dot ⟨0, 0, 1⟩ := by simp only [V3.dot]; norm_num

/-- The hypotheses of `C84_rotations` and `C84_failure_counterexample` hold for two views, with a solver that fails. -/
example : (∀ p ∈ [((0, 1), (⟨0, 0, 1⟩ : V3 ℝ))], p.1.1 ≠ p.1.2) ∧ (⟨[(0, ⟨0, 0, 0⟩), (1, ⟨0, 0, 0⟩)]⟩ : AMap Nat (V3 ℝ)).entries ≠ [] ∧
    ∃ solve : RotationSolver, ∀ ts o, (solve ts o).1 = false :=
  ⟨by simp, by simp, ⟨fun _ _ => (false, fun _ => V3.zero), fun _ _ => rfl⟩⟩

/-- The hypotheses of `C84_exact_partial` hold for two views and a solver that finds a minimum whenever there is one with zero cost. -/
example : ∃ solve : RotationSolver, ∀ terms o (G : Nat → V3 ℝ), (∀ p ∈ terms, RelativeRotationHolds p.2 (G p.1.1) (G p.1.2)) →
    ∀ H : Nat → V3 ℝ, softRotationCost 0.1 terms (fun v => toM ((solve terms o).2 v)) ≤ softRotationCost 0.1 terms (fun v => toM (H v)) := by
  classical
  obtain ⟨ofM, hlog⟩ := exists_isLog
  refine ⟨fun terms _ => (true, if h : ∃ G : Nat → V3 ℝ, ∀ p ∈ terms, RelativeRotationHolds p.2 (G p.1.1) (G p.1.2)
    then h.choose else fun _ => V3.zero), fun terms o G hG H => ?_⟩
  have h : ∃ G : Nat → V3 ℝ, ∀ p ∈ terms, RelativeRotationHolds p.2 (G p.1.1) (G p.1.2) := ⟨G, hG⟩
  simp only [dif_pos h]
  rw [(C84_rotation_cost ofM hlog 0.1 (by norm_num) terms h.choose).2.2.1.2 h.choose_spec]
  exact (C84_rotation_cost ofM hlog 0.1 (by norm_num) terms H).2.1

end Theia
