import Verif.Base.AngleAxis
import Verif.Base.RotationMatrix
import Verif.Proof.Triangulation

/-!
# Lemmas on triangulation from image points and on the tests
-/

namespace Theia
namespace Triangulation

open Spec

/-! ## Cheirality -/

theorem closest_unique {d1 d2 p : V3 ℝ} (hD : 0 < d1.dot d1 * d2.dot d2 - d1.dot d2 * d1.dot d2) {s t : ℝ}
    (h : ∀ s' t', sqDist (onLine V3.zero d1 s) (onLine p d2 t) ≤ sqDist (onLine V3.zero d1 s') (onLine p d2 t')) :
    s * (d1.dot d1 * d2.dot d2 - d1.dot d2 * d1.dot d2) = d2.dot d2 * d1.dot p - d1.dot d2 * d2.dot p ∧
      t * (d1.dot d1 * d2.dot d2 - d1.dot d2 * d1.dot d2) = d1.dot d2 * d1.dot p - d1.dot d1 * d2.dot p := by
  set D := d1.dot d1 * d2.dot d2 - d1.dot d2 * d1.dot d2 with hDdef
  set s0 := (d2.dot d2 * d1.dot p - d1.dot d2 * d2.dot p) / D with hs0
  set t0 := (d1.dot d2 * d1.dot p - d1.dot d1 * d2.dot p) / D with ht0
  have es : s0 * D = d2.dot d2 * d1.dot p - d1.dot d2 * d2.dot p := div_mul_cancel₀ _ hD.ne'
  have et : t0 * D = d1.dot d2 * d1.dot p - d1.dot d1 * d2.dot p := div_mul_cancel₀ _ hD.ne'
  have n1 : s0 * d1.dot d1 - t0 * d1.dot d2 = d1.dot p := by
    have : (s0 * d1.dot d1 - t0 * d1.dot d2) * D = d1.dot p * D := by
      have : (s0 * d1.dot d1 - t0 * d1.dot d2) * D = s0 * D * d1.dot d1 - t0 * D * d1.dot d2 := by ring
      rw [this, es, et, hDdef]; ring
    exact mul_right_cancel₀ hD.ne' this
  have n2 : s0 * d1.dot d2 - t0 * d2.dot d2 = d2.dot p := by
    have : (s0 * d1.dot d2 - t0 * d2.dot d2) * D = d2.dot p * D := by
      have : (s0 * d1.dot d2 - t0 * d2.dot d2) * D = s0 * D * d1.dot d2 - t0 * D * d2.dot d2 := by ring
      rw [this, es, et, hDdef]; ring
    exact mul_right_cancel₀ hD.ne' this
  have split : ∀ s' t', sqDist (onLine V3.zero d1 s') (onLine p d2 t') =
      s' * s' * d1.dot d1 + p.dot p + t' * t' * d2.dot d2 - 2 * s' * d1.dot p - 2 * s' * t' * d1.dot d2
        + 2 * t' * d2.dot p := by
    intro s' t'
    simp only [sqDist, onLine, V3.zero, V3.add, V3.sub, V3.smul, V3.dot]; ring
  have h0 := h s0 t0
  rw [split, split, ← n1, ← n2] at h0
  have hq : (s - s0) * (s - s0) * d1.dot d1 - 2 * (s - s0) * (t - t0) * d1.dot d2 + (t - t0) * (t - t0) * d2.dot d2 ≤ 0 := by
    nlinarith
  have ha := V3.self_nonneg d1
  have hc := V3.self_nonneg d2
  have hc' : 0 < d2.dot d2 := by
    rcases lt_or_eq_of_le hc with h | h
    · exact h
    · exfalso
      rw [← h] at hDdef
      nlinarith [mul_self_nonneg (d1.dot d2)]
  have ha' : 0 < d1.dot d1 := by
    rcases lt_or_eq_of_le ha with h | h
    · exact h
    · exfalso
      rw [← h] at hDdef
      nlinarith [mul_self_nonneg (d1.dot d2)]
  have hu : (s - s0) * (s - s0) * D ≤ 0 := by
    have h1 := mul_self_nonneg ((t - t0) * d2.dot d2 - (s - s0) * d1.dot d2)
    have h2 := mul_nonpos_of_nonneg_of_nonpos hc hq
    have e : (s - s0) * (s - s0) * D = d2.dot d2 * ((s - s0) * (s - s0) * d1.dot d1 - 2 * (s - s0) * (t - t0) * d1.dot d2
        + (t - t0) * (t - t0) * d2.dot d2) - ((t - t0) * d2.dot d2 - (s - s0) * d1.dot d2)
          * ((t - t0) * d2.dot d2 - (s - s0) * d1.dot d2) := by
      rw [hDdef]; ring
    linarith
  have hv : (t - t0) * (t - t0) * D ≤ 0 := by
    have h1 := mul_self_nonneg ((s - s0) * d1.dot d1 - (t - t0) * d1.dot d2)
    have h2 := mul_nonpos_of_nonneg_of_nonpos ha hq
    have e : (t - t0) * (t - t0) * D = d1.dot d1 * ((s - s0) * (s - s0) * d1.dot d1 - 2 * (s - s0) * (t - t0) * d1.dot d2
        + (t - t0) * (t - t0) * d2.dot d2) - ((s - s0) * d1.dot d1 - (t - t0) * d1.dot d2)
          * ((s - s0) * d1.dot d1 - (t - t0) * d1.dot d2) := by
      rw [hDdef]; ring
    linarith
  have hs : s = s0 := by
    have h1 := mul_self_nonneg (s - s0)
    have : (s - s0) * (s - s0) = 0 := by nlinarith
    linarith [mul_self_eq_zero.1 this]
  have ht : t = t0 := by
    have h1 := mul_self_nonneg (t - t0)
    have : (t - t0) * (t - t0) = 0 := by nlinarith
    linarith [mul_self_eq_zero.1 this]
  rw [hs, ht]
  exact ⟨es, et⟩

theorem closest_exists {d1 d2 p : V3 ℝ} (hD : 0 < d1.dot d1 * d2.dot d2 - d1.dot d2 * d1.dot d2) :
    ∃ s t, ∀ s' t', sqDist (onLine V3.zero d1 s) (onLine p d2 t) ≤ sqDist (onLine V3.zero d1 s') (onLine p d2 t') := by
  set D := d1.dot d1 * d2.dot d2 - d1.dot d2 * d1.dot d2 with hDdef
  set s0 := (d2.dot d2 * d1.dot p - d1.dot d2 * d2.dot p) / D with hs0
  set t0 := (d1.dot d2 * d1.dot p - d1.dot d1 * d2.dot p) / D with ht0
  have es : s0 * D = d2.dot d2 * d1.dot p - d1.dot d2 * d2.dot p := div_mul_cancel₀ _ hD.ne'
  have et : t0 * D = d1.dot d2 * d1.dot p - d1.dot d1 * d2.dot p := div_mul_cancel₀ _ hD.ne'
  have n1 : s0 * d1.dot d1 - t0 * d1.dot d2 = d1.dot p := by
    have : (s0 * d1.dot d1 - t0 * d1.dot d2) * D = d1.dot p * D := by
      have : (s0 * d1.dot d1 - t0 * d1.dot d2) * D = s0 * D * d1.dot d1 - t0 * D * d1.dot d2 := by ring
      rw [this, es, et, hDdef]; ring
    exact mul_right_cancel₀ hD.ne' this
  have n2 : s0 * d1.dot d2 - t0 * d2.dot d2 = d2.dot p := by
    have : (s0 * d1.dot d2 - t0 * d2.dot d2) * D = d2.dot p * D := by
      have : (s0 * d1.dot d2 - t0 * d2.dot d2) * D = s0 * D * d1.dot d2 - t0 * D * d2.dot d2 := by ring
      rw [this, es, et, hDdef]; ring
    exact mul_right_cancel₀ hD.ne' this
  have split : ∀ s' t', sqDist (onLine V3.zero d1 s') (onLine p d2 t') =
      s' * s' * d1.dot d1 + p.dot p + t' * t' * d2.dot d2 - 2 * s' * d1.dot p - 2 * s' * t' * d1.dot d2
        + 2 * t' * d2.dot p := by
    intro s' t'
    simp only [sqDist, onLine, V3.zero, V3.add, V3.sub, V3.smul, V3.dot]; ring
  refine ⟨s0, t0, fun s t => ?_⟩
  rw [split, split, ← n1, ← n2]
  have hq := V3.self_nonneg ((d1.smul (s - s0)).sub (d2.smul (t - t0)))
  have e : ((d1.smul (s - s0)).sub (d2.smul (t - t0))).dot ((d1.smul (s - s0)).sub (d2.smul (t - t0))) =
      (s - s0) * (s - s0) * d1.dot d1 - 2 * (s - s0) * (t - t0) * d1.dot d2 + (t - t0) * (t - t0) * d2.dot d2 := by
    simp only [V3.sub, V3.smul, V3.dot]; ring
  rw [e] at hq
  nlinarith

theorem inFront_iff (f1 f2 : V2) (R : M3 ℝ) (p : V3 ℝ) :
    inFront (f1, f2) R p = true ↔
      0 < (R.transpose.mulVec (homog f2)).dot (R.transpose.mulVec (homog f2)) * (homog f1).dot p
          - (homog f1).dot (R.transpose.mulVec (homog f2)) * (R.transpose.mulVec (homog f2)).dot p ∧
        0 < (homog f1).dot (R.transpose.mulVec (homog f2)) * (homog f1).dot p
          - (homog f1).dot (homog f1) * (R.transpose.mulVec (homog f2)).dot p := by
  simp only [inFront, Bool.and_eq_true, decide_eq_true_eq]

theorem onLine_z (s : ℝ) (f : V2) : (onLine V3.zero (homog f) s).z = s := by
  simp [onLine, V3.add, V3.smul, V3.zero, homog]

theorem onLine_depth {R : M3 ℝ} (hR : R.IsRotation) (p : V3 ℝ) (f : V2) (t : ℝ) :
    (R.mulVec ((onLine p (R.transpose.mulVec (homog f)) t).sub p)).z = t := by
  have : (onLine p (R.transpose.mulVec (homog f)) t).sub p = R.transpose.mulVec ((homog f).smul t) := by
    rw [M3.mulVec_smul]
    apply V3.ext <;> simp only [onLine, V3.add, V3.sub, V3.smul] <;> ring
  rw [this, hR.mulVec_transpose]
  simp [V3.smul, homog]

theorem inFront_parallel {f1 f2 : V2} {R : M3 ℝ} (p : V3 ℝ)
    (h : Parallel (homog f1) (R.transpose.mulVec (homog f2))) : inFront (f1, f2) R p = false := by
  cases hb : inFront (f1, f2) R p
  · rfl
  · exfalso
    rw [inFront_iff] at hb
    generalize R.transpose.mulVec (homog f2) = e at h hb
    have h1 : (0 : ℝ) < (homog f1).dot (homog f1) := by
      have := mul_self_nonneg f1.1
      have := mul_self_nonneg f1.2
      simp only [homog, V3.dot]; nlinarith
    have k1 : e.smul ((homog f1).dot (homog f1)) = (homog f1).smul ((homog f1).dot e) := by
      generalize homog f1 = v at h ⊢
      simp only [Parallel, V3.cross, V3.zero, V3.mk.injEq] at h
      obtain ⟨a, b, c⟩ := h
      apply V3.ext <;> simp only [V3.smul, V3.dot]
      · linear_combination v.z * b - v.y * c
      · linear_combination -v.z * a + v.x * c
      · linear_combination v.y * a - v.x * b
    have k2 : (homog f1).dot (homog f1) * e.dot p = (homog f1).dot e * (homog f1).dot p := by
      have := congrArg (fun w : V3 ℝ => w.dot p) k1
      simp only [V3.smul, V3.dot] at this ⊢
      linarith
    linarith [hb.2]

/-! ## Angles -/

theorem anyBelow_iff (c : ℝ) (d : V3 ℝ) (l : List (V3 ℝ)) : anyBelow c d l = true ↔ ∃ e ∈ l, d.dot e < c := by
  induction l with
  | nil => simp [anyBelow]
  | cons e es ih =>
    simp only [anyBelow, List.mem_cons, exists_eq_or_imp]
    by_cases h : d.dot e < c
    · simp [h]
    · simp [h, ih]

theorem anyPairBelow_iff (c : ℝ) (l : List (V3 ℝ)) :
    anyPairBelow c l = true ↔ ¬ l.Pairwise (fun d e => c ≤ d.dot e) := by
  induction l with
  | nil => simp [anyPairBelow]
  | cons d ds ih =>
    simp only [anyPairBelow, List.pairwise_cons, not_and_or]
    by_cases h : anyBelow c d ds = true
    · rw [if_pos h]
      rw [anyBelow_iff] at h
      obtain ⟨e, he, hlt⟩ := h
      simp only [true_iff]
      exact Or.inl (fun hall => absurd (hall e he) (not_le.2 hlt))
    · rw [if_neg h, ih]
      constructor
      · exact Or.inr
      · rintro (h' | h')
        · exfalso
          apply h
          rw [anyBelow_iff]
          by_contra hcon
          apply h'
          intro e he
          by_contra hlt
          exact hcon ⟨e, he, not_le.1 hlt⟩
        · exact h'

theorem pairwise_iff_index {α : Type} (r : α → α → Prop) (l : List α) :
    l.Pairwise r ↔ ∀ (i j : Nat) (a b : α), i < j → l[i]? = some a → l[j]? = some b → r a b := by
  rw [List.pairwise_iff_getElem]
  constructor
  · intro h i j a b hij ha hb
    obtain ⟨hi, rfl⟩ := List.getElem?_eq_some_iff.1 ha
    obtain ⟨hj, rfl⟩ := List.getElem?_eq_some_iff.1 hb
    exact h i j hi hj hij
  · intro h i j hi hj hij
    exact h i j _ _ hij (List.getElem?_eq_getElem hi) (List.getElem?_eq_getElem hj)

theorem unit_dot_le {d e : V3 ℝ} (hd : d.dot d = 1) (he : e.dot e = 1) : -1 ≤ d.dot e ∧ d.dot e ≤ 1 := by
  have := V3.cauchy d e
  rw [hd, he] at this
  constructor <;> nlinarith

theorem angle_lt_iff {d e : V3 ℝ} (hd : d.dot d = 1) (he : e.dot e = 1) {deg : ℝ} (h0 : 0 ≤ deg) (h1 : deg ≤ 180) :
    d.dot e < Real.cos (deg * (Real.pi / 180)) ↔ deg < angleDegrees d e := by
  obtain ⟨hl, hu⟩ := unit_dot_le hd he
  have hpi := Real.pi_pos
  have r0 : 0 ≤ deg * (Real.pi / 180) := by positivity
  have r1 : deg * (Real.pi / 180) ≤ Real.pi := by
    have := mul_le_mul_of_nonneg_right h1 (by positivity : 0 ≤ Real.pi / 180)
    linarith
  have k : d.dot e < Real.cos (deg * (Real.pi / 180)) ↔ deg * (Real.pi / 180) < Real.arccos (d.dot e) := by
    constructor
    · intro h
      have := Real.strictAntiOn_arccos ⟨hl, hu⟩ ⟨Real.neg_one_le_cos _, Real.cos_le_one _⟩ h
      rwa [Real.arccos_cos r0 r1] at this
    · intro h
      have := Real.strictAntiOn_cos ⟨r0, r1⟩ ⟨Real.arccos_nonneg _, Real.arccos_le_pi _⟩ h
      rwa [Real.cos_arccos hl hu] at this
  rw [k, angleDegrees, lt_div_iff₀ hpi]
  constructor <;> intro h <;> linarith

/-! ## Epipolar constraint -/

theorem crossMatrix_mulVec (v u : V3 ℝ) : (crossMatrix v).mulVec u = v.cross u := by
  apply V3.ext <;> simp only [crossMatrix, M3.mulVec, V3.dot, V3.cross] <;> ring

theorem normalize_eq (v : V3 ℝ) : ∃ k, 0 < k ∧ normalize v = v.smul k := by
  unfold normalize
  by_cases h : 0 < v.dot v
  · rw [if_pos h]
    exact ⟨_, by have := Real.sqrt_pos.2 h; positivity, rfl⟩
  · rw [if_neg h]
    exact ⟨1, one_pos, (V3.one_smul' v).symm⟩

theorem normalize_unit {v : V3 ℝ} (h : v ≠ V3.zero) : (normalize v).dot (normalize v) = 1 := by
  have hp := V3.self_pos h
  unfold normalize
  rw [if_pos hp]
  have hs := Real.sqrt_pos.2 hp
  have hm := Real.mul_self_sqrt hp.le
  generalize Real.sqrt (v.dot v) = s at hs hm
  have : (v.smul (1 / s)).dot (v.smul (1 / s)) = v.dot v / (s * s) := by
    simp only [V3.smul, V3.dot]; field_simp
  rw [this, hm, div_self hp.ne']

/-- The first camera coordinates are the rotated second ones plus a multiple of the baseline. -/
theorem relative_coordinates (P1 P2 : P34) (h2 : P2.1.IsRotation) (X : V4) :
    applyP P1 X = ((P1.1.mul P2.1.transpose).mulVec (applyP P2 X)).add ((relativeTranslation P1 P2).smul X.2) := by
  have e : (P1.1.mul P2.1.transpose).mulVec (applyP P2 X) =
      (P1.1.mulVec X.1).add (((P1.1.mul P2.1.transpose).mulVec P2.2).smul X.2) := by
    simp only [applyP]
    rw [M3.mulVec_add, M3.mulVec_smul, M3.mulVec_mul, h2.transpose_mulVec]
  rw [e]
  apply V3.ext <;> simp only [applyP, relativeTranslation, V3.add, V3.sub, V3.smul] <;> ring

theorem essential_mulVec (P1 P2 : P34) (v : V3 ℝ) :
    (essentialFromPoses P1 P2).mulVec v =
      (normalize (relativeTranslation P1 P2)).cross ((P1.1.mul P2.1.transpose).mulVec v) := by
  rw [essentialFromPoses, M3.mulVec_mul, crossMatrix_mulVec]

theorem epipolar (P1 P2 : P34) (h2 : P2.1.IsRotation) (X : V4) :
    (applyP P1 X).dot ((essentialFromPoses P1 P2).mulVec (applyP P2 X)) = 0 := by
  rw [essential_mulVec, relative_coordinates P1 P2 h2 X]
  obtain ⟨k, -, hk⟩ := normalize_eq (relativeTranslation P1 P2)
  rw [hk]
  generalize relativeTranslation P1 P2 = T
  generalize (P1.1.mul P2.1.transpose).mulVec (applyP P2 X) = y
  simp only [V3.dot, V3.cross, V3.add, V3.smul]
  ring

/-! ## Two views -/

theorem findOptimal_exact {E : M3 ℝ} {p1 p2 : V2} (hc : (homog p1).dot (E.mulVec (homog p2)) = 0)
    (hE : E.mulVec (homog p2) ≠ V3.zero) : findOptimalImagePoints E p1 p2 = .ok (p1, p2) := by
  unfold findOptimalImagePoints
  have hl : 0 < sq2 (head2 (E.mulVec (homog p2))) := by
    generalize hv : E.mulVec (homog p2) = l at hc hE
    have h1 := mul_self_nonneg l.x
    have h2 := mul_self_nonneg l.y
    rcases lt_or_eq_of_le (add_nonneg h1 h2) with h | h
    · exact h
    · exfalso
      have hx : l.x = 0 := mul_self_eq_zero.1 (by linarith)
      have hy : l.y = 0 := mul_self_eq_zero.1 (by linarith)
      have hz : l.z = 0 := by
        simp only [homog, V3.dot, hx, hy] at hc
        linarith
      exact hE (V3.ext hx hy hz)
  have hb : 0 < (sq2 (head2 (E.mulVec (homog p2))) + sq2 (head2 (E.transpose.mulVec (homog p1)))) / 2 := by
    have : 0 ≤ sq2 (head2 (E.transpose.mulVec (homog p1))) := add_nonneg (mul_self_nonneg _) (mul_self_nonneg _)
    linarith
  generalize head2 (E.mulVec (homog p2)) = l1 at hl hb
  generalize head2 (E.transpose.mulVec (homog p1)) = l2 at hb
  simp only [hc, mul_zero, sub_zero, zero_div]
  rw [if_neg (not_lt.2 (mul_self_nonneg _)), Real.sqrt_mul_self hb.le, if_neg (by linarith)]
  unfold correctPoints
  have e1 : ∀ (F : M3 ℝ) (l : V2), updateLine F 0 l = l := by
    intro F l; simp [updateLine]
  rw [e1, e1, if_neg (by linarith)]
  simp [moveAlong]

theorem sqNorm_nonneg (l : List ℝ) : 0 ≤ sqNorm l := by
  induction l with
  | nil => simp [sqNorm]
  | cons a l ih =>
    simp only [sqNorm, List.map_cons, List.sum_cons] at ih ⊢
    have := mul_self_nonneg a
    linarith

theorem sqNorm_eq_zero {l : List ℝ} (h : sqNorm l = 0) : ∀ a ∈ l, a = 0 := by
  induction l with
  | nil => simp
  | cons a l ih =>
    have h1 := mul_self_nonneg a
    have h2 := sqNorm_nonneg l
    have h3 : sqNorm (a :: l) = a * a + sqNorm l := by simp [sqNorm]
    intro b hb
    rcases List.mem_cons.1 hb with rfl | hb
    · exact mul_self_eq_zero.1 (by linarith)
    · exact ih (by linarith) b hb

theorem seesAt_iff (P : P34) (X : V4) (p : V2) (z : ℝ) : SeesAt P.1 P.2 X.1 X.2 p z ↔ applyP P X = (homog p).smul z :=
  Iff.rfl

theorem applyP_smul (P : P34) (X : V4) (s : ℝ) : applyP P (X.1.smul s, s * X.2) = (applyP P X).smul s := by
  apply V3.ext <;> simp only [applyP, M3.mulVec, V3.add, V3.smul, V3.dot] <;> ring

theorem dlt_zero_iff (P1 P2 : P34) (p1 p2 : V2) (X : V4) :
    sqNorm (dltDesign P1 P2 p1 p2 X) = 0 ↔
      SeesAt P1.1 P1.2 X.1 X.2 p1 (applyP P1 X).z ∧ SeesAt P2.1 P2.2 X.1 X.2 p2 (applyP P2 X).z := by
  rw [seesAt_iff, seesAt_iff]
  generalize hy1 : applyP P1 X = y1
  generalize hy2 : applyP P2 X = y2
  constructor
  · intro h
    have := sqNorm_eq_zero h
    simp only [dltDesign, hy1, hy2, dltRow, List.mem_cons, List.not_mem_nil, or_false, forall_eq_or_imp, forall_eq] at this
    obtain ⟨a, b, c, d⟩ := this
    constructor
    · apply V3.ext <;> simp only [homog, V3.smul] <;> linarith
    · apply V3.ext <;> simp only [homog, V3.smul] <;> linarith
  · rintro ⟨h1, h2⟩
    have a1 := congrArg V3.x h1
    have a2 := congrArg V3.y h1
    have b1 := congrArg V3.x h2
    have b2 := congrArg V3.y h2
    simp only [homog, V3.smul] at a1 a2 b1 b2
    have e1 : p1.1 * y1.z - y1.x = 0 := by linarith
    have e2 : p1.2 * y1.z - y1.y = 0 := by linarith
    have e3 : p2.1 * y2.z - y2.x = 0 := by linarith
    have e4 : p2.2 * y2.z - y2.y = 0 := by linarith
    simp [sqNorm, dltDesign, dltRow, hy1, hy2, e1, e2, e3, e4]

theorem seesAt_depth {P : P34} {X : V4} {p : V2} {z : ℝ} (h : SeesAt P.1 P.2 X.1 X.2 p z) : (applyP P X).z = z := by
  rw [seesAt_iff] at h
  rw [h]; simp [homog, V3.smul]

theorem unit_ne_zero {v : V4} (h : Unit4 v) : v ≠ (V3.zero, 0) := by
  rintro rfl
  simp [Unit4, V3.dot_zero] at h

/-- A quadratic form with a nontrivial zero vanishes at its smallest vector. -/
theorem smallest_zero {q : V4 → ℝ} {v : V4} (hv : SmallestVector q v) (hq : ∀ u, 0 ≤ q u)
    (hs : ∀ (u : V4) (s : ℝ), q (u.1.smul s, s * u.2) = s * s * q u) {X : V4} (hX : X ≠ (V3.zero, 0)) (h0 : q X = 0) :
    q v = 0 := by
  have hn : 0 < X.1.dot X.1 + X.2 * X.2 := by
    have h1 := V3.self_nonneg X.1
    have h2 := mul_self_nonneg X.2
    rcases lt_or_eq_of_le (add_nonneg h1 h2) with h | h
    · exact h
    · exfalso
      exact hX (Prod.ext (V3.self_eq_zero (by linarith)) (mul_self_eq_zero.1 (by linarith)))
  have hr := Real.sqrt_pos.2 hn
  have hm := Real.mul_self_sqrt hn.le
  generalize Real.sqrt (X.1.dot X.1 + X.2 * X.2) = r at hr hm
  have hu : Unit4 (X.1.smul (1 / r), 1 / r * X.2) := by
    have : (X.1.smul (1 / r)).dot (X.1.smul (1 / r)) + 1 / r * X.2 * (1 / r * X.2) =
        (X.1.dot X.1 + X.2 * X.2) / (r * r) := by
      simp only [V3.smul, V3.dot]; field_simp
    show (X.1.smul (1 / r)).dot (X.1.smul (1 / r)) + 1 / r * X.2 * (1 / r * X.2) = 1
    rw [this, hm, div_self hn.ne']
  have := hv.2 _ hu
  rw [hs, h0, mul_zero] at this
  exact le_antisymm this (hq v)

theorem dlt_scale (P1 P2 : P34) (p1 p2 : V2) (u : V4) (s : ℝ) :
    sqNorm (dltDesign P1 P2 p1 p2 (u.1.smul s, s * u.2)) = s * s * sqNorm (dltDesign P1 P2 p1 p2 u) := by
  simp only [dltDesign, applyP_smul]
  simp only [dltRow, sqNorm, V3.smul, List.map_cons, List.map_nil, List.sum_cons, List.sum_nil]
  ring

/-- Two points seen at the same image points are the same, if the second ray is not parallel to the baseline. -/
theorem same_point {P1 P2 : P34} (h1 : P1.1.IsRotation) (h2 : P2.1.IsRotation) {p1 p2 : V2} {X v : V4} {z1 z2 l1 l2 : ℝ}
    (hz1 : z1 ≠ 0) (hX1 : SeesAt P1.1 P1.2 X.1 X.2 p1 z1) (hX2 : SeesAt P2.1 P2.2 X.1 X.2 p2 z2)
    (hv1 : SeesAt P1.1 P1.2 v.1 v.2 p1 l1) (hv2 : SeesAt P2.1 P2.2 v.1 v.2 p2 l2)
    (hb : ¬ Parallel (relativeTranslation P1 P2) ((P1.1.mul P2.1.transpose).mulVec (homog p2))) :
    v = (X.1.smul (l1 / z1), l1 / z1 * X.2) := by
  rw [seesAt_iff] at hX1 hX2 hv1 hv2
  set k := l1 / z1 with hk
  have hkz : k * z1 = l1 := div_mul_cancel₀ _ hz1
  -- the difference is seen at zero by the first camera
  have r1 := relative_coordinates P1 P2 h2 X
  have r2 := relative_coordinates P1 P2 h2 v
  rw [hX1, hX2, M3.mulVec_smul] at r1
  rw [hv1, hv2, M3.mulVec_smul] at r2
  generalize hR : (P1.1.mul P2.1.transpose).mulVec (homog p2) = y at hb r1 r2
  generalize hT : relativeTranslation P1 P2 = T at hb r1 r2
  have hw : v.2 - k * X.2 = 0 := by
    by_contra hne
    apply hb
    have e : T.smul (v.2 - k * X.2) = y.smul (k * z2 - l2) := by
      have a1 := congrArg V3.x r1
      have a2 := congrArg V3.y r1
      have a3 := congrArg V3.z r1
      have b1 := congrArg V3.x r2
      have b2 := congrArg V3.y r2
      have b3 := congrArg V3.z r2
      simp only [V3.smul, V3.add] at a1 a2 a3 b1 b2 b3
      rw [← hkz] at b1 b2 b3
      apply V3.ext <;> simp only [V3.smul]
      · linear_combination k * a1 - b1
      · linear_combination k * a2 - b2
      · linear_combination k * a3 - b3
    have e2 : (T.cross y).smul (v.2 - k * X.2) = V3.zero := by
      have : (T.cross y).smul (v.2 - k * X.2) = (T.smul (v.2 - k * X.2)).cross y := by
        apply V3.ext <;> simp only [V3.smul, V3.cross] <;> ring
      rw [this, e]
      apply V3.ext <;> simp only [V3.smul, V3.cross, V3.zero] <;> ring
    exact V3.eq_zero_of_smul hne e2
  have hM : P1.1.mulVec (v.1.sub (X.1.smul k)) = V3.zero := by
    rw [M3.mulVec_sub, M3.mulVec_smul]
    have hv2' : v.2 = k * X.2 := by linarith
    simp only [applyP] at hX1 hv1
    have a1 := congrArg V3.x hX1
    have a2 := congrArg V3.y hX1
    have a3 := congrArg V3.z hX1
    have b1 := congrArg V3.x hv1
    have b2 := congrArg V3.y hv1
    have b3 := congrArg V3.z hv1
    simp only [V3.smul, V3.add, hv2'] at a1 a2 a3 b1 b2 b3
    rw [← hkz] at b1 b2 b3
    apply V3.ext <;> simp only [V3.smul, V3.sub, V3.zero]
    · linear_combination b1 - k * a1
    · linear_combination b2 - k * a2
    · linear_combination b3 - k * a3
  have h0 : v.1.sub (X.1.smul k) = V3.zero := by
    have := h1.transpose_mulVec (v.1.sub (X.1.smul k))
    rw [hM] at this
    rw [← this]
    apply V3.ext <;> simp [M3.mulVec, V3.zero, V3.dot]
  exact Prod.ext (V3.sub_eq_zero h0) (by simp only; linarith)

theorem baseline_not_parallel {P1 P2 : P34} (h1 : P1.1.IsRotation) (h2 : P2.1.IsRotation) {c1 c2 d2 : V3 ℝ} {p2 : V2}
    (hc1 : Centre P1.1 P1.2 c1) (hc2 : Centre P2.1 P2.2 c2) (hd : P2.1.mulVec d2 = homog p2)
    (hb : ¬ Parallel (c1.sub c2) d2) :
    ¬ Parallel (relativeTranslation P1 P2) ((P1.1.mul P2.1.transpose).mulVec (homog p2)) := by
  have e1 : (P1.1.mul P2.1.transpose).mulVec (homog p2) = P1.1.mulVec d2 := by
    rw [← hd, M3.mulVec_mul, h2.transpose_mulVec]
  have e2 : relativeTranslation P1 P2 = P1.1.mulVec (c2.sub c1) := by
    have t1 : P1.2 = (P1.1.mulVec c1).neg := by
      have := hc1
      simp only [Centre, V3.add, V3.zero, V3.mk.injEq] at this
      apply V3.ext <;> simp only [V3.neg] <;> linarith [this.1, this.2.1, this.2.2]
    have t2 : P2.2 = (P2.1.mulVec c2).neg := by
      have := hc2
      simp only [Centre, V3.add, V3.zero, V3.mk.injEq] at this
      apply V3.ext <;> simp only [V3.neg] <;> linarith [this.1, this.2.1, this.2.2]
    rw [relativeTranslation, t1, t2, M3.mulVec_neg, M3.mulVec_mul, h2.transpose_mulVec, M3.mulVec_sub]
    apply V3.ext <;> simp only [V3.neg, V3.sub] <;> ring
  rw [e1, e2]
  intro h
  apply hb
  rw [Parallel, ← AngleAxis.mulVec_cross h1] at h
  have h0 : (c2.sub c1).cross d2 = V3.zero := by
    have := h1.transpose_mulVec ((c2.sub c1).cross d2)
    rw [h] at this
    rw [← this]
    apply V3.ext <;> simp [M3.mulVec, V3.zero, V3.dot]
  have e3 : (c1.sub c2).cross d2 = ((c2.sub c1).cross d2).neg := by
    apply V3.ext <;> simp only [V3.cross, V3.sub, V3.neg] <;> ring
  rw [Parallel, e3, h0]
  apply V3.ext <;> simp [V3.neg, V3.zero]

theorem cross_smul_ne {a b : V3 ℝ} {k : ℝ} (hk : 0 < k) (h : ¬ Parallel a b) : (a.smul k).cross b ≠ V3.zero := by
  intro e
  apply h
  have : (a.smul k).cross b = (a.cross b).smul k := by
    apply V3.ext <;> simp only [V3.smul, V3.cross] <;> ring
  rw [this] at e
  exact V3.eq_zero_of_smul hk.ne' e

theorem essential_line_ne {P1 P2 : P34} {p2 : V2}
    (h : ¬ Parallel (relativeTranslation P1 P2) ((P1.1.mul P2.1.transpose).mulVec (homog p2))) :
    (essentialFromPoses P1 P2).mulVec (homog p2) ≠ V3.zero := by
  rw [essential_mulVec]
  obtain ⟨k, hk, hn⟩ := normalize_eq (relativeTranslation P1 P2)
  rw [hn]
  exact cross_smul_ne hk h

/-! ## Any number of views -/

theorem homog_ne_zero (p : V2) : homog p ≠ V3.zero := by
  intro h
  have := congrArg V3.z h
  simp [homog, V3.zero] at this

theorem nViewTerm_nonneg (P : P34) (p : V2) (X : V4) : 0 ≤ nViewTerm P p X := V3.self_nonneg _

theorem nViewTerm_zero_iff (P : P34) (p : V2) (X : V4) :
    nViewTerm P p X = 0 ↔ SeesAt P.1 P.2 X.1 X.2 p (applyP P X).z := by
  rw [seesAt_iff]
  unfold nViewTerm
  have hu := normalize_unit (homog_ne_zero p)
  obtain ⟨k, hk, hn⟩ := normalize_eq (homog p)
  generalize hy : applyP P X = y
  constructor
  · intro h
    have h1 := V3.sub_eq_zero (V3.self_eq_zero h)
    generalize (normalize (homog p)).dot y = c at h1
    rw [hn, V3.smul_smul] at h1
    have hz := congrArg V3.z h1
    have : (homog p).z = 1 := rfl
    simp only [V3.smul, this, mul_one] at hz
    rw [hz]
    exact h1
  · intro h
    have e : y.sub ((normalize (homog p)).smul ((normalize (homog p)).dot y)) = V3.zero := by
      have h2 : y = (normalize (homog p)).smul (y.z / k) := by
        rw [hn, V3.smul_smul, div_mul_cancel₀ _ hk.ne']
        exact h
      have h3 : (normalize (homog p)).dot y = y.z / k := by
        have : (normalize (homog p)).dot ((normalize (homog p)).smul (y.z / k)) =
            y.z / k * (normalize (homog p)).dot (normalize (homog p)) := by
          simp only [V3.dot, V3.smul]; ring
        rw [← h2, hu, mul_one] at this
        exact this
      rw [h3]
      generalize normalize (homog p) = n at h2
      generalize y.z / k = c at h2
      rw [h2]
      apply V3.ext <;> simp only [V3.sub, V3.smul, V3.zero] <;> ring
    simp only [e, V3.dot_zero]

theorem nViewCost_nonneg (os : List (P34 × V2)) (X : V4) : 0 ≤ nViewCost os X := by
  induction os with
  | nil => simp [nViewCost]
  | cons o os ih =>
    have := nViewTerm_nonneg o.1 o.2 X
    simp only [nViewCost]; linarith

theorem nViewCost_zero_iff (os : List (P34 × V2)) (X : V4) :
    nViewCost os X = 0 ↔ ∀ o ∈ os, SeesAt o.1.1 o.1.2 X.1 X.2 o.2 (applyP o.1 X).z := by
  induction os with
  | nil => simp [nViewCost]
  | cons o os ih =>
    have h1 := nViewTerm_nonneg o.1 o.2 X
    have h2 := nViewCost_nonneg os X
    simp only [nViewCost, List.forall_mem_cons]
    rw [← ih, ← nViewTerm_zero_iff]
    constructor
    · intro h; exact ⟨by linarith, by linarith⟩
    · rintro ⟨a, b⟩; linarith

theorem nViewCost_scale (os : List (P34 × V2)) (u : V4) (s : ℝ) :
    nViewCost os (u.1.smul s, s * u.2) = s * s * nViewCost os u := by
  induction os with
  | nil => simp [nViewCost]
  | cons o os ih =>
    simp only [nViewCost, ih]
    have : nViewTerm o.1 o.2 (u.1.smul s, s * u.2) = s * s * nViewTerm o.1 o.2 u := by
      unfold nViewTerm
      rw [applyP_smul]
      generalize normalize (homog o.2) = n
      generalize applyP o.1 u = y
      simp only [V3.dot, V3.sub, V3.smul]; ring
    rw [this]; ring

/-! ### The singular value decomposition with all views -/

theorem svdRow_zero {mem : Nat → Nat → V3 ℝ} (hmem : ∀ i j, mem i j = V3.zero) (points : List V2) (i : Nat) {p : V2}
    (hp : points[i]? = some p) : ∀ (alpha : List ℝ) (j : Nat),
      svdRow mem points i j alpha = (homog p).smul (if j ≤ i then (alpha[i - j]?).getD 0 else 0)
  | [], j => by simp [svdRow, V3.smul, V3.zero]
  | a :: as, j => by
    simp only [svdRow, svdRow_zero hmem points i hp as (j + 1), svdBlock]
    rcases Nat.lt_trichotomy i j with h | h | h
    · rw [if_neg (by omega), if_neg (by omega), if_neg (by omega), hmem]
      apply V3.ext <;> simp [V3.smul, V3.add, V3.zero]
    · subst h
      rw [if_pos rfl, if_neg (by omega), if_pos (le_refl _), hp]
      apply V3.ext <;> simp [V3.smul, V3.add]
    · rw [if_neg (by omega), if_pos (by omega), if_pos (by omega), hmem]
      have : i - j = (i - (j + 1)) + 1 := by omega
      rw [this, List.getElem?_cons_succ]
      apply V3.ext <;> simp [V3.smul, V3.add, V3.zero]

theorem svdCost_nonneg (mem : Nat → Nat → V3 ℝ) (points : List V2) (X : V4) (alpha : List ℝ) :
    ∀ (Ps : List P34) (i : Nat), 0 ≤ svdCost mem points X alpha i Ps
  | [], i => by simp [svdCost]
  | P :: Ps, i => by
    simp only [svdCost]
    exact add_nonneg (V3.self_nonneg _) (svdCost_nonneg mem points X alpha Ps (i + 1))

theorem svdCost_zero_iff (mem : Nat → Nat → V3 ℝ) (points : List V2) (X : V4) (alpha : List ℝ) :
    ∀ (Ps : List P34) (i : Nat), svdCost mem points X alpha i Ps = 0 ↔
      ∀ (k : Nat) (P : P34), Ps[k]? = some P → applyP P X = svdRow mem points (i + k) 0 alpha
  | [], i => by simp [svdCost]
  | P :: Ps, i => by
    simp only [svdCost]
    have h1 := V3.self_nonneg ((applyP P X).neg.add (svdRow mem points i 0 alpha))
    have h2 := svdCost_nonneg mem points X alpha Ps (i + 1)
    have ih := svdCost_zero_iff mem points X alpha Ps (i + 1)
    have key : (applyP P X).neg.add (svdRow mem points i 0 alpha) = V3.zero ↔ applyP P X = svdRow mem points i 0 alpha := by
      generalize applyP P X = y
      generalize svdRow mem points i 0 alpha = z
      constructor
      · intro h
        simp only [V3.neg, V3.add, V3.zero, V3.mk.injEq] at h
        obtain ⟨a, b, c⟩ := h
        apply V3.ext <;> linarith
      · rintro rfl
        apply V3.ext <;> simp [V3.neg, V3.add, V3.zero]
    constructor
    · intro h
      have e1 := key.1 (V3.self_eq_zero (by linarith))
      have e2 := ih.1 (by linarith)
      intro k Q hk
      cases k with
      | zero =>
        simp only [List.getElem?_cons_zero, Option.some.injEq] at hk
        subst hk
        exact e1
      | succ k =>
        have := e2 k Q (by simpa using hk)
        rw [this]
        congr 1
        omega
    · intro h
      have e1 : applyP P X = svdRow mem points i 0 alpha := h 0 P rfl
      have e2 : svdCost mem points X alpha (i + 1) Ps = 0 := ih.2 (fun k Q hk => by
        have := h (k + 1) Q (by simpa using hk)
        rw [this]
        congr 1
        omega)
      rw [key.2 e1, e2, V3.dot_zero, add_zero]

end Triangulation
end Theia
