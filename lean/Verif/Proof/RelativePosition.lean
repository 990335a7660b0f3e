import Verif.Spec.RelativePosition
import Verif.Proof.EssentialMatrix
import Verif.Props.Triangulation
import Verif.Proof.Svd
import Mathlib.Tactic.LinearCombination

/-! # Lemmas on the relative position with known rotations -/

namespace Theia
namespace RelativePosition

open Triangulation AngleAxis EssentialMatrix
open Spec

theorem unit_of_orthogonal {U : M3 ℝ} (h : IsOrthogonal U) : (U.mulVec ⟨0, 0, 1⟩).dot (U.mulVec ⟨0, 0, 1⟩) = 1 := by
  rw [M3.dot_mulVec, ← M3.mulVec_mul, h.1, M3.one_mulVec]
  simp [V3.dot]

theorem dot_mulVec_right (a : M3 ℝ) (u v : V3 ℝ) : u.dot (a.mulVec v) = (a.transpose.mulVec u).dot v := by
  rw [M3.dot_mulVec]; rfl

theorem eq_zero_of_self {v : V3 ℝ} (h : v.dot v = 0) : v = V3.zero := by
  simp only [V3.dot] at h
  have h1 := mul_self_nonneg v.x
  have h2 := mul_self_nonneg v.y
  have h3 := mul_self_nonneg v.z
  apply V3.ext <;> simp only [V3.zero] <;> apply mul_self_eq_zero.1 <;> linarith

/-- If a nonzero vector is in the left kernel, the last left singular vector is too. -/
theorem last_in_kernel {E U V : M3 ℝ} (h : IsSvd E U V) {c : V3 ℝ} (hc : c ≠ V3.zero) (hk : E.transpose.mulVec c = V3.zero) :
    E.transpose.mulVec (U.mulVec ⟨0, 0, 1⟩) = V3.zero := by
  obtain ⟨hU, hV, s, h1, h2, h3, hE⟩ := h
  have hT : ∀ v, E.transpose.mulVec v = V.mulVec ⟨s.x * (U.transpose.mulVec v).x, s.y * (U.transpose.mulVec v).y,
      s.z * (U.transpose.mulVec v).z⟩ := by
    intro v
    rw [hE, M3.transpose_mul, M3.transpose_transpose, M3.mulVec_mul, M3.transpose_mul, M3.mulVec_mul]
    congr 1
    simp [M3.mulVec, M3.transpose, V3.dot]
  have hz : s.z = 0 := by
    by_contra hz
    have hzp : 0 < s.z := lt_of_le_of_ne h3 (Ne.symm hz)
    rw [hT] at hk
    have := congrArg V.transpose.mulVec hk
    rw [← M3.mulVec_mul, hV.1, M3.one_mulVec] at this
    have hzero : V.transpose.mulVec V3.zero = V3.zero := by simp [M3.mulVec, V3.dot, V3.zero]
    rw [hzero] at this
    simp only [V3.zero, V3.mk.injEq] at this
    obtain ⟨a, b, d⟩ := this
    have hu : U.transpose.mulVec c = V3.zero := by
      apply V3.ext <;> simp only [V3.zero]
      · exact (mul_eq_zero.1 a).resolve_left (by linarith)
      · exact (mul_eq_zero.1 b).resolve_left (by linarith)
      · exact (mul_eq_zero.1 d).resolve_left (by linarith)
    apply hc
    have := congrArg U.mulVec hu
    rw [← M3.mulVec_mul, hU.2, M3.one_mulVec] at this
    rw [this]; simp [M3.mulVec, V3.dot, V3.zero]
  rw [hT, ← M3.mulVec_mul, hU.1, M3.one_mulVec, hz]
  simp [M3.mulVec, V3.dot, V3.zero]

theorem outer_mulVec (a v : V3 ℝ) : (outer a).mulVec v = a.smul (a.dot v) := by
  apply V3.ext <;> simp only [outer, M3.mulVec, V3.dot, V3.smul] <;> ring

theorem addM_mulVec (a b : M3 ℝ) (v : V3 ℝ) : (addM a b).mulVec v = (a.mulVec v).add (b.mulVec v) := by
  apply V3.ext <;> simp only [addM, M3.mulVec, V3.dot, V3.add] <;> ring

theorem scaleM_mulVec (s : ℝ) (a : M3 ℝ) (v : V3 ℝ) : (scaleM s a).mulVec v = (a.mulVec v).smul s := by
  apply V3.ext <;> simp only [scaleM, M3.mulVec, V3.dot, V3.smul] <;> ring

theorem weighted_transpose (cols : List (V3 ℝ)) (ws : List ℝ) : (weighted cols ws).transpose = weighted cols ws := by
  induction cols generalizing ws with
  | nil => simp [weighted, zeroM, M3.transpose, V3.zero]
  | cons a cols ih =>
    cases ws with
    | nil => simp [weighted, zeroM, M3.transpose, V3.zero]
    | cons w ws =>
      have := ih ws
      simp only [weighted]
      generalize weighted cols ws = B at this
      obtain ⟨⟨b1, b2, b3⟩, ⟨b4, b5, b6⟩, ⟨b7, b8, b9⟩⟩ := B
      simp only [M3.transpose, M3.mk.injEq, V3.mk.injEq] at this
      obtain ⟨⟨-, e1, e2⟩, ⟨-, -, e3⟩, -⟩ := this
      subst e1 e2 e3
      simp only [addM, scaleM, outer, M3.transpose, V3.add, V3.smul, M3.mk.injEq, V3.mk.injEq]
      refine ⟨⟨trivial, ?_, ?_⟩, ⟨?_, trivial, ?_⟩, ⟨?_, ?_, trivial⟩⟩ <;> ring

/-- The kernel of the weighted matrix is the common kernel of the columns. -/
theorem weighted_kernel {cols : List (V3 ℝ)} {ws : List ℝ} (hl : ws.length = cols.length) (hw : ∀ w ∈ ws, 0 < w) (v : V3 ℝ) :
    (weighted cols ws).mulVec v = V3.zero ↔ ∀ a ∈ cols, a.dot v = 0 := by
  have quad : ∀ (cols : List (V3 ℝ)) (ws : List ℝ), ws.length = cols.length → (∀ w ∈ ws, 0 < w) →
      0 ≤ v.dot ((weighted cols ws).mulVec v) ∧ (v.dot ((weighted cols ws).mulVec v) = 0 → ∀ a ∈ cols, a.dot v = 0) := by
    intro cols
    induction cols with
    | nil => intro ws _ _; simp [weighted, zeroM, M3.mulVec, V3.dot, V3.zero]
    | cons a cols ih =>
      intro ws hl hw
      cases ws with
      | nil => simp at hl
      | cons w ws =>
        obtain ⟨i1, i2⟩ := ih ws (by simpa using hl) (fun x hx => hw x (by simp [hx]))
        have hwp : 0 < w⁻¹ := inv_pos.2 (hw w (by simp))
        have e : v.dot ((weighted (a :: cols) (w :: ws)).mulVec v) =
            w⁻¹ * (a.dot v * a.dot v) + v.dot ((weighted cols ws).mulVec v) := by
          rw [weighted, addM_mulVec, scaleM_mulVec, outer_mulVec]
          generalize (weighted cols ws).mulVec v = b
          simp only [V3.dot, V3.add, V3.smul]; ring
        have hsq := mul_nonneg hwp.le (mul_self_nonneg (a.dot v))
        refine ⟨by rw [e]; linarith, fun h0 => ?_⟩
        rw [e] at h0
        have z1 : w⁻¹ * (a.dot v * a.dot v) = 0 := by linarith
        have z2 : v.dot ((weighted cols ws).mulVec v) = 0 := by linarith
        intro b hb
        rcases List.mem_cons.1 hb with rfl | hb
        · exact mul_self_eq_zero.1 ((mul_eq_zero.1 z1).resolve_left hwp.ne')
        · exact i2 z2 b hb
  constructor
  · intro h
    apply (quad cols ws hl hw).2
    rw [h]; simp [V3.dot, V3.zero]
  · intro h
    clear quad hl hw
    induction cols generalizing ws with
    | nil => simp [weighted, zeroM, M3.mulVec, V3.dot, V3.zero]
    | cons a cols ih =>
      cases ws with
      | nil => simp [weighted, zeroM, M3.mulVec, V3.dot, V3.zero]
      | cons w ws =>
        rw [weighted, addM_mulVec, scaleM_mulVec, outer_mulVec, h a (by simp), ih (fun b hb => h b (by simp [hb]))]
        simp [V3.add, V3.smul, V3.zero]

theorem clamp_pos (w : ℝ) : 0 < clamp w := by
  unfold clamp
  split
  · norm_num
  · rename_i h; push Not at h; exact lt_of_lt_of_le (by norm_num) h

/-- Something that holds of every position an iteration can produce holds of the result of the loop. -/
theorem loop_spec (svdU : M3 ℝ → M3 ℝ) (cols : List (V3 ℝ)) (Q : V3 ℝ → Prop)
    (hQ : ∀ ws : List ℝ, ws.length = cols.length → (∀ w ∈ ws, 0 < w) → Q ((svdU (weighted cols ws)).mulVec ⟨0, 0, 1⟩))
    (n : Nat) (s : State) (hs : s.weights.length = cols.length) (h : Q s.position ∨ (0 < n ∧ s.inner < 10)) :
    Q (loop svdU cols n s).position := by
  induction n generalizing s with
  | zero => rcases h with h | h; exact h; exact absurd h.1 (lt_irrefl _)
  | succ n ih =>
    unfold loop
    by_cases hi : s.inner < 10
    · rw [if_pos hi]
      apply ih
      · simp [step]
      · left
        exact hQ _ (by simpa using hs) (by
          intro w hw
          obtain ⟨x, -, rfl⟩ := List.mem_map.1 hw
          exact clamp_pos x)
    · rw [if_neg hi]
      rcases h with h | h
      · exact h
      · exact absurd h.2 hi

/-- The position before the choice of the sign. -/
theorem position_spec (svdU : M3 ℝ → M3 ℝ) (initial : V3 ℝ) (cols : List (V3 ℝ)) (ones : List ℝ) (hl : ones.length = cols.length)
    (Q : V3 ℝ → Prop)
    (hQ : ∀ ws : List ℝ, ws.length = cols.length → (∀ w ∈ ws, 0 < w) → Q ((svdU (weighted cols ws)).mulVec ⟨0, 0, 1⟩)) :
    Q (loop svdU cols 100 ⟨initial, ones, 0, 0⟩).position :=
  loop_spec svdU cols Q hQ 100 _ hl (Or.inr ⟨by norm_num, by norm_num⟩)

theorem smul_neg_one (p : V3 ℝ) : p.smul (-1) = p.neg := by
  apply V3.ext <;> simp [V3.smul, V3.neg]

/-- A match is in front for at most one of two opposite directions. -/
theorem count_neg (corrs : List (V2 × V2)) (R : M3 ℝ) (p : V3 ℝ) :
    corrs.countP (fun c => inFront c R p) + corrs.countP (fun c => inFront c R p.neg) ≤ corrs.length := by
  induction corrs with
  | nil => simp
  | cons c corrs ih =>
    simp only [List.countP_cons, List.length_cons]
    by_cases h : inFront c R p = true
    · rw [if_pos h, inFront_neg h]; simp only [Bool.false_eq_true, if_false]; omega
    · rw [if_neg h]; split <;> omega

/-- What the rays of a match satisfy in space. -/
theorem exact_rays {R1 R2 : M3 ℝ} (h1 : R1.IsRotation) (h2 : R2.IsRotation) {C1 C2 X : V3 ℝ} {c : V2 × V2}
    (h : ExactMatch R1 R2 C1 C2 X c) : ∃ z1 z2, 0 < z1 ∧ 0 < z2 ∧ X.sub C1 = (R1.transpose.mulVec (homog c.1)).smul z1 ∧
      C2.sub C1 = ((R1.transpose.mulVec (homog c.1)).smul z1).sub ((R2.transpose.mulVec (homog c.2)).smul z2) ∧
      ¬ Parallel (X.sub C1) (C2.sub C1) := by
  obtain ⟨z1, z2, hz1, hz2, s1, s2, hp⟩ := h
  have e1 : X.sub C1 = (R1.transpose.mulVec (homog c.1)).smul z1 := by
    have := congrArg R1.transpose.mulVec s1
    rw [h1.transpose_mulVec, M3.mulVec_smul] at this; exact this
  have e2 : X.sub C2 = (R2.transpose.mulVec (homog c.2)).smul z2 := by
    have := congrArg R2.transpose.mulVec s2
    rw [h2.transpose_mulVec, M3.mulVec_smul] at this; exact this
  refine ⟨z1, z2, hz1, hz2, e1, ?_, hp⟩
  rw [← e1, ← e2]
  apply V3.ext <;> simp only [V3.sub] <;> ring

theorem infinite_rays {R1 R2 : M3 ℝ} (h1 : R1.IsRotation) (h2 : R2.IsRotation) {c : V2 × V2} (h : InfiniteMatch R1 R2 c) :
    ∃ k : ℝ, R2.transpose.mulVec (homog c.2) = (R1.transpose.mulVec (homog c.1)).smul k := by
  obtain ⟨d, z1, z2, hz1, hz2, s1, s2⟩ := h
  have e1 : d = (R1.transpose.mulVec (homog c.1)).smul z1 := by
    have := congrArg R1.transpose.mulVec s1
    rw [h1.transpose_mulVec, M3.mulVec_smul] at this; exact this
  have e2 : d = (R2.transpose.mulVec (homog c.2)).smul z2 := by
    have := congrArg R2.transpose.mulVec s2
    rw [h2.transpose_mulVec, M3.mulVec_smul] at this; exact this
  refine ⟨z1 / z2, ?_⟩
  rw [e1] at e2
  generalize R1.transpose.mulVec (homog c.1) = a at e2 ⊢
  generalize R2.transpose.mulVec (homog c.2) = b at e2 ⊢
  simp only [V3.smul, V3.mk.injEq] at e2
  obtain ⟨a1, a2, a3⟩ := e2
  have := hz2.ne'
  apply V3.ext <;> simp only [V3.smul] <;> field_simp <;> linarith

theorem column_dot {R1 R2 : M3 ℝ} (c : V2 × V2) (q : V3 ℝ) : (column R1 R2 c).dot q =
    ((R2.transpose.mulVec (homog c.2)).cross (R1.transpose.mulVec (homog c.1))).dot (R1.transpose.mulVec q) := by
  rw [column, M3.dot_mulVec]

theorem exact_column {R1 R2 : M3 ℝ} (h1 : R1.IsRotation) (h2 : R2.IsRotation) {C1 C2 X : V3 ℝ} {c : V2 × V2}
    (h : ExactMatch R1 R2 C1 C2 X c) : (column R1 R2 c).dot (R1.mulVec (C2.sub C1)) = 0 := by
  obtain ⟨z1, z2, -, -, -, e, -⟩ := exact_rays h1 h2 h
  rw [column_dot, h1.transpose_mulVec, e]
  simp only [V3.dot, V3.cross, V3.sub, V3.smul]; ring

theorem infinite_column {R1 R2 : M3 ℝ} (h1 : R1.IsRotation) (h2 : R2.IsRotation) {c : V2 × V2}
    (h : InfiniteMatch R1 R2 c) (q : V3 ℝ) : (column R1 R2 c).dot q = 0 := by
  obtain ⟨k, e⟩ := infinite_rays h1 h2 h
  rw [column_dot, e]
  simp only [V3.dot, V3.cross, V3.smul]; ring

/-- Two matches whose planes differ determine the direction. -/
theorem direction_of_two {R1 R2 : M3 ℝ} (h1 : R1.IsRotation) (h2 : R2.IsRotation) {C1 C2 X X' : V3 ℝ} {c c' : V2 × V2}
    (h : ExactMatch R1 R2 C1 C2 X c) (h' : ExactMatch R1 R2 C1 C2 X' c')
    (hd : ((X.sub C1).cross (X'.sub C1)).dot (C2.sub C1) ≠ 0) {q : V3 ℝ} (hq : (column R1 R2 c).dot q = 0)
    (hq' : (column R1 R2 c').dot q = 0) : Parallel (R1.transpose.mulVec q) (C2.sub C1) := by
  obtain ⟨z1, z2, p1, p2, e1, e, -⟩ := exact_rays h1 h2 h
  obtain ⟨z1', z2', p1', p2', e1', e', -⟩ := exact_rays h1 h2 h'
  rw [column_dot] at hq hq'
  generalize R1.transpose.mulVec q = w at *
  generalize R1.transpose.mulVec (homog c.1) = a at *
  generalize R2.transpose.mulVec (homog c.2) = b at *
  generalize R1.transpose.mulVec (homog c'.1) = a' at *
  generalize R2.transpose.mulVec (homog c'.2) = b' at *
  have n : ((X.sub C1).cross (C2.sub C1)).dot w = 0 := by
    have : ((X.sub C1).cross (C2.sub C1)).dot w = z1 * z2 * ((b.cross a).dot w) := by
      rw [e1, e]; simp only [V3.dot, V3.cross, V3.sub, V3.smul]; ring
    rw [this, hq, mul_zero]
  have n' : ((X'.sub C1).cross (C2.sub C1)).dot w = 0 := by
    have : ((X'.sub C1).cross (C2.sub C1)).dot w = z1' * z2' * ((b'.cross a').dot w) := by
      rw [e1', e']; simp only [V3.dot, V3.cross, V3.sub, V3.smul]; ring
    rw [this, hq', mul_zero]
  clear e e' e1 e1' hq hq'
  generalize X.sub C1 = x at *
  generalize X'.sub C1 = y at *
  generalize C2.sub C1 = B at *
  unfold Parallel
  simp only [V3.dot, V3.cross] at n n' hd
  apply V3.ext <;> simp only [V3.cross, V3.zero] <;> apply (mul_eq_zero.1 ?_).resolve_left hd
  · linear_combination (-(y.y * B.z - y.z * B.y)) * n + (x.y * B.z - x.z * B.y) * n'
  · linear_combination (-(y.z * B.x - y.x * B.z)) * n + (x.z * B.x - x.x * B.z) * n'
  · linear_combination (-(y.x * B.y - y.y * B.x)) * n + (x.x * B.y - x.y * B.x) * n'

theorem lagrange_pos {a b : V3 ℝ} (h : ¬ Parallel a b) : 0 < a.dot a * b.dot b - a.dot b * a.dot b := by
  have e : a.dot a * b.dot b - a.dot b * a.dot b = (a.cross b).dot (a.cross b) := by
    simp only [V3.dot, V3.cross]; ring
  rw [e]
  rcases lt_or_eq_of_le (show 0 ≤ (a.cross b).dot (a.cross b) by
    simp only [V3.dot]; nlinarith [mul_self_nonneg (a.cross b).x, mul_self_nonneg (a.cross b).y, mul_self_nonneg (a.cross b).z])
    with h0 | h0
  · exact h0
  · exact absurd (eq_zero_of_self h0.symm) h

theorem relative_ray {R1 R2 : M3 ℝ} (h1 : R1.IsRotation) (f : V2) :
    R1.transpose.mulVec ((R2.mul R1.transpose).transpose.mulVec (homog f)) = R2.transpose.mulVec (homog f) := by
  rw [M3.transpose_mul, M3.transpose_transpose, M3.mulVec_mul, h1.transpose_mulVec]

/-- An exact match is in front for the true direction. -/
theorem inFront_exact {R1 R2 : M3 ℝ} (h1 : R1.IsRotation) (h2 : R2.IsRotation) {C1 C2 X : V3 ℝ} {c : V2 × V2}
    (h : ExactMatch R1 R2 C1 C2 X c) {p : V3 ℝ} {k : ℝ} (hk : 0 < k) (hp : R1.mulVec (C2.sub C1) = p.smul k) :
    inFront c (R2.mul R1.transpose) p = true := by
  obtain ⟨z1, z2, p1, p2, e1, e, hnp⟩ := exact_rays h1 h2 h
  have hpar : ¬ Parallel (R1.transpose.mulVec (homog c.1)) (R2.transpose.mulVec (homog c.2)) := by
    intro hpar
    apply hnp
    unfold Parallel at hpar ⊢
    rw [e1, e]
    simp only [V3.cross, V3.zero, V3.mk.injEq, V3.smul, V3.sub] at hpar ⊢
    obtain ⟨a, b, d⟩ := hpar
    refine ⟨?_, ?_, ?_⟩
    · linear_combination (-(z1 * z2)) * a
    · linear_combination (-(z1 * z2)) * b
    · linear_combination (-(z1 * z2)) * d
  have hpos := lagrange_pos hpar
  have ep : R1.transpose.mulVec p = (C2.sub C1).smul k⁻¹ := by
    have := congrArg R1.transpose.mulVec hp
    rw [h1.transpose_mulVec, M3.mulVec_smul] at this
    rw [this]
    apply V3.ext <;> simp only [V3.smul] <;> field_simp
  rw [show c = (c.1, c.2) from rfl, inFront_iff]
  have er := relative_ray (R2 := R2) h1 c.2
  generalize (R2.mul R1.transpose).transpose.mulVec (homog c.2) = d at *
  have D : ∀ u v : V3 ℝ, u.dot v = (R1.transpose.mulVec u).dot (R1.transpose.mulVec v) := fun u v => (h1.transpose.dot u v).symm
  rw [D d d, D (homog c.1) p, D (homog c.1) d, D d p, D (homog c.1) (homog c.1), er, ep, e]
  generalize R1.transpose.mulVec (homog c.1) = a at *
  generalize R2.transpose.mulVec (homog c.2) = b at *
  have hki : 0 < k⁻¹ := inv_pos.2 hk
  have g1 := mul_pos (mul_pos p1 hki) hpos
  have g2 := mul_pos (mul_pos p2 hki) hpos
  simp only [V3.dot, V3.smul, V3.sub] at g1 g2 ⊢
  constructor <;> nlinarith [g1, g2]

theorem inFront_infinite {R1 R2 : M3 ℝ} (h1 : R1.IsRotation) (h2 : R2.IsRotation) {c : V2 × V2}
    (h : InfiniteMatch R1 R2 c) (p : V3 ℝ) : inFront c (R2.mul R1.transpose) p = false := by
  obtain ⟨k, e⟩ := infinite_rays h1 h2 h
  rw [show c = (c.1, c.2) from rfl]
  apply inFront_parallel
  have : (R2.mul R1.transpose).transpose.mulVec (homog c.2) = (homog c.1).smul k := by
    rw [M3.transpose_mul, M3.transpose_transpose, M3.mulVec_mul, e, M3.mulVec_smul, h1.mulVec_transpose]
  rw [this]
  apply V3.ext <;> simp only [V3.cross, V3.smul, V3.zero] <;> ring

end RelativePosition
end Theia
