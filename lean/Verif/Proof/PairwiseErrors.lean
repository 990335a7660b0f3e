import Verif.Spec.PairwiseErrors

/-!
# Lemmas on residuals of pairs of views
-/

namespace Theia
namespace PairwiseErrors

open Spec AngleAxis

theorem vectorLength_sq (v : V3 ℝ) : vectorLength v ^ 2 = v.dot v := Real.sq_sqrt (dot_self_nonneg v)

theorem vectorLength_nonneg (v : V3 ℝ) : 0 ≤ vectorLength v := Real.sqrt_nonneg _

theorem vectorLength_smul (s : ℝ) (v : V3 ℝ) : vectorLength (v.smul s) = |s| * vectorLength v := by
  unfold vectorLength
  have : (v.smul s).dot (v.smul s) = s ^ 2 * v.dot v := by simp only [V3.dot, V3.smul]; ring
  rw [this, Real.sqrt_mul (sq_nonneg s), Real.sqrt_sq_eq_abs]

theorem vectorLength_eq_zero {v : V3 ℝ} : vectorLength v = 0 ↔ v = V3.zero := by
  unfold vectorLength
  rw [Real.sqrt_eq_zero (dot_self_nonneg v)]
  constructor
  · exact eq_zero_of_dot
  · rintro rfl; simp [V3.dot, V3.zero]

theorem error_isRotation (a b c : V3 ℝ) : (((toM b).mul (toM a).transpose).mul (toM c).transpose).IsRotation :=
  ((isRotation_toM b).mul (isRotation_toM a).transpose).mul (isRotation_toM c).transpose

theorem transpose_mul_self {m : M3 ℝ} (h : m.IsRotation) : m.transpose.mul m = M3.one :=
  M3_ext_mulVec fun p => by rw [M3.mulVec_mul, h.transpose_mulVec, M3.one_mulVec]

theorem mul_transpose_self {m : M3 ℝ} (h : m.IsRotation) : m.mul m.transpose = M3.one :=
  M3_ext_mulVec fun p => by rw [M3.mulVec_mul, h.mulVec_transpose, M3.one_mulVec]

theorem error_eq_one {a b c : M3 ℝ} (ha : a.IsRotation) (hc : c.IsRotation) :
    (b.mul a.transpose).mul c.transpose = M3.one ↔ b = c.mul a := by
  constructor
  · intro h
    have h1 : ((b.mul a.transpose).mul c.transpose).mul (c.mul a) = c.mul a := by rw [h, M3.one_mul]
    rw [← h1, M3.mul_assoc, ← M3.mul_assoc c.transpose, transpose_mul_self hc, M3.one_mul, M3.mul_assoc,
      transpose_mul_self ha, M3.mul_one]
  · rintro rfl
    rw [M3.mul_assoc c, mul_transpose_self ha, M3.mul_one, mul_transpose_self hc]

theorem angle_eq_zero {m : M3 ℝ} (h : m.IsRotation) : angle m = 0 ↔ m = M3.one := by
  obtain ⟨w, rfl, hw⟩ := exists_log h
  rw [angle_toM hw]
  constructor
  · intro h
    rw [Real.sqrt_eq_zero (dot_self_nonneg w)] at h
    rw [eq_zero_of_dot h, toM_zero]
  · intro h
    rw [← angle_toM hw, h, angle]
    simp [trace, M3.one]

theorem isLog_zero {ofM : M3 ℝ → V3 ℝ} (h : IsLog ofM) {m : M3 ℝ} (hm : m.IsRotation) : ofM m = V3.zero ↔ m = M3.one := by
  rw [← angle_eq_zero hm, ← h.angle hm, ← vectorLength_eq_zero]
  rfl

theorem softLoss_nonneg (width : ℝ) {s : ℝ} (hs : 0 ≤ s) : 0 ≤ softLoss width s := by
  unfold softLoss
  have h1 : 0 ≤ s / width ^ 2 := by positivity
  have h2 : 1 ≤ Real.sqrt (1 + s / width ^ 2) := Real.one_le_sqrt.2 (by linarith)
  have h3 : 0 ≤ 2 * width ^ 2 := by positivity
  exact mul_nonneg h3 (by linarith)

theorem softLoss_eq_zero {width : ℝ} (hw : width ≠ 0) {s : ℝ} (hs : 0 ≤ s) : softLoss width s = 0 ↔ s = 0 := by
  unfold softLoss
  have h3 : 2 * width ^ 2 ≠ 0 := by positivity
  rw [mul_eq_zero, or_iff_right h3, sub_eq_zero]
  have h1 : 0 ≤ s / width ^ 2 := by positivity
  constructor
  · intro h
    have h4 := Real.sq_sqrt (show 0 ≤ 1 + s / width ^ 2 by linarith)
    rw [h] at h4
    have h5 : s / width ^ 2 = 0 := by linarith
    rcases div_eq_zero_iff.1 h5 with h | h
    · exact h
    · exact absurd h (by positivity)
  · rintro rfl; simp

theorem rotationTerms_eq {orientations : AMap Nat (V3 ℝ)} (l : List Term) :
    ∀ {ts}, rotationTerms orientations l = .ok ts →
      ts = l.filter fun p => orientations.contains p.1.1 && orientations.contains p.1.2 := by
  induction l with
  | nil => intro ts h; simp only [rotationTerms, Outcome.ok.injEq] at h; subst h; rfl
  | cons p l ih =>
    intro ts h
    rw [rotationTerms] at h
    rw [List.filter_cons]
    split at h
    · rename_i hc
      rw [if_pos hc]
      split at h
      · cases h
      · obtain ⟨rest, hr, h⟩ := Outcome.bind_eq_ok.1 h
        simp only [Outcome.ok.injEq] at h
        subst h
        rw [ih hr]
    · rename_i hc
      rw [if_neg hc, ih h]

theorem rotationTerms_ok {orientations : AMap Nat (V3 ℝ)} (l : List Term) (h : ∀ p ∈ l, p.1.1 ≠ p.1.2) :
    ∃ ts, rotationTerms orientations l = .ok ts := by
  induction l with
  | nil => exact ⟨_, rfl⟩
  | cons p l ih =>
    obtain ⟨ts, ht⟩ := ih fun q hq => h q (List.mem_cons_of_mem _ hq)
    rw [rotationTerms]
    split
    · rw [if_neg (h p (List.mem_cons_self ..)), ht]
      exact ⟨_, rfl⟩
    · exact ⟨ts, ht⟩

theorem sum_eq_zero_iff {l : List ℝ} (h : ∀ x ∈ l, 0 ≤ x) : l.sum = 0 ↔ ∀ x ∈ l, x = 0 := by
  induction l with
  | nil => simp
  | cons a l ih =>
    have ha := h a (List.mem_cons_self ..)
    have hl := fun x hx => h x (List.mem_cons_of_mem a hx)
    have hs := List.sum_nonneg hl
    rw [List.sum_cons, List.forall_mem_cons, ← ih hl]
    constructor
    · intro h; exact ⟨by linarith, by linarith⟩
    · rintro ⟨h1, h2⟩; rw [h1, h2, add_zero]

/-- Two unit vectors. -/
theorem unit_sub_sq {t d : V3 ℝ} {n : ℝ} (hn : n ≠ 0) (ht : n ^ 2 = t.dot t) (hd : d.dot d = 1) :
    ((t.smul n⁻¹).sub d).dot ((t.smul n⁻¹).sub d) = 2 - 2 * (t.dot d / n) := by
  have h1 : ((t.smul n⁻¹).sub d).dot ((t.smul n⁻¹).sub d) = n⁻¹ ^ 2 * t.dot t - 2 * (n⁻¹ * t.dot d) + d.dot d := by
    simp only [V3.dot, V3.sub, V3.smul]; ring
  rw [h1, ← ht, hd]
  field_simp
  ring

theorem translation_eq (d : V3 ℝ) (w : ℝ) (c1 c2 : V3 ℝ) :
    translation d w c1 c2 = (((c2.sub c1).smul (if vectorLength (c2.sub c1) < 1e-12 then 1 else
      vectorLength (c2.sub c1))⁻¹).sub d).smul w := by
  unfold translation
  apply V3.ext <;> simp only [V3.sub, V3.smul, vectorLength] <;> rw [div_eq_inv_mul] <;> split_ifs <;> rfl

end PairwiseErrors
end Theia
