import Verif.Proof.LinearPositionRun

/-!
# The sub-procedures of the linear position estimation exist

So the hypotheses about them in the theorems can be met.
-/

namespace Theia
namespace LinearPosition

open Spec LinearRotation AngleAxis

theorem exists_smallest_one {n : Nat} (hn : 3 ≤ n) {m : Nat → Nat → ℝ} (hm : ∀ r c, m r c = m c r) :
    ∃ u, SmallestEigenvector n m u := by
  obtain ⟨u, hu, l, hl, hs⟩ := LinearRotation.exists_smallest hn hm
  obtain ⟨i, hi⟩ : ∃ i, ∀ j, l i ≤ l j := by
    obtain ⟨i, -, hi⟩ := Finset.exists_min_image Finset.univ l Finset.univ_nonempty
    exact ⟨i, fun j => hi j (Finset.mem_univ _)⟩
  refine ⟨u i, by rw [hu]; simp, ?_⟩
  intro v hv
  have h1 : vecInner n (u i) (applyMatrix n m (u i)) = l i := by
    have : vecInner n (u i) (applyMatrix n m (u i)) = l i * vecInner n (u i) (u i) := by
      unfold vecInner
      rw [Finset.mul_sum]
      apply Finset.sum_congr rfl
      intro r hr
      rw [hl i r (Finset.mem_range.1 hr)]
      ring
    rw [this, hu]
    simp
  have h2 := form_split hm hu hl hs v i
  unfold LinearRotation.form at h2
  rw [h1]
  refine le_trans ?_ h2
  rw [hv]
  nlinarith [mul_nonneg (sub_nonneg.2 (hi 0)) (sq_nonneg (vecInner n v (u 0))),
    mul_nonneg (sub_nonneg.2 (hi 1)) (sq_nonneg (vecInner n v (u 1))),
    mul_nonneg (sub_nonneg.2 (hi 2)) (sq_nonneg (vecInner n v (u 2)))]

/-- There is an eigensolver; it may return any smallest eigenvector for one given matrix. -/
theorem exists_eigensolver_with {n : Nat} {m : Nat → Nat → ℝ} {u : Nat → ℝ} (hu : SmallestEigenvector n m u) :
    ∃ eig, EigensolverOne eig ∧ eig n m = some u := by
  classical
  refine ⟨fun k a => if k = n ∧ a = m then some u
    else if h : 3 ≤ k ∧ ∀ r c, a r c = a c r then some (exists_smallest_one h.1 h.2).choose else none, ?_, by simp⟩
  intro k a h1 h2
  by_cases hk : k = n ∧ a = m
  · obtain ⟨rfl, rfl⟩ := hk
    exact ⟨u, by simp, hu⟩
  · exact ⟨_, by beta_reduce; rw [if_neg hk, dif_pos ⟨h1, h2⟩], (exists_smallest_one h1 h2).choose_spec⟩

theorem exists_eigensolver : ∃ eig, EigensolverOne eig := by
  obtain ⟨u, hu⟩ := exists_smallest_one (n := 3) (m := fun _ _ => 0) le_rfl (fun _ _ => rfl)
  obtain ⟨eig, h, -⟩ := exists_eigensolver_with hu
  exact ⟨eig, h⟩

theorem exists_turn {a b : V3 ℝ} (ha : a ≠ V3.zero) (hb : b ≠ V3.zero) : ∃ m, TurnsTo m a b := by
  have pa := Real.sqrt_pos.2 (V3.self_pos ha)
  have pb := Real.sqrt_pos.2 (V3.self_pos hb)
  have sa := Real.mul_self_sqrt (V3.self_nonneg a)
  have sb := Real.mul_self_sqrt (V3.self_nonneg b)
  generalize Real.sqrt (a.dot a) = p at pa sa
  generalize Real.sqrt (b.dot b) = q at pb sb
  have hlag : (a.cross b).dot (a.cross b) + a.dot b * a.dot b = p * p * (q * q) := by
    rw [sa, sb]
    simp only [V3.dot, V3.cross]
    ring
  unfold TurnsTo
  have sa' : Real.sqrt (a.dot a) = p := by rw [← sa]; exact Real.sqrt_mul_self pa.le
  have sb' : Real.sqrt (b.dot b) = q := by rw [← sb]; exact Real.sqrt_mul_self pb.le
  rw [sa', sb']
  by_cases hx : a.cross b = V3.zero
  · -- the directions are equal or opposite
    rw [hx] at hlag ⊢
    have hz : ∀ m : M3 ℝ, m.mulVec V3.zero = V3.zero := by
      intro m
      apply V3.ext <;> simp [M3.mulVec, V3.dot, V3.zero]
    have hd : (a.dot b - p * q) * (a.dot b + p * q) = 0 := by
      have : V3.zero.dot (V3.zero : V3 ℝ) = 0 := by simp [V3.dot, V3.zero]
      rw [this] at hlag
      linear_combination hlag
    rcases mul_eq_zero.1 hd with h | h
    · refine ⟨M3.one, M3.IsRotation.one, ?_, hz _⟩
      rw [M3.one_mulVec]
      apply V3.sub_eq_zero
      apply V3.self_eq_zero
      have : ((a.smul q).sub (b.smul p)).dot ((a.smul q).sub (b.smul p)) =
          q * q * a.dot a + p * p * b.dot b - 2 * p * q * a.dot b := by
        simp only [V3.dot, V3.sub, V3.smul]
        ring
      rw [this, ← sa, ← sb]
      linear_combination (-2 * p * q) * h
    · obtain ⟨e, he, hae⟩ := exists_orthogonal a
      refine ⟨rodriguesMatrix e (-1) 0, isRotation_rodrigues he (by norm_num), ?_, hz _⟩
      have hab : (a.smul q).add (b.smul p) = V3.zero := by
        apply V3.self_eq_zero
        have : ((a.smul q).add (b.smul p)).dot ((a.smul q).add (b.smul p)) =
            q * q * a.dot a + p * p * b.dot b + 2 * p * q * a.dot b := by
          simp only [V3.dot, V3.add, V3.smul]
          ring
        rw [this, ← sa, ← sb]
        linear_combination (2 * p * q) * h
      have hx := congrArg V3.x hab
      have hy := congrArg V3.y hab
      have hz := congrArg V3.z hab
      simp only [V3.add, V3.smul, V3.zero] at hx hy hz
      simp only [V3.dot] at hae
      rw [rodriguesMatrix_mulVec]
      apply V3.ext <;> simp only [rodrigues, V3.add, V3.smul, V3.cross, V3.dot]
      · linear_combination (-1) * hx + 2 * e.x * q * hae
      · linear_combination (-1) * hy + 2 * e.y * q * hae
      · linear_combination (-1) * hz + 2 * e.z * q * hae
  · have pn := Real.sqrt_pos.2 (V3.self_pos hx)
    have sn := Real.mul_self_sqrt (V3.self_nonneg (a.cross b))
    generalize Real.sqrt ((a.cross b).dot (a.cross b)) = k at pn sn
    refine ⟨rodriguesMatrix ((a.cross b).smul (1 / k)) (a.dot b / (p * q)) (k / (p * q)), ?_, ?_, ?_⟩
    · apply isRotation_rodrigues
      · rw [BaselineRatios.dot_smul, ← sn]
        field_simp
      · rw [← sn] at hlag
        field_simp
        linear_combination hlag
    · rw [rodriguesMatrix_mulVec]
      simp only [V3.dot] at sa
      apply V3.ext <;> simp only [rodrigues, V3.add, V3.smul, V3.cross, V3.dot] <;> field_simp <;>
        first
          | linear_combination (-(k * k) * b.x) * sa
          | linear_combination (-(k * k) * b.y) * sa
          | linear_combination (-(k * k) * b.z) * sa
    · rw [rodriguesMatrix_mulVec]
      have e : ∀ x : ℝ, 1 / k * (1 / k) * (k * k) * x = x := by
        intro x
        field_simp
      have h1 : ((a.cross b).smul (1 / k)).dot (a.cross b) = k := by
        rw [show ((a.cross b).smul (1 / k)).dot (a.cross b) = 1 / k * (a.cross b).dot (a.cross b) by
          simp only [V3.dot, V3.smul]; ring, ← sn]
        field_simp
      unfold rodrigues
      rw [h1]
      generalize a.cross b = n at *
      apply V3.ext <;> simp only [V3.add, V3.smul, V3.cross] <;> field_simp <;> ring

theorem exists_turns : ∃ f, TurnsOneToOther f := by
  classical
  refine ⟨fun a b => if h : a ≠ V3.zero ∧ b ≠ V3.zero then (exists_turn h.1 h.2).choose else M3.one, ?_⟩
  intro a b ha hb
  beta_reduce
  rw [dif_pos ⟨ha, hb⟩]
  exact (exists_turn ha hb).choose_spec

end LinearPosition
end Theia
