import Verif.Proof.VisibilityPyramid

/-!
# C26: visibility pyramid
-/

namespace Theia

open Spec

/-- C26, exact score: for any image size, number of levels and points (inside or outside the image),
adding the points never fails and the score is the number of occupied cells of each grid, weighted by
the size of the grid. -/
theorem C26_score (width height levels : Nat) (hw : 0 < width) (hh : 0 < height) (hl : 0 < levels)
    (points : List (ℚ × ℚ)) :
    ∃ v v', VisibilityPyramid.new width height levels = .ok v ∧
      VisibilityPyramid.addPoints points v = .ok v' ∧
      v'.computeScore = visibilityScore width height levels points := by
  have hnew : ∃ v, VisibilityPyramid.new width height levels = .ok v := by
    unfold VisibilityPyramid.new
    rw [if_pos hw, if_pos hh, if_pos hl]
    exact ⟨_, rfl⟩
  obtain ⟨v, hv⟩ := hnew
  obtain ⟨v', h1, h2⟩ := VisibilityPyramid.addPoints_holds points (VisibilityPyramid.new_holds hv)
  exact ⟨v, v', hv, h1, by simpa using VisibilityPyramid.score_eq h2⟩

/-- C26, order: the score depends only on which points were added, not on their order or number. -/
theorem C26_order_independent (width height levels : Nat) (p q : List (ℚ × ℚ)) (hpq : ∀ x, x ∈ p ↔ x ∈ q)
    (v vp vq : VisibilityPyramid) (hv : VisibilityPyramid.new width height levels = .ok v)
    (hp : VisibilityPyramid.addPoints p v = .ok vp) (hq : VisibilityPyramid.addPoints q v = .ok vq) :
    vp.computeScore = vq.computeScore := by
  obtain ⟨v1, h1, h2⟩ := VisibilityPyramid.addPoints_holds p (VisibilityPyramid.new_holds hv)
  obtain ⟨v2, h3, h4⟩ := VisibilityPyramid.addPoints_holds q (VisibilityPyramid.new_holds hv)
  rw [hp] at h1
  rw [hq] at h3
  cases h1
  cases h3
  rw [VisibilityPyramid.score_eq h2, VisibilityPyramid.score_eq h4]
  unfold visibilityScore
  apply Finset.sum_congr rfl
  intro i _
  congr 1
  congr 1
  ext c
  simp [occupied, hpq]

/-- C26, monotone: adding a point never lowers the score, and leaves it unchanged exactly when the
point falls into an occupied cell of the finest grid. -/
theorem C26_add_point (width height levels : Nat) (p : List (ℚ × ℚ)) (x : ℚ × ℚ)
    (v vp vx : VisibilityPyramid) (hv : VisibilityPyramid.new width height levels = .ok v)
    (hp : VisibilityPyramid.addPoints p v = .ok vp) (hx : vp.addPoint x = .ok vx) :
    vp.computeScore ≤ vx.computeScore ∧
      (vp.computeScore = vx.computeScore ↔
        (cellOf (2 ^ levels) width x.1, cellOf (2 ^ levels) height x.2) ∈
          occupied width height (2 ^ levels) p) := by
  obtain ⟨v1, h1, h2⟩ := VisibilityPyramid.addPoints_holds p (VisibilityPyramid.new_holds hv)
  rw [hp] at h1
  cases h1
  obtain ⟨v2, h3, h4⟩ := VisibilityPyramid.addPoint_holds h2 x
  rw [hx] at h3
  cases h3
  have hl : 0 < levels := by
    unfold VisibilityPyramid.new at hv
    split at hv
    · split at hv
      · split at hv
        · assumption
        · cases hv
      · cases hv
    · cases hv
  rw [VisibilityPyramid.score_eq h2, VisibilityPyramid.score_eq h4, List.nil_append]
  have hocc : ∀ n, occupied width height n (p ++ [x]) =
      insert (cellOf n width x.1, cellOf n height x.2) (occupied width height n p) := by
    intro n
    ext c
    simp only [occupied, List.mem_toFinset, List.map_append, List.mem_append, List.map_cons,
      List.map_nil, List.mem_singleton, Finset.mem_insert]
    exact or_comm
  have hle : ∀ i ∈ Finset.range levels,
      (occupied width height (2 ^ (i + 1)) p).card * (2 ^ (i + 1) * 2 ^ (i + 1)) ≤
      (occupied width height (2 ^ (i + 1)) (p ++ [x])).card * (2 ^ (i + 1) * 2 ^ (i + 1)) := by
    intro i _
    apply Nat.mul_le_mul_right
    rw [hocc]
    exact Finset.card_le_card (Finset.subset_insert _ _)
  refine ⟨Finset.sum_le_sum hle, ?_⟩
  unfold visibilityScore
  rw [Finset.sum_eq_sum_iff_of_le hle]
  have hcell : ∀ i, (occupied width height (2 ^ (i + 1)) p).card * (2 ^ (i + 1) * 2 ^ (i + 1)) =
      (occupied width height (2 ^ (i + 1)) (p ++ [x])).card * (2 ^ (i + 1) * 2 ^ (i + 1)) ↔
      (cellOf (2 ^ (i + 1)) width x.1, cellOf (2 ^ (i + 1)) height x.2) ∈
        occupied width height (2 ^ (i + 1)) p := by
    intro i
    have hpos : 0 < 2 ^ (i + 1) * 2 ^ (i + 1) := Nat.mul_pos (Nat.two_pow_pos _) (Nat.two_pow_pos _)
    rw [Nat.mul_left_inj (by omega), hocc]
    constructor
    · intro h
      by_contra hn
      rw [Finset.card_insert_of_notMem hn] at h
      omega
    · intro h
      rw [Finset.insert_eq_of_mem h]
  constructor
  · intro h
    have := (hcell (levels - 1)).1 (h (levels - 1) (Finset.mem_range.2 (by omega)))
    have e : levels - 1 + 1 = levels := by omega
    rwa [e] at this
  · intro h i hi
    rw [hcell i]
    have hi := Finset.mem_range.1 hi
    simp only [occupied, List.mem_toFinset, List.mem_map, Prod.mk.injEq] at h ⊢
    obtain ⟨y, hy, e1, e2⟩ := h
    refine ⟨y, hy, ?_, ?_⟩
    · have := congrArg (· / 2 ^ (levels - (i + 1))) e1
      simp only [VisibilityPyramid.cellOf_halves levels _ _ (Nat.sub_le _ _)] at this
      rwa [Nat.sub_sub_self (by omega)] at this
    · have := congrArg (· / 2 ^ (levels - (i + 1))) e2
      simp only [VisibilityPyramid.cellOf_halves levels _ _ (Nat.sub_le _ _)] at this
      rwa [Nat.sub_sub_self (by omega)] at this

/-- Two points in one 2x2 cell but different 4x4 cells: 1 * 4 + 2 * 16. -/
example : visibilityScore 640 480 2 [(10, 10), (300, 200), (12, 9)] = 36 := by decide +kernel

end Theia
