import Verif.Proof.Quality

/-!
# C23: quality measurements
-/

namespace Theia

open Spec Quality

section
variable {K : Type} [Field K] [LinearOrder K] [IsStrictOrderedRing K]

omit [Field K] [IsStrictOrderedRing K] in
/-- C23, inlier support: exactly the positions with residual below the threshold are reported, the
cost is the number of the others, and it does not decrease when residuals grow. -/
theorem C23_inlier_support (thresh : K) (rs : List K) :
    ExactlyThePositions rs (· < thresh) (inlierSupport thresh rs).2 ∧
    (inlierSupport thresh rs).1 = rs.countP (fun r => decide (thresh ≤ r)) ∧
    ∀ rs', List.Forall₂ (· ≤ ·) rs rs' → (inlierSupport thresh rs).1 ≤ (inlierSupport thresh rs').1 := by
  have hcost : ∀ rs : List K, (inlierSupport thresh rs).1 = rs.countP (fun r => decide (thresh ≤ r)) := by
    intro rs
    simp only [inlierSupport]
    rw [length_inlierIndices, List.length_eq_countP_add_countP (fun r => decide (r < thresh)) (l := rs)]
    rw [Nat.add_sub_cancel_left]
    congr 1
    funext r
    by_cases h : r < thresh
    · simp [h]
    · simp [h, not_lt.1 h]
  refine ⟨?_, hcost rs, ?_⟩
  · have := exactly_inlierIndices (fun r => decide (r < thresh)) rs
    simpa [inlierSupport] using this
  · intro rs' h
    rw [hcost, hcost]
    induction h with
    | nil => simp
    | cons hab _ ih =>
      rw [List.countP_cons, List.countP_cons]
      apply Nat.add_le_add ih
      split
      · next h1 =>
        have h2 := of_decide_eq_true h1
        rw [if_pos (decide_eq_true (le_trans h2 hab))]
      · exact Nat.zero_le _

/-- C23, MLE: exactly the positions with residual below the threshold are reported; the cost is the
sum of the residuals cut off at the threshold; it does not decrease when residuals grow; and for
nonnegative residuals and threshold it lies between zero and the threshold times their number. -/
theorem C23_mle (thresh : K) (rs : List K) :
    ExactlyThePositions rs (· < thresh) (mle thresh rs).2 ∧
    (mle thresh rs).1 = (rs.map fun r => min r thresh).sum ∧
    (∀ rs', List.Forall₂ (· ≤ ·) rs rs' → (mle thresh rs).1 ≤ (mle thresh rs').1) ∧
    (0 ≤ thresh → (∀ r ∈ rs, 0 ≤ r) →
      0 ≤ (mle thresh rs).1 ∧ (mle thresh rs).1 ≤ rs.length * thresh) := by
  have hcost : ∀ rs : List K, (mle thresh rs).1 = (rs.map fun r => min r thresh).sum := by
    intro rs
    simp only [mle]
    rw [mleScore_eq, zero_add]
  refine ⟨?_, hcost rs, ?_, ?_⟩
  · have := exactly_inlierIndices (fun r => decide (r < thresh)) rs
    simpa [mle] using this
  · intro rs' h
    rw [hcost, hcost]
    induction h with
    | nil => simp
    | cons hab _ ih =>
      rw [List.map_cons, List.map_cons, List.sum_cons, List.sum_cons]
      exact add_le_add (min_le_min hab (le_refl _)) ih
  · intro ht hr
    rw [hcost]
    induction rs with
    | nil => simp
    | cons a rs ih =>
      rw [List.map_cons, List.sum_cons, List.length_cons]
      obtain ⟨h1, h2⟩ := ih (fun r h => hr r (List.mem_cons_of_mem _ h))
      have h3 : 0 ≤ min a thresh := le_min (hr a List.mem_cons_self) ht
      have h4 : min a thresh ≤ thresh := min_le_right _ _
      push_cast
      constructor
      · linarith
      · linarith

/-- C23, least median: for two or more residuals the cost splits the squared residuals in halves (at
least `⌊n/2⌋` of them are at most the cost and at least `⌈n/2⌉` are at least the cost). -/
theorem C23_lmed_cost (rs : List K) (hn : 2 ≤ rs.length) :
    ∃ c, medianOfSquares rs = .ok c ∧ 0 ≤ c ∧
      rs.length / 2 ≤ rs.countP (fun r => decide (r * r ≤ c)) ∧
      rs.length - rs.length / 2 ≤ rs.countP (fun r => decide (c ≤ r * r)) := by
  have hpos : ∀ x ∈ rs.map (fun r => r * r), 0 ≤ x := by
    intro x hx
    obtain ⟨r, _, rfl⟩ := List.mem_map.1 hx
    exact mul_self_nonneg r
  have hcl : ∀ c : K, (rs.map fun r => r * r).countP (fun y => decide (y ≤ c)) =
      rs.countP (fun r => decide (r * r ≤ c)) := fun c => by rw [List.countP_map]; rfl
  have hcg : ∀ c : K, (rs.map fun r => r * r).countP (fun y => decide (c ≤ y)) =
      rs.countP (fun r => decide (c ≤ r * r)) := fun c => by rw [List.countP_map]; rfl
  have hlen : (rs.map fun r => r * r).length = rs.length := List.length_map _
  obtain ⟨x, hx, hxm, hx1, hx2⟩ := orderStatistic_spec (l := rs.map fun r => r * r) (k := rs.length / 2)
    (by rw [hlen]; omega)
  rw [hcl] at hx1
  rw [hcg, hlen] at hx2
  unfold medianOfSquares
  simp only [hlen, hx]
  by_cases hodd : rs.length % 2 ≠ 0
  · rw [if_pos hodd, if_neg (by omega)]
    obtain ⟨y, hy, hym, hy1, hy2⟩ := orderStatistic_spec (l := rs.map fun r => r * r)
      (k := rs.length / 2 - 1) (by rw [hlen]; omega)
    rw [hcl] at hy1
    have hyx : y ≤ x := orderStatistic_mono hy (by
      have : rs.length / 2 - 1 + 1 = rs.length / 2 := by omega
      rw [this]; exact hx)
    rw [hy]
    have a1 := hpos x hxm
    have a2 := hpos y hym
    refine ⟨1 / 2 * (y + x), rfl, by linarith, ?_, ?_⟩
    · refine le_trans (by omega) (le_trans hy1 ?_)
      apply List.countP_mono_left
      intro r _ hr
      have := of_decide_eq_true hr
      exact decide_eq_true (by linarith)
    · refine le_trans hx2 ?_
      apply List.countP_mono_left
      intro r _ hr
      have := of_decide_eq_true hr
      exact decide_eq_true (by linarith)
  · rw [if_neg hodd]
    exact ⟨x, rfl, hpos x hxm, by omega, by omega⟩

end

/-- C23, least median: with more residuals than the minimum sample, the inliers reported are exactly
the data with residual below a threshold above the root of the cost, so at least half of the data are
inliers if the cost is positive; if the cost is zero none is. -/
theorem C23_lmed_inliers (m : Nat) (rs : List ℝ) (hn : 2 ≤ rs.length) (hm : m < rs.length) :
    ∃ c inl T, lmed m rs = .ok (c, inl) ∧ medianOfSquares rs = .ok c ∧
      T = 2.5 * 1.4826 * (1 + 5 / ((rs.length : ℝ) - m)) * Real.sqrt c ∧ ExactlyThePositions rs (fun r => |r| < T) inl ∧
      (0 < c → rs.length / 2 ≤ inl.length) ∧ (c = 0 → inl = []) := by
  obtain ⟨c, hc, hc0, h1, h2⟩ := C23_lmed_cost rs hn
  have hsub : (0 : ℝ) < (rs.length : ℝ) - m := by
    have : (m : ℝ) < rs.length := by exact_mod_cast hm
    linarith
  have hfac : (1 : ℝ) < 2.5 * 1.4826 * (1 + 5 / ((rs.length : ℝ) - m)) := by
    have : 0 < 5 / ((rs.length : ℝ) - m) := by positivity
    norm_num
    linarith
  have hT0 : 0 ≤ lmedThreshold c rs.length m :=
    mul_nonneg (by linarith) (Real.sqrt_nonneg c)
  have htest : ∀ r : ℝ, decide (r * r < lmedThreshold c rs.length m * lmedThreshold c rs.length m) = true ↔
      |r| < lmedThreshold c rs.length m := by
    intro r
    rw [decide_eq_true_eq, ← abs_mul_abs_self r]
    exact ⟨fun h => lt_of_mul_self_lt_mul_self₀ hT0 h, fun h => mul_self_lt_mul_self (abs_nonneg r) h⟩
  refine ⟨c, _, _, by rw [lmed, hc], hc, rfl, ?_, ?_, ?_⟩
  · obtain ⟨e1, e2⟩ := exactly_inlierIndices
      (fun r => decide (r * r < lmedThreshold c rs.length m * lmedThreshold c rs.length m)) rs
    refine ⟨e1, fun i => ?_⟩
    rw [e2 i]
    exact exists_congr fun r => and_congr_right fun _ => htest r
  · intro hpos
    rw [length_inlierIndices]
    refine le_trans h1 (List.countP_mono_left ?_)
    intro r _ hr
    have hr' : r * r ≤ c := of_decide_eq_true hr
    apply decide_eq_true
    have hs : 0 < Real.sqrt c := Real.sqrt_pos.2 hpos
    have hlt : Real.sqrt c < lmedThreshold c rs.length m := by
      unfold lmedThreshold
      nlinarith
    calc r * r ≤ c := hr'
      _ = Real.sqrt c * Real.sqrt c := (Real.mul_self_sqrt hc0).symm
      _ < _ := mul_self_lt_mul_self hs.le hlt
  · intro h0
    have hT : lmedThreshold c rs.length m = 0 := by rw [h0]; simp [lmedThreshold]
    simp only [hT]
    apply List.eq_nil_iff_forall_not_mem.2
    intro i hi
    obtain ⟨_, r, _, hr⟩ := (mem_inlierIndices _ rs 0 i).1 hi
    have := of_decide_eq_true hr
    nlinarith [mul_self_nonneg r]

/-- Three residuals, one of them below the threshold. -/
example : inlierSupport (3 : ℚ) [5, 1, 3] = (2, [1]) := by decide +kernel

example : mle (3 : ℚ) [5, 1, 3] = (7, [1]) := by decide +kernel

/-- The cost for an odd number of residuals is not the median (here 4) but halfway to the next lower
value, because the parity test is the wrong way round. -/
theorem C23_lmed_odd_counterexample :
    medianOfSquares [1, 2, 3] = .ok (5 / 2 : ℚ) ∧ medianOfSquares [1, 2, 3] ≠ .ok (2 * 2 : ℚ) := by
  have : List.mergeSort [(1 * 1 : ℚ), 2 * 2, 3 * 3] (fun a b => decide (a ≤ b)) = [1 * 1, 2 * 2, 3 * 3] := by
    apply List.mergeSort_of_pairwise
    norm_num
  simp only [medianOfSquares, orderStatistic, List.map_cons, List.map_nil, this]
  norm_num

/-- A single residual makes the least median read before the start of the vector. -/
theorem C23_lmed_single_counterexample (r : ℚ) : medianOfSquares [r] = .ub := by
  simp [medianOfSquares, orderStatistic]

end Theia
