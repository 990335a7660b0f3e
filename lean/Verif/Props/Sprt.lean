import Verif.Proof.Sprt

/-!
# C87: the sequential test seldom rejects a good model

-/

namespace Theia

open Sprt Spec

/-- The test passes over the points until the likelihood ratio of those seen so far exceeds the
threshold.  It rejects the model exactly if this happens, returns the number of points it has seen,
which is at least one, and the ratio of inliers among them. -/
theorem C87_test {residuals : List ℝ} (hne : residuals ≠ []) (errorThresh sigma : ℝ) {epsilon : ℝ}
    (h0 : 0 < epsilon) (h1 : epsilon < 1) (threshold : ℝ) :
    ∃ accept t, test residuals errorThresh sigma epsilon threshold =
        .ok (accept, t, (numInliers errorThresh (residuals.take t) : ℝ) / t) ∧
      1 ≤ t ∧ t ≤ residuals.length ∧
      (accept = true → t = residuals.length ∧ ∀ s, 1 ≤ s → s ≤ residuals.length →
        likelihoodRatio errorThresh sigma epsilon (residuals.take s) ≤ threshold) ∧
      (accept = false → threshold < likelihoodRatio errorThresh sigma epsilon (residuals.take t) ∧
        ∀ s, 1 ≤ s → s < t → likelihoodRatio errorThresh sigma epsilon (residuals.take s) ≤ threshold) := by
  obtain ⟨accept, t, k1, -, k3, k4, k5, k6, k7⟩ :=
    testLoop_spec (e := errorThresh) (σ := sigma) (A := threshold) h0 h1 residuals hne [] residuals rfl
  have e1 : numInliers errorThresh [] = 0 := rfl
  have e2 : likelihoodRatio errorThresh sigma epsilon [] = 1 := by
    simp [likelihoodRatio, sequenceProbability, e1]
  rw [e1, e2] at k1
  refine ⟨accept, t, k1, k3, k4, fun ha => ⟨k5 ha, fun s hs hs' => ?_⟩, fun ha => ⟨(k6 ha).2, fun s hs hs' => ?_⟩⟩
  · refine k7 s (by rw [List.length_nil]; omega) (by rw [k5 ha]; exact hs') (by simp [ha])
  · exact k7 s (by rw [List.length_nil]; omega) hs'.le fun _ => hs'

private theorem rejects_of_test {residuals : List ℝ} {e σ ε A : ℝ} (h0 : 0 < ε) (h1 : ε < 1)
    (hne : residuals ≠ []) {t : Nat} {q : ℝ} (h : test residuals e σ ε A = .ok (false, t, q)) :
    ∃ s, 1 ≤ s ∧ s ≤ residuals.length ∧ A < likelihoodRatio e σ ε (residuals.take s) := by
  obtain ⟨accept, t', k1, k2, k3, -, k5⟩ := C87_test hne e σ h0 h1 A
  rw [h] at k1
  simp only [Outcome.ok.injEq, Prod.mk.injEq] at k1
  exact ⟨t', k2, k3, (k5 k1.1.symm).1⟩

/-- If each of the points is an inlier with the probability `epsilon` of a good model, independently
of the others, the probability that the test rejects the model is at most one over the threshold, for
every number of points. -/
theorem C87_good_models {errorThresh sigma epsilon threshold : ℝ} (hs0 : 0 ≤ sigma) (hs1 : sigma ≤ 1)
    (h0 : 0 < epsilon) (h1 : epsilon < 1) (hA : 0 < threshold) (n : Nat)
    (residuals : (Fin n → Bool) → Fin n → ℝ) (hr : ∀ x i, residuals x i < errorThresh ↔ x i = true) :
    probability epsilon n (fun x => ∃ t ratio,
      test (List.ofFn (residuals x)) errorThresh sigma epsilon threshold = .ok (false, t, ratio)) ≤
      1 / threshold := by
  classical
  refine le_trans ?_ (ville h0 h1 hs0 hs1 hA n 1 zero_le_one)
  unfold probability
  refine Finset.sum_le_sum fun x _ => ?_
  refine mul_le_mul_of_nonneg_left ?_ (Finset.prod_nonneg fun i _ => ?_)
  · by_cases h : ∃ t ratio,
        test (List.ofFn (residuals x)) errorThresh sigma epsilon threshold = .ok (false, t, ratio)
    · rw [if_pos h, if_pos]
      obtain ⟨t, ratio, h⟩ := h
      have hne : List.ofFn (residuals x) ≠ [] := by
        intro e
        rw [e] at h
        simp [test, testLoop, divide] at h
      obtain ⟨s, k1, k2, k3⟩ := rejects_of_test h0 h1 hne h
      have hx : List.ofFn x = (List.ofFn (residuals x)).map fun r => decide (r < errorThresh) := by
        rw [List.map_ofFn]
        congr 1
        funext i
        simp only [Function.comp]
        rw [Bool.eq_iff_iff]
        simp [hr x i]
      rw [hx]
      refine (rejects_iff (σ := sigma) (ε := epsilon) _ (fun r => ?_) _ _).2 ⟨s, k1, k2, ?_⟩
      · unfold factor
        by_cases hc : r < errorThresh <;> simp [hc]
      · rw [one_mul, ← likelihoodRatio_eq h0 h1]
        exact k3
    · rw [if_neg h]
      split <;> norm_num
  · split <;> linarith

/-- A model that explains at least the points another one does is accepted if the other one is. -/
theorem C87_monotone {errorThresh sigma epsilon threshold : ℝ} (hs0 : 0 < sigma) (hse : sigma ≤ epsilon)
    (h1 : epsilon < 1) {better worse : List ℝ}
    (h : List.Forall₂ (fun b w => w < errorThresh → b < errorThresh) better worse)
    (hw : ∃ t ratio, test worse errorThresh sigma epsilon threshold = .ok (true, t, ratio)) :
    ∃ t ratio, test better errorThresh sigma epsilon threshold = .ok (true, t, ratio) := by
  have h0 : 0 < epsilon := by linarith
  obtain ⟨t, ratio, hw⟩ := hw
  have hwne : worse ≠ [] := by
    rintro rfl
    simp [test, testLoop, divide] at hw
  have hbne : better ≠ [] := by
    rintro rfl
    cases h
    exact hwne rfl
  have hlen := h.length_eq
  obtain ⟨aw, tw, w1, -, -, w4, -⟩ := C87_test hwne errorThresh sigma h0 h1 threshold
  rw [hw] at w1
  simp only [Outcome.ok.injEq, Prod.mk.injEq] at w1
  obtain ⟨-, w4⟩ := w4 w1.1.symm
  obtain ⟨ab, tb, b1, b2, b3, -, b5⟩ := C87_test hbne errorThresh sigma h0 h1 threshold
  cases ab with
  | true => exact ⟨_, _, b1⟩
  | false =>
    exfalso
    have hlt := (b5 rfl).1
    have hle := w4 tb b2 (by omega)
    have hfac : ∀ r, 0 < factor errorThresh sigma epsilon r := by
      intro r
      have : 0 < 1 - sigma := by linarith
      have : 0 < 1 - epsilon := by linarith
      unfold factor
      split <;> positivity
    have hmono : ∀ {b w : List ℝ}, List.Forall₂ (fun b w => w < errorThresh → b < errorThresh) b w →
        (b.map (factor errorThresh sigma epsilon)).prod ≤ (w.map (factor errorThresh sigma epsilon)).prod := by
      intro b w hbw
      induction hbw with
      | nil => simp
      | @cons x y xs ys hxy _ ih =>
        rw [List.map_cons, List.map_cons, List.prod_cons, List.prod_cons]
        refine mul_le_mul ?_ ih (List.prod_nonneg ?_) (hfac y).le
        · have e1 : 0 < 1 - epsilon := by linarith
          have q1 : sigma / epsilon ≤ 1 := by rw [div_le_one h0]; exact hse
          have q2 : 1 ≤ (1 - sigma) / (1 - epsilon) := by rw [one_le_div e1]; linarith
          unfold factor
          by_cases hy : y < errorThresh
          · rw [if_pos hy, if_pos (hxy hy)]
          · rw [if_neg hy]
            split <;> linarith
        · intro z hz
          obtain ⟨r, -, rfl⟩ := List.mem_map.1 hz
          exact (hfac r).le
    have := hmono (List.forall₂_take tb h)
    rw [← likelihoodRatio_eq h0 h1, ← likelihoodRatio_eq h0 h1] at this
    linarith

private theorem sub_log_lt {x y : ℝ} (hx : 1 ≤ x) (hxy : x < y) : x - Real.log x < y - Real.log y := by
  have hx0 : 0 < x := by linarith
  have hy0 : 0 < y := by linarith
  have h := Real.log_lt_sub_one_of_pos (div_pos hy0 hx0) (by
    intro e
    rw [div_eq_one_iff_eq hx0.ne'] at e
    linarith)
  rw [Real.log_div hy0.ne' hx0.ne'] at h
  have h2 : y / x - 1 = (y - x) / x := by field_simp
  have h3 : (y - x) / x ≤ y - x := div_le_self (by linarith) hx
  linarith

/-- The threshold: there is exactly one number `A ≥ 1` with `A = a₀ + log A`, where `a₀` is one plus the
ratio of the times, times the divergence, per model.  What is returned is between `a₀` and `A`; the
equation holds for it up to 1e-4, hence its error is at most `1e-4 / (a₀ - 1)`.  The loop never needs all
of its passes. -/
theorem C87_threshold {sigma epsilon time : ℝ} (hs0 : 0 < sigma) (hs1 : sigma < 1) (h0 : 0 < epsilon)
    (h1 : epsilon < 1) (ht : 0 ≤ time) {models : Int} (hm : 0 < models) :
    ∃ a0 A T : ℝ,
      a0 = 1 + time * ((1 - sigma) * Real.log ((1 - sigma) / (1 - epsilon)) + sigma * Real.log (sigma / epsilon)) /
        models ∧ 1 ≤ a0 ∧
      (A = a0 + Real.log A ∧ 1 ≤ A ∧ ∀ B, 1 ≤ B → B = a0 + Real.log B → B = A) ∧
      decisionThreshold sigma epsilon time models = .ok T ∧ a0 ≤ T ∧ T ≤ A ∧
      a0 + Real.log T - T < 1e-4 ∧ (A - T) * (a0 - 1) ≤ 1e-4 := by
  have hc := divergence_nonneg hs0 hs1 h0 h1
  have hd := divergence_ok hs0 hs1 h0 h1
  set c := (1 - sigma) * Real.log ((1 - sigma) / (1 - epsilon)) + sigma * Real.log (sigma / epsilon) with hcdef
  have hm' : (0 : ℝ) < (models : ℝ) := by exact_mod_cast hm
  set a0 : ℝ := 1 + time * c / models with ha0
  have h1a : 1 ≤ a0 := by
    have : 0 ≤ time * c / (models : ℝ) := by positivity
    linarith
  obtain ⟨A, hA1, hA2⟩ := fixed_point h1a
  obtain ⟨u, u1, u2, u3, u4⟩ := iterate_converges h1a
  have hu0 : 0 < u := by linarith
  have hu1 : 1 ≤ u := by linarith
  set T := a0 + Real.log u with hT
  have hTfix : T ≤ a0 + Real.log T := by
    have := Real.log_le_log hu0 u2
    linarith
  have hTA : T ≤ A := by
    by_contra hlt
    have := sub_log_lt (show 1 ≤ A by linarith) (not_le.1 hlt)
    linarith
  refine ⟨a0, A, T, rfl, h1a, ⟨hA2, by linarith, fun B hB1 hB2 => ?_⟩, ?_, by linarith, hTA, ?_, ?_⟩
  · rcases lt_trichotomy A B with hlt | heq | hgt
    · have := sub_log_lt (show 1 ≤ A by linarith) hlt
      linarith
    · exact heq.symm
    · have := sub_log_lt hB1 hgt
      linarith
  · unfold decisionThreshold divide
    rw [hd]
    simp only [Outcome.ok_bind]
    rw [if_neg hm'.ne']
    simp only [Outcome.ok_bind]
    rw [add_comm (time * c / (models : ℝ)) 1]
    exact u4
  · have := log_sub_le hu0 u2
    have h3 : (T - u) / u ≤ T - u := div_le_self (by linarith) hu1
    linarith
  · have huA : u ≤ A := by linarith
    have hlog := log_sub_le hu0 huA
    rw [le_div_iff₀ hu0] at hlog
    have e1 : Real.log A - Real.log u = A - T := by linarith
    rw [e1] at hlog
    have : (A - T) * (a0 - 1) ≤ (A - T) * (u - 1) :=
      mul_le_mul_of_nonneg_left (by linarith) (by linarith)
    nlinarith

/-! ## Examples -/

/-- The hypotheses of the theorems are met. -/
example : test [5, 0, 5, 5] 1 (1 / 10) (1 / 2) 3 = .ok (true, 4, 1 / 4) ∧
    test [5, 5, 0, 0] 1 (1 / 10) (1 / 2) 3 = .ok (false, 2, 0) ∧
    (∀ (n : Nat) (x : Fin n → Bool) (i : Fin n), (if x i then (0 : ℝ) else 5) < 1 ↔ x i = true) ∧
    List.Forall₂ (fun b w : ℝ => w < 1 → b < 1) [0, 0, 5] [5, 0, 5] := by
  refine ⟨?_, ?_, ?_, ?_⟩
  · norm_num [test, testLoop, pointRatio, divide, Outcome.ok_bind]
  · norm_num [test, testLoop, pointRatio, divide, Outcome.ok_bind]
  · intro n x i
    cases x i <;> norm_num
  · refine .cons (by norm_num) (.cons (by norm_num) (.cons (by norm_num) .nil))

/-- Without points the ratio of inliers is zero over zero. -/
theorem C87_empty_counterexample (errorThresh sigma epsilon threshold : ℝ) :
    test [] errorThresh sigma epsilon threshold = .ub := by
  simp [test, testLoop, divide]

end Theia
